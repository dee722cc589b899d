import Verif.Lemmas.BatchIterator
import Verif.Props.Parsing
/-! # Properties C03 to C06: iterating over text files -/
namespace TheanoLM

/-! ## Specification -/

/-- `Lines text ls`: `ls` are the lines of `text`, in order; every line but possibly the last ends with a newline
character, and there are no other newline characters. -/
inductive Lines : Str → List Str → Prop
  | nil : Lines [] []
  | last (l : Str) : l ≠ [] → '\n' ∉ l → Lines l [l]
  | cons (l rest : Str) (ls : List Str) : '\n' ∉ l → Lines rest ls → Lines (l ++ '\n' :: rest) ((l ++ ['\n']) :: ls)

/-- `Corpus files k us`: `us` are the utterances of all the lines of all the files in order, where each word is labelled
with the number of its file and the number of the first file is `k`. -/
inductive Corpus : List Str → Nat → List (List Tok) → Prop
  | nil (k : Nat) : Corpus [] k []
  | cons (f : Str) (fs : List Str) (k : Nat) (ls : List Str) (us : List (List Str)) (rest : List (List Tok)) :
      Lines f ls → List.Forall₂ (fun l u => utteranceFromLine l = .ok u) ls us → Corpus fs (k + 1) rest →
      Corpus (f :: fs) k (us.map (fun u => u.map (fun w => (w, k))) ++ rest)

/-- `IsCut m l ps`: `ps` is `l` cut to non-empty consecutive pieces, each of length `m` except for the last, which may
be shorter. -/
structure IsCut (m : Nat) (l : List α) (ps : List (List α)) : Prop where
  join : ps.flatten = l
  nonempty : ∀ p ∈ ps, p ≠ []
  full : ∀ p ∈ ps.dropLast, p.length = m
  bound : ∀ p ∈ ps, p.length ≤ m

/-- Cutting an utterance with an optional maximum length: no limit means a single piece. -/
def IsCutOpt (m : Option Nat) (l : List α) (ps : List (List α)) : Prop :=
  match m with
  | some m => IsCut m l ps
  | none => ps = if l = [] then [] else [l]

/-- `Sequences files m ss`: the sequences that a pass over the files should deliver: the pieces of the utterances, in
order, other than those shorter than two words. -/
def Sequences (files : List Str) (m : Option Nat) (ss : List (List Tok)) : Prop :=
  ∃ us cuts, Corpus files 0 us ∧ List.Forall₂ (IsCutOpt m) us cuts ∧
    ss = cuts.flatten.filter (fun p => decide (2 ≤ p.length))

/-! ## The specification determines its result -/

theorem isCut_chunk (k : Nat) (l : List α) : IsCut (k + 1) l (chunk k l) where
  join := chunk_flatten k l
  nonempty := fun p hp => (chunk_mem k l p hp).1
  full := chunk_dropLast k l
  bound := fun p hp => (chunk_mem k l p hp).2

theorem isCut_unique (k : Nat) (l : List α) (ps : List (List α)) (h : IsCut (k + 1) l ps) : ps = chunk k l := by
  induction ps generalizing l with
  | nil => rw [← h.join]; simp [chunk_nil]
  | cons p ps ih =>
    have hp : p ≠ [] := h.nonempty p (by simp)
    have hl : l ≠ [] := by rw [← h.join]; simp [hp]
    have hb := h.bound p (by simp)
    rw [chunk_ne_nil k hl]
    by_cases hps : ps = []
    · subst hps
      have : l = p := by rw [← h.join]; simp
      subst this
      rw [List.take_of_length_le hb, List.drop_of_length_le hb, chunk_nil]
    · have hlen : p.length = k + 1 := by
        apply h.full
        obtain ⟨q, qs, rfl⟩ := List.exists_cons_of_ne_nil hps
        simp
      have hl2 : l = p ++ ps.flatten := by rw [← h.join]; simp
      have h1 : l.take (k + 1) = p := by rw [hl2, ← hlen, List.take_left]
      have h2 : l.drop (k + 1) = ps.flatten := by rw [hl2, ← hlen, List.drop_left]
      rw [h1, h2]
      congr 1
      apply ih
      refine ⟨rfl, fun q hq => h.nonempty q (by simp [hq]), fun q hq => ?_, fun q hq => h.bound q (by simp [hq])⟩
      apply h.full
      obtain ⟨q', qs, rfl⟩ := List.exists_cons_of_ne_nil hps
      simp only [List.dropLast_cons_cons, List.mem_cons]
      exact .inr hq

theorem isCutOpt_iff (m : Option Nat) (hm : m ≠ some 0) (l : List Tok) (ps : List (List Tok)) :
    IsCutOpt m l ps ↔ ps = piecesOf m l := by
  cases m with
  | none => rfl
  | some m =>
    obtain ⟨k, rfl⟩ : ∃ k, m = k + 1 := ⟨m - 1, by
      have : m ≠ 0 := fun h => hm (by rw [h]); omega⟩
    simp only [IsCutOpt, piecesOf, Nat.add_sub_cancel]
    exact ⟨isCut_unique k l ps, fun h => h ▸ isCut_chunk k l⟩

theorem linesOf_append_nl (l rest : Str) (hl : '\n' ∉ l) :
    linesOf isNl (l ++ '\n' :: rest) = (l ++ ['\n']) :: linesOf isNl rest := by
  induction l with
  | nil => simp [linesOf, isNl]
  | cons c cs ih =>
    have hc : isNl c = false := by
      simp only [List.mem_cons, not_or] at hl
      simp only [isNl, beq_eq_false_iff_ne]
      exact fun h => hl.1 h.symm
    have := ih (fun h => hl (by simp [h]))
    simp [linesOf, hc, this]

theorem linesOf_last (l : Str) (h : l ≠ []) (hl : '\n' ∉ l) : linesOf isNl l = [l] := by
  induction l with
  | nil => simp at h
  | cons c cs ih =>
    have hc : isNl c = false := by
      simp only [List.mem_cons, not_or] at hl
      simp only [isNl, beq_eq_false_iff_ne]
      exact fun h => hl.1 h.symm
    by_cases hcs : cs = []
    · subst hcs; simp [linesOf, hc]
    · have := ih hcs (fun h => hl (by simp [h]))
      simp [linesOf, hc, this]

theorem lines_eq {text : Str} {ls : List Str} (h : Lines text ls) : ls = linesOf isNl text := by
  induction h with
  | nil => rfl
  | last l h1 h2 => rw [linesOf_last l h1 h2]
  | cons l rest ls h1 _ ih => rw [linesOf_append_nl l rest h1, ih]

theorem lines_linesOf (text : Str) : Lines text (linesOf isNl text) := by
  induction hn : text.length using Nat.strongRecOn generalizing text with
  | ind n ih =>
    by_cases ht : text = []
    · subst ht; exact .nil
    · by_cases hnl : '\n' ∈ text
      · obtain ⟨a, b, rfl, hna⟩ := List.eq_append_cons_of_mem hnl
        rw [linesOf_append_nl a b hna]
        exact .cons a b _ hna (ih b.length (by rw [← hn]; simp; omega) b rfl)
      · rw [linesOf_last text ht hnl]; exact .last text ht hnl

theorem utterance_of_ok {l : Str} {u : List Str} (h : utteranceFromLine l = .ok u) : utterance l = u := by
  simp [utterance, h]

theorem utterance_ok (l : Str) : utteranceFromLine l = .ok (utterance l) := by
  obtain ⟨u, h⟩ := C01_no_error l
  rw [h, utterance_of_ok h]

theorem forall₂_utterance {ls : List Str} {us : List (List Str)}
    (h : List.Forall₂ (fun l u => utteranceFromLine l = .ok u) ls us) : us = ls.map utterance := by
  induction h with
  | nil => rfl
  | cons h _ ih => simp [utterance_of_ok h, ih]

theorem corpus_iff (files : List Str) (k : Nat) (us : List (List Tok)) :
    Corpus files k us ↔ us = (linTail files k).map lineToks := by
  constructor
  · intro h
    induction h with
    | nil => rfl
    | cons f fs k ls us rest h1 h2 _ ih =>
      rw [lines_eq h1] at h2
      rw [ih, forall₂_utterance h2, linTail, List.map_append, List.map_map, List.map_map]
      rfl
  · rintro rfl
    induction files generalizing k with
    | nil => exact .nil k
    | cons f fs ih =>
      have := Corpus.cons f fs k (linesOf isNl f) ((linesOf isNl f).map utterance)
        ((linTail fs (k + 1)).map lineToks) (lines_linesOf f)
        (by rw [List.forall₂_map_right_iff, List.forall₂_same]; exact fun l _ => utterance_ok l) (ih (k + 1))
      rw [linTail, List.map_append, List.map_map]
      rw [List.map_map] at this
      exact this

theorem forall₂_cut (m : Option Nat) (hm : m ≠ some 0) (us : List (List Tok)) (cuts : List (List (List Tok))) :
    List.Forall₂ (IsCutOpt m) us cuts ↔ cuts = us.map (piecesOf m) := by
  constructor
  · intro h
    induction h with
    | nil => rfl
    | cons h _ ih => rw [(isCutOpt_iff m hm _ _).mp h, ih]; rfl
  · rintro rfl
    rw [List.forall₂_map_right_iff, List.forall₂_same]
    exact fun l _ => (isCutOpt_iff m hm _ _).mpr rfl

theorem sequences_iff (files : List Str) (m : Option Nat) (hm : m ≠ some 0) (ss : List (List Tok)) :
    Sequences files m ss ↔
      ss = pend { batchSize := 1, maxLen := m } (linRem files) linearInit := by
  have e : pend { batchSize := 1, maxLen := m } (linRem files) linearInit =
      longEnough (((linTail files 0).map lineToks).map (piecesOf m)).flatten := by
    simp [pend, linearInit, piecesOf_nil, linRem_init]
    rfl
  rw [e]
  constructor
  · rintro ⟨us, cuts, h1, h2, h3⟩
    rw [h3, (forall₂_cut m hm us cuts).mp h2, (corpus_iff _ _ _).mp h1]; rfl
  · intro h
    exact ⟨_, _, (corpus_iff _ _ _).mpr rfl, (forall₂_cut m hm _ _).mpr rfl, h⟩

/-- The specification always has exactly one result. -/
theorem sequences_exist_unique (files : List Str) (m : Option Nat) (hm : m ≠ some 0) :
    ∃ ss, Sequences files m ss ∧ ∀ ss', Sequences files m ss' → ss' = ss :=
  ⟨_, (sequences_iff files m hm _).mpr rfl, fun _ h => (sequences_iff files m hm _).mp h⟩

/-! ## C03, C06 -/

/-- **C03** A pass (`for batch in iterator`) over the files delivers exactly the sequences of the files in order, in
batches of `batchSize` (the last one possibly smaller, none empty).  At the end the iterator is as it was in the
beginning.  `fuel` bounds the number of loop iterations: the loops end. -/
theorem C03_pass (files : List Str) (cfg : IterCfg) (hm : cfg.maxLen ≠ some 0) (hb : 0 < cfg.batchSize)
    (ss : List (List Tok)) (hs : Sequences files cfg.maxLen ss) :
    ∃ batches, IsCut cfg.batchSize ss batches ∧
      ∃ N, ∀ fuel n, N ≤ fuel → N ≤ n →
        runPass (linearSource files) cfg fuel n linearInit = some (batches, linearInit) := by
  have hss : ss = pend cfg (linRem files) linearInit := (sequences_iff files cfg.maxLen hm ss).mp hs
  refine ⟨chunk (cfg.batchSize - 1) ss, ?_, work (linRem files) linearInit + 2, ?_⟩
  · have := isCut_chunk (cfg.batchSize - 1) ss
    rwa [show cfg.batchSize - 1 + 1 = cfg.batchSize by omega] at this
  · intro fuel n hf hn
    obtain ⟨s, _, h⟩ := runPass_spec (linear_lawful files) cfg hm hb n fuel linearInit trivial rfl (by omega) hn
    rw [h, hss]; rfl

/-- Runs a number of passes one after another; returns the batches of each. -/
def runPasses (S : Source σ) (cfg : IterCfg) (fuel n : Nat) : Nat → IterSt σ → Option (List (List (List (List Tok))))
  | 0, _ => some []
  | k + 1, st =>
    match runPass S cfg fuel n st with
    | none => none
    | some (bs, st) => (runPasses S cfg fuel n k st).map (bs :: ·)

/-- **C06** Any number of consecutive passes all return the same batches. -/
theorem C06_passes (files : List Str) (cfg : IterCfg) (hm : cfg.maxLen ≠ some 0) (hb : 0 < cfg.batchSize)
    (ss : List (List Tok)) (hs : Sequences files cfg.maxLen ss) :
    ∃ batches, IsCut cfg.batchSize ss batches ∧
      ∃ N, ∀ fuel n, N ≤ fuel → N ≤ n → ∀ k,
        runPasses (linearSource files) cfg fuel n k linearInit = some (List.replicate k batches) := by
  obtain ⟨batches, h1, N, h2⟩ := C03_pass files cfg hm hb ss hs
  refine ⟨batches, h1, N, fun fuel n hf hn k => ?_⟩
  induction k with
  | zero => rfl
  | succ k ih => simp [runPasses, h2 fuel n hf hn, ih, List.replicate_succ]

/-- With the maximum sequence length zero the iterator never returns if there is a line with words: whatever number of
iterations is allowed, it is not enough. -/
theorem C03_zero_length_diverges (line : Str) (hl : utterance line ≠ []) (hnl : '\n' ∉ line) (b fuel : Nat) :
    next (linearSource [line]) ⟨b, some 0⟩ fuel linearInit = none := by
  have key : ∀ fuel (st : IterSt LinSt), st.buffer ≠ [] →
      nextLoop (linearSource [line]) ⟨b, some 0⟩ fuel [] st = none := by
    intro fuel
    induction fuel with
    | zero => intros; rfl
    | succ fuel ih =>
      intro st h
      unfold nextLoop
      simp only [readSequence, if_neg h, takeSequence, List.take_zero, List.drop_zero, List.length_nil]
      exact ih _ h
  have hne : line ≠ [] := by
    rintro rfl; exact hl (by decide)
  simp only [next, linearInit]
  cases fuel with
  | zero => rfl
  | succ fuel =>
    unfold nextLoop
    have hr : readlineAt isNl line 0 = line := by
      have := linesOf_cons isNl line hne
      rw [linesOf_last line hne hnl] at this
      injection this with h1 _
      exact h1.symm
    have : linReadline [line] ⟨0, 0⟩ = (some (line, 0), ⟨0, line.length⟩) := by
      simp [linReadline, hr, hne]
    simp only [readSequence, linearSource, this, takeSequence, List.take_zero, List.drop_zero, List.length_nil,
      if_true]
    apply key
    simpa using hl

/-! ## C05 -/

/-- **C05** `len()` of a new iterator is the number of batches of a pass, and it leaves the iterator as it was. -/
theorem C05_len (files : List Str) (cfg : IterCfg) (hm : cfg.maxLen ≠ some 0) (hb : 0 < cfg.batchSize) :
    ∃ batches N, ∀ fuel n, N ≤ fuel → N ≤ n →
      runPass (linearSource files) cfg fuel n linearInit = some (batches, linearInit) ∧
      iterLen (linearSource files) cfg fuel linearInit = some (.ok batches.length, linearInit) := by
  obtain ⟨k, hk⟩ : ∃ k, cfg.batchSize = k + 1 := ⟨cfg.batchSize - 1, by omega⟩
  refine ⟨chunk (cfg.batchSize - 1) (pend cfg (linRem files) linearInit), work (linRem files) linearInit + 2, ?_⟩
  intro fuel n hf hn
  constructor
  · obtain ⟨s, _, h⟩ := runPass_spec (linear_lawful files) cfg hm hb n fuel linearInit trivial rfl (by omega) hn
    rw [h]; rfl
  · obtain ⟨s, _, h⟩ := lenLoop_spec (linear_lawful files) cfg hm fuel 0 linearInit trivial (by omega)
    unfold iterLen
    have e : ({ linearInit with src := (linearSource files).reset false linearInit.src } : IterSt LinSt) = linearInit :=
      rfl
    rw [e, h]
    simp only
    rw [if_neg (by omega), hk, chunk_length]
    simp only [Nat.add_sub_cancel, Nat.zero_add]
    rfl

/-! ## C04 -/

/-- Words of the sequences of a pass. -/
def wordsOf (ss : List (List Tok)) : List Str := ss.flatten.map Prod.fst

/-- **C04, what is missing.** The property does not hold: with maximum length 3 the line `a b`, whose utterance is
`<s> a b </s>`, gives only the sequence `<s> a b`; the sentence end is lost. -/
theorem C04_violated :
    ∃ ss, Sequences ["a b\n".toList] (some 3) ss ∧ utteranceFromLine "a b\n".toList = .ok [sos, ['a'], ['b'], eos] ∧
      eos ∉ wordsOf ss := by
  obtain ⟨ss, h, _⟩ := sequences_exist_unique ["a b\n".toList] (some 3) (by decide)
  refine ⟨ss, h, by decide, ?_⟩
  rw [sequences_iff _ _ (by decide)] at h
  have e : pend { batchSize := 1, maxLen := some 3 } (linRem ["a b\n".toList]) linearInit =
      [[(sos, 0), (['a'], 0), (['b'], 0)]] := by
    have hl : linRem ["a b\n".toList] ⟨0, 0⟩ = [("a b\n".toList, 0)] := by decide
    have ht : lineToks ("a b\n".toList, 0) = [(sos, 0), (['a'], 0), (['b'], 0), (eos, 0)] := by decide
    simp only [pend, linearInit, hl, List.map_cons, List.map_nil, ht, piecesOf, chunk_nil]
    rw [chunk_ne_nil _ (by simp)]
    simp only [List.take_succ_cons, List.take_zero, List.drop_succ_cons, List.drop_zero]
    rw [chunk_ne_nil _ (by simp)]
    simp [chunk_nil, longEnough]
  rw [h, e]
  decide

theorem filter_chunk_flatten (k : Nat) (hk : 1 ≤ k) (u : List Tok) :
    (longEnough (chunk k u)).flatten = if u.length % (k + 1) = 1 then u.dropLast else u := by
  fun_induction chunk k u with
  | case1 => simp [longEnough]
  | case2 u h ih =>
    have hpos : 0 < u.length := List.length_pos_iff.mpr h
    by_cases hl : k + 1 < u.length
    · have h1 : longEnough (u.take (k + 1) :: chunk k (u.drop (k + 1))) =
          u.take (k + 1) :: longEnough (chunk k (u.drop (k + 1))) := by
        simp only [longEnough, List.filter_cons, List.length_take]
        rw [if_pos (by simp; omega)]
      rw [h1, List.flatten_cons, ih, List.length_drop]
      have hmod : (u.length - (k + 1)) % (k + 1) = u.length % (k + 1) := by
        rw [← Nat.mod_eq_sub_mod (by omega)]
      rw [hmod]
      split
      · rw [List.dropLast_eq_take, List.dropLast_eq_take, List.length_drop]
        conv => rhs; rw [show u.length - 1 = (k + 1) + (u.length - (k + 1) - 1) by omega, List.take_add]
      · exact List.take_append_drop _ _
    · have h2 : u.drop (k + 1) = [] := List.drop_eq_nil_of_le (by omega)
      rw [h2, chunk_nil, List.take_of_length_le (by omega)]
      by_cases h1 : u.length = 1
      · obtain ⟨x, rfl⟩ := List.length_eq_one_iff.mp h1
        have : 1 % (k + 1) = 1 := Nat.mod_eq_of_lt (by omega)
        simp [longEnough, this]
      · have : u.length % (k + 1) ≠ 1 := by
          by_cases h3 : u.length = k + 1
          · rw [h3, Nat.mod_self]; omega
          · rw [Nat.mod_eq_of_lt (by omega)]; exact h1
        rw [if_neg this]
        simp only [longEnough, List.filter_cons]
        rw [if_pos (by simp; omega)]
        simp

/-- Whether cutting an utterance to the given maximum length leaves its last word alone. -/
def lastWordAlone (m : Option Nat) (u : List Tok) : Prop := ∃ k, m = some k ∧ u.length % k = 1

/-- **C04 (partial)** With no maximum length or a maximum length of at least two, the sequences of a pass are made of
the utterances: from each utterance everything is delivered, in order, except that the last word is lost if the
length of the utterance leaves remainder one when divided by the maximum length.  (By C01 the lost word is always
`</s>`.)  Missing from C04: the last word in that case, see `C04_violated`. -/
theorem C04_partial (files : List Str) (m : Option Nat) (hm : ∀ k, m = some k → 2 ≤ k)
    (us ss : List (List Tok)) (hu : Corpus files 0 us) (hs : Sequences files m ss) :
    ∃ kept : List (List (List Tok)), ss = kept.flatten ∧
      List.Forall₂ (fun u ps => (lastWordAlone m u → ps.flatten = u.dropLast) ∧
        (¬ lastWordAlone m u → ps.flatten = u)) us kept := by
  have hm0 : m ≠ some 0 := fun h => by have := hm 0 h; omega
  obtain ⟨us', cuts, h1, h2, h3⟩ := hs
  rw [(corpus_iff _ _ _).mp h1, ← (corpus_iff _ _ _).mp hu, forall₂_cut m hm0] at h2
  subst h2
  refine ⟨us.map (fun u => longEnough (piecesOf m u)), ?_, ?_⟩
  · rw [h3]
    clear h1 h3 hu
    induction us with
    | nil => rfl
    | cons u us ih => simp only [List.map_cons, List.flatten_cons, List.filter_append, ih]; rfl
  · rw [List.forall₂_map_right_iff, List.forall₂_same]
    intro u hu'
    rw [(corpus_iff _ _ _).mp hu, List.mem_map] at hu'
    obtain ⟨⟨l, fid⟩, -, rfl⟩ := hu'
    have hlen : lineToks (l, fid) = [] ∨ 2 ≤ (lineToks (l, fid)).length := by
      obtain ⟨ws, hws⟩ := Words_total l
      by_cases hw : ws = []
      · left
        rw [hw] at hws
        simp [lineToks, utterance, C01_blank l hws]
      · right
        obtain ⟨u, e1, _, _, e4⟩ := C01_delimited l ws hws hw
        simpa [lineToks, utterance, e1] using e4
    cases m with
    | none =>
      refine ⟨fun ⟨k, hk, _⟩ => by simp at hk, fun _ => ?_⟩
      rcases hlen with h | h
      · simp [h, piecesOf, longEnough]
      · have hne : lineToks (l, fid) ≠ [] := by intro hc; rw [hc] at h; simp at h
        simp [piecesOf, hne, longEnough, h]
    | some k =>
      have hk2 := hm k rfl
      obtain ⟨j, rfl⟩ : ∃ j, k = j + 1 := ⟨k - 1, by omega⟩
      have := filter_chunk_flatten j (by omega) (lineToks (l, fid))
      simp only [piecesOf, Nat.add_sub_cancel, this]
      constructor
      · rintro ⟨k', e, h⟩
        cases e
        rw [if_pos h]
      · intro h
        rw [if_neg (fun hc => h ⟨_, rfl, hc⟩)]

/-- The hypotheses of the theorems above are satisfiable: two files, batches of two sequences of at most three words. -/
example : ∃ us ss, Corpus ["a b c\n\nd".toList, "e\n".toList] 0 us ∧ us ≠ [] ∧
    Sequences ["a b c\n\nd".toList, "e\n".toList] (some 3) ss := by
  obtain ⟨ss, h, _⟩ := sequences_exist_unique ["a b c\n\nd".toList, "e\n".toList] (some 3) (by decide)
  exact ⟨_, ss, (corpus_iff _ _ _).mpr rfl, by decide, h⟩

example : (runPass (linearSource ["a b c\n\nd".toList, "e\n".toList]) ⟨2, some 3⟩ 20 20 linearInit).map Prod.fst =
    some [[[(sos, 0), (['a'], 0), (['b'], 0)], [(['c'], 0), (eos, 0)]],
          [[(sos, 0), (['d'], 0), (eos, 0)], [(sos, 1), (['e'], 1), (eos, 1)]]] := by decide

example : iterLen (linearSource ["a b c\n\nd".toList, "e\n".toList]) ⟨2, some 3⟩ 20 linearInit =
    some (.ok 2, linearInit) := by decide

end TheanoLM
