import Verif.Props.RescoredLattice
import Verif.Props.Kaldi
import Verif.Lemmas.WordClassFile
import Verif.Lemmas.SlfRoundTrip
import Verif.Model.DecodeOutput
import Verif.Model.LatticeBatch
/-!
# The n-best lists that the decode command writes (C85)
-/
namespace TheanoLM

variable {S St : Type} [Field S] [LinearOrder S] {D : Decoder S St} {L : Lattice S}

set_option linter.unusedSectionVars false

/-! ## Specification -/

/-- The words of a sentence, between the markers of its beginning and end. -/
def sentenceOf (ls : List (Link S)) : List Str := "<s>".toList :: pathText ls ++ ["</s>".toList]

/-- A hypothesis: a path through the lattice, with its acoustic score, language model score and total score. -/
structure Hyp (S : Type) where
  path : List (Link S)
  ac : S
  graph : S
  total : S

/-- The path leads from the initial node to a final node, the acoustic score is the one of the path, and the total score is the
sum of the scores.  With log-linear interpolation the total score is determined by the path. -/
structure Hyp.Valid (D : Decoder S St) (L : Lattice S) (h : Hyp S) : Prop where
  path : ∃ n : Nat, L.Path L.initial h.path n ∧ L.Final n
  ac : h.ac = acOf h.path
  total : h.total = h.ac + h.graph
  score : D.linear = false → ∃ z : S, AddedComplete D h.path z ∧ h.total = pathScore D L h.path z

/-- The text is a number that is the score, when it is converted from the base whose logarithm is `scale`. -/
def ShowsScore (T : NumText S) (scale : S) (text : Str) (score : S) : Prop :=
  ∃ x : S, T.parseScore text = some x ∧ x * scale = score

/-- The logarithm of the base of the scores: the natural logarithm of the given base, or one if no base is given. -/
def BaseScale (log : Nat → S) (base : Option Nat) (scale : S) : Prop :=
  (base = none → scale = 1) ∧ ∀ b : Nat, base = some b → scale = log b

/-- What is on the line of a hypothesis: the utterance ID and the sentence, in format "full" also the three scores and the
number of the words. -/
def LineShows (T : NumText S) (scale : S) (utteranceId : Str) (output : Str) (h : Hyp S) (line : Str) : Prop :=
  (output = "ref".toList → Words line (utteranceId :: sentenceOf h.path)) ∧
  (output = "trn".toList → Words line (sentenceOf h.path ++ ['(' :: utteranceId ++ [')']])) ∧
  (output = "full".toList → ∃ a g t : Str,
    Words line ([utteranceId, a, g, t, (toString (sentenceOf h.path).length).toList] ++ sentenceOf h.path) ∧
    ShowsScore T scale a h.ac ∧ ShowsScore T scale g h.graph ∧ ShowsScore T scale t h.total)

/-! ## Lemmas -/

theorem historyWords_sentence {idToWord : Nat → Option Str} (hv : VocabInverse D.vocab idToWord)
    (hs : idToWord D.vocab.sos = some "<s>".toList) (he : idToWord D.vocab.eos = some "</s>".toList) {ls : List (Link S)}
    {t : Token S St} (h : DescribesPath D ls t) : historyWords idToWord t.history = .ok (sentenceOf ls) := by
  obtain ⟨⟨ws, h1, h2⟩, _⟩ := h
  rw [h1, List.cons_append]
  have h3 := historyWords_append idToWord _ [.inl D.vocab.eos] (historyWords_of _ _ hv h2) (b := ["</s>".toList])
    (by simp [historyWords, he])
  simp only [historyWords, hs, h3]
  rfl

theorem sentence_field {ls : List (Link S)} {a b : Nat} (hp : L.Path a ls b)
    (hlw : ∀ k ∈ L.links, ∀ w, k.word = some w → FieldWord w) : ∀ w ∈ sentenceOf ls, FieldWord w := by
  intro w hw
  unfold sentenceOf at hw
  simp only [List.cons_append, List.mem_cons, List.mem_append, List.not_mem_nil, or_false] at hw
  rcases hw with rfl | hw | rfl
  · refine ⟨by decide, by decide⟩
  · obtain ⟨k, hk, hkw⟩ := mem_pathText hp hw
    exact hlw k hk w hkw
  · refine ⟨by decide, by decide⟩

theorem joinSp_cons (w : Str) {ws : List Str} (h : ws ≠ []) : joinSp (w :: ws) = w ++ ' ' :: joinSp ws := by
  cases ws with
  | nil => exact absurd rfl h
  | cons v ws => rfl

theorem joinSp_snoc {ws : List Str} (h : ws ≠ []) (w : Str) : joinSp (ws ++ [w]) = joinSp ws ++ ' ' :: w := by
  induction ws with
  | nil => exact absurd rfl h
  | cons v ws ih =>
    cases ws with
    | nil => rfl
    | cons x ws =>
      rw [List.cons_append, joinSp_cons v (by simp), ih (by simp), joinSp_cons v (by simp)]
      simp

/-- The line of a token. -/
theorem formatToken_spec {T : NumText S} (hT : T.Faithful) {idToWord : Nat → Option Str} (hv : VocabInverse D.vocab idToWord)
    (hs : idToWord D.vocab.sos = some "<s>".toList) (he : idToWord D.vocab.eos = some "</s>".toList)
    (hlw : ∀ k ∈ L.links, ∀ w, k.word = some w → FieldWord w) {u : Str} (hu : FieldWord u) {scale : S} (hscale : scale ≠ 0)
    {output : Str} (hout : output = "ref".toList ∨ output = "trn".toList ∨ output = "full".toList) {ls : List (Link S)} {n : Nat}
    (hp : L.Path L.initial ls n) {t : Token S St} (h : DescribesPath D ls t) :
    ∃ b : Str, formatToken T.showScore idToWord scale u output t = .ok b ∧ '\n' ∉ b ∧
      LineShows T scale u output ⟨ls, t.ac, t.graph, t.total⟩ (b ++ ['\n']) := by
  have hsf := sentence_field hp hlw
  have hsc : ∀ x : S, ShowsScore T scale (T.showScore (x / scale)) x := fun x => ⟨x / scale, hT.score _, div_mul_cancel₀ x hscale⟩
  have hnf : ∀ x : S, FieldWord (T.showScore x) := fun x =>
    ⟨(hT.score_text x).1, fun c hc => ((hT.score_text x).2 c hc).1⟩
  have hne : sentenceOf ls ≠ [] := by simp [sentenceOf]
  unfold formatToken
  rw [historyWords_sentence hv hs he h]
  dsimp only
  generalize hsen : sentenceOf ls = sen at *
  rcases hout with rfl | rfl | rfl
  · have hf : ∀ w ∈ u :: sen, FieldWord w := List.forall_mem_cons.mpr ⟨hu, hsf⟩
    refine ⟨joinSp (u :: sen), by rw [if_pos rfl, joinSp_cons u hne], joinSp_newline hf, fun _ => ?_, fun e => ?_, fun e => ?_⟩
    · dsimp only; rw [hsen]; exact Words_newline (joinSp_Words _ hf)
    · exact absurd e (by decide)
    · exact absurd e (by decide)
  · have hu' : FieldWord ('(' :: u ++ [')']) := by
      refine ⟨by simp, ?_⟩
      intro c hc
      simp only [List.cons_append, List.mem_cons, List.mem_append, List.not_mem_nil, or_false] at hc
      rcases hc with rfl | hc | rfl
      · decide
      · exact hu.2 c hc
      · decide
    have hf : ∀ w ∈ sen ++ ['(' :: u ++ [')']], FieldWord w := by
      intro w hw
      rcases List.mem_append.mp hw with hw | hw
      · exact hsf w hw
      · rw [List.mem_singleton.mp hw]; exact hu'
    refine ⟨joinSp (sen ++ ['(' :: u ++ [')']]), ?_, joinSp_newline hf, fun e => ?_, fun _ => ?_, fun e => ?_⟩
    · rw [if_neg (by decide), if_pos rfl, joinSp_snoc hne]; rfl
    · exact absurd e (by decide)
    · dsimp only; rw [hsen]; exact Words_newline (joinSp_Words _ hf)
    · exact absurd e (by decide)
  · have hd : FieldWord (decimal sen.length) := decimal_field _
    have hf : ∀ w ∈ [u, T.showScore (t.ac / scale), T.showScore (t.graph / scale), T.showScore (t.total / scale),
        decimal sen.length] ++ sen, FieldWord w := by
      intro w hw
      simp only [List.cons_append, List.nil_append, List.mem_cons] at hw
      rcases hw with rfl | rfl | rfl | rfl | rfl | hw
      · exact hu
      · exact hnf _
      · exact hnf _
      · exact hnf _
      · exact hd
      · exact hsf w hw
    refine ⟨joinSp ([u, T.showScore (t.ac / scale), T.showScore (t.graph / scale), T.showScore (t.total / scale),
        decimal sen.length] ++ sen), ?_, joinSp_newline hf, fun e => ?_, fun e => ?_, fun _ => ?_⟩
    · rw [if_neg (by decide), if_neg (by decide), if_pos rfl]
      simp only [List.cons_append, List.nil_append]
      rw [joinSp_cons _ (by simp), joinSp_cons _ (by simp), joinSp_cons _ (by simp), joinSp_cons _ (by simp), joinSp_cons _ hne]
    · exact absurd e (by decide)
    · exact absurd e (by decide)
    · refine ⟨_, _, _, ?_, hsc _, hsc _, hsc _⟩
      dsimp only
      rw [hsen]
      exact Words_newline (joinSp_Words _ hf)

theorem writeTokens_spec {format : Token S St → Except Err Str} {P : Token S St → Str → Prop} (ts : List (Token S St))
    (h : ∀ t ∈ ts, ∃ b : Str, format t = .ok b ∧ '\n' ∉ b ∧ P t (b ++ ['\n'])) :
    (writeTokens format ts).2 = none ∧ List.Forall₂ P ts (fileLines (writeTokens format ts).1) := by
  induction ts with
  | nil => exact ⟨rfl, .nil⟩
  | cons t ts ih =>
    obtain ⟨b, h1, h2, h3⟩ := h t (by simp)
    obtain ⟨i1, i2⟩ := ih (fun t ht => h t (List.mem_cons_of_mem _ ht))
    simp only [writeTokens, h1]
    rw [fileLines_line b h2]
    exact ⟨i1, .cons h3 i2⟩

theorem bestTokens_nat {α : Type} (n : Nat) (ts : List α) : bestTokens (n : ℤ) ts = ts.take n := by
  unfold bestTokens
  have h : min (n : ℤ) (ts.length : ℤ) = ((min n ts.length : Nat) : ℤ) := by omega
  rw [h]
  dsimp only
  rw [if_pos (by omega), Int.toNat_natCast]
  by_cases hn : n ≤ ts.length
  · rw [min_eq_left hn]
  · rw [min_eq_right (by omega), List.take_of_length_le (le_refl _), List.take_of_length_le (by omega)]

theorem forall₂_choose {α β : Type} {R : α → β → Prop} (l : List α) (h : ∀ a ∈ l, ∃ b, R a b) :
    ∃ bs : List β, List.Forall₂ R l bs := by
  induction l with
  | nil => exact ⟨[], .nil⟩
  | cons a l ih =>
    obtain ⟨b, hb⟩ := h a (by simp)
    obtain ⟨bs, hbs⟩ := ih (fun a ha => h a (List.mem_cons_of_mem _ ha))
    exact ⟨b :: bs, .cons hb hbs⟩

/-- The path of a token that has been returned by the decoder. -/
def TokenHyp (D : Decoder S St) (L : Lattice S) (t : Token S St) (h : Hyp S) : Prop :=
  h.ac = t.ac ∧ h.graph = t.graph ∧ h.total = t.total ∧ t = runEnd D L h.path ∧
    ∃ n : Nat, L.Path L.initial h.path n ∧ L.Final n

theorem TokenHyp.valid {t : Token S St} {h : Hyp S} (ht : TokenHyp D L t h) : h.Valid D L := by
  obtain ⟨h1, h2, h3, h4, h5⟩ := ht
  have hc := computed_end (D := D) (L := L) h.path
  obtain ⟨⟨ws, d1, d2⟩, d3, d4⟩ := describes_end (D := D) (L := L) h.path
  rw [← h4] at hc d1 d3 d4
  refine ⟨h5, by rw [h1, d3], by rw [h1, h2, h3, hc.total], fun hl => ?_⟩
  obtain ⟨z, hz⟩ := addedComplete_exists (D := D) h.path
  have hn := addedComplete_run (L := L) hz
  rw [← h4] at hn
  refine ⟨z, hz, ?_⟩
  have hlen : (t.history.length : S) - 1 = (pathText h.path).length + 1 := by
    rw [d1, d2.length_eq]
    simp
  rw [h3, hc.total, hc.graph]
  unfold graphLogprob
  simp only [hl, Bool.false_eq_true, if_false, loglinear_eq]
  rw [hlen, hn, d3, d4]
  unfold pathScore decLmScale decWiPenalty
  ring

theorem runEnd_hash {ls ls' : List (Link S)} (h : pathText ls = pathText ls') :
    (runEnd D L ls).hash = (runEnd D L ls').hash := by
  rw [(computed_end ls).hash, (computed_end ls').hash]
  obtain ⟨⟨ws, d1, d2⟩, _⟩ := describes_end (D := D) (L := L) ls
  obtain ⟨⟨ws', d1', d2'⟩, _⟩ := describes_end (D := D) (L := L) ls'
  rw [d1, d1']
  have : ws = ws' := by
    rw [h] at d2
    clear d1 d1' h
    generalize pathText ls' = tx at d2 d2'
    induction d2 generalizing ws' with
    | nil => cases d2'; rfl
    | @cons w a tx hs h1 _ ih =>
      cases d2' with
      | cons h1' h2' =>
        rw [ih _ h2']
        congr 1
        cases hi : D.vocab.wordToId w with
        | none => rw [h1.2 hi, h1'.2 hi]
        | some i => rw [h1.1 i hi, h1'.1 i hi]
  rw [this]

theorem outputScale_eq {log : Nat → S} {args : DecodeArgs S} {scale : S} (h : BaseScale log args.logBase scale) :
    outputScale log args = scale := by
  unfold outputScale
  cases hb : args.logBase with
  | none => exact (h.1 hb).symm
  | some b => exact (h.2 b hb).symm

/-! ## Properties -/

/-- C85: the n-best list of a lattice.  The given number of the best hypotheses is written, or all if there are fewer; one
hypothesis is on each line.  They are different hypotheses, from the best to the worst, and are valid. -/
theorem C85_nbest (hw : L.WF) (E : OutEnv S) (hv : VocabInverse D.vocab E.idToWord)
    (hs : E.idToWord D.vocab.sos = some "<s>".toList) (he : E.idToWord D.vocab.eos = some "</s>".toList) (hT : E.num.Faithful)
    (hlw : ∀ k ∈ L.links, ∀ w, k.word = some w → FieldWord w) (u : Str) (hu : FieldWord u) (log : Nat → S)
    (args : DecodeArgs S) (scale : S) (hbase : BaseScale log args.logBase scale) (hscale : scale ≠ 0) (out : OutputArgs)
    (hout : out.output = "ref".toList ∨ out.output = "trn".toList ∨ out.output = "full".toList) (n : Nat) (hn : out.nBest = n)
    (finals : List (Token S St)) (recombs : List (Recomb S St)) (hdec : decode D L = .ok (finals, recombs)) :
    ∃ hyps : List (Hyp S), hyps.length = min n finals.length ∧ hyps.map Hyp.total = (finals.map Token.total).take n ∧
      (∀ h ∈ hyps, h.Valid D L) ∧
      hyps.Pairwise (fun h h' => h'.total ≤ h.total ∧ pathText h.path ≠ pathText h'.path) ∧
      (decodeOutput D E log args out L u).2 = none ∧
      List.Forall₂ (LineShows E.num (scale) u out.output) hyps
        (fileLines (decodeOutput D E log args out L u).1) := by
  have hfin := (decode_inv hw (path_keeps D L) hdec).1
  obtain ⟨hyps, hh⟩ := forall₂_choose (R := TokenHyp D L) (finals.take n) (fun t ht => by
    obtain ⟨ls, m, h1, h2, h3⟩ := hfin t (List.mem_of_mem_take ht)
    exact ⟨⟨ls, t.ac, t.graph, t.total⟩, rfl, rfl, rfl, h3, m, h1, h2⟩)
  have hlen := hh.length_eq
  rw [List.length_take] at hlen
  have hpw : (finals.take n).Pairwise (fun a b => b.total ≤ a.total ∧ a.hash ≠ b.hash) := by
    obtain ⟨sorted, st, h1, h2, h3, h4, h5⟩ := decode_ok hdec
    have hsp := sortedRecombined_spec st.finals
    have hd := List.Pairwise.and hsp.desc (List.pairwise_map.mp hsp.nodup)
    rw [← h4] at hd
    exact hd.sublist (List.take_sublist n finals)
  refine ⟨hyps, hlen.symm, ?_, ?_, ?_, ?_⟩
  · rw [← List.map_take]
    clear hlen hpw
    generalize finals.take n = ts at hh
    induction hh with
    | nil => rfl
    | cons h _ ih => rw [List.map_cons, List.map_cons, ih, h.2.2.1]
  · clear hlen hpw
    generalize finals.take n = ts at hh
    induction hh with
    | nil => simp
    | cons h _ ih => exact List.forall_mem_cons.mpr ⟨h.valid, ih⟩
  · clear hlen
    generalize finals.take n = ts at hh hpw
    revert hpw
    induction hh with
    | nil => intro _; exact .nil
    | @cons t h ts hs ht hts ih =>
      intro hpw
      rw [List.pairwise_cons] at hpw ⊢
      refine ⟨?_, ih hpw.2⟩
      intro h' hm
      obtain ⟨i, hi, rfl⟩ := List.getElem_of_mem hm
      have hi' : i < ts.length := by rw [hts.length_eq]; exact hi
      have ht' : TokenHyp D L ts[i] hs[i] := hts.get hi' hi
      obtain ⟨q1, q2⟩ := hpw.1 _ (List.getElem_mem hi')
      refine ⟨by rw [ht.2.2.1, ht'.2.2.1]; exact q1, fun e => q2 ?_⟩
      rw [ht.2.2.2.1, ht'.2.2.2.1]
      exact runEnd_hash e
  · have hns : ¬ (out.output = "slf".toList ∨ out.output = "kaldi".toList) := by
      rcases hout with h | h | h <;> rw [h] <;> decide
    have key := writeTokens_spec (format := formatToken E.num.showScore E.idToWord (scale) u out.output)
      (P := fun t line => ∀ h, TokenHyp D L t h → LineShows E.num (scale) u out.output h line)
      (finals.take n) (fun t ht => by
        obtain ⟨ls, m, h1, h2, h3⟩ := hfin t (List.mem_of_mem_take ht)
        obtain ⟨b, b1, b2, _⟩ := formatToken_spec hT hv hs he hlw hu hscale hout h1 (t := t) (by rw [h3]; exact describes_end ls)
        refine ⟨b, b1, b2, fun h hh => ?_⟩
        obtain ⟨k1, k2, k3, k4, k, k5, _⟩ := hh
        obtain ⟨b', b1', _, b3'⟩ := formatToken_spec hT hv hs he hlw hu hscale hout k5 (t := t)
          (by rw [k4]; exact describes_end _)
        rw [b1] at b1'
        cases b1'
        rw [← k1, ← k2, ← k3] at b3'
        exact b3')
    unfold decodeOutput
    rw [hdec]
    dsimp only
    rw [if_neg hns, hn, bestTokens_nat, outputScale_eq hbase]
    refine ⟨key.1, ?_⟩
    have k2 := key.2
    clear hlen key hfin hdec hpw
    generalize fileLines _ = lines at k2 ⊢
    generalize finals.take n = ts at k2 hh
    induction hh generalizing lines with
    | nil => cases k2; exact .nil
    | cons h _ ih =>
      cases k2 with
      | cons a b => exact .cons (a _ h) (ih _ b)

/-- C85: when the search is not pruned, no path through the lattice is better than the first line. -/
theorem C85_best [IsStrictOrderedRing S] (hw : L.WF) (hac : ∀ n : Nat, ¬ L.OnCycle n)
    (hin : ∀ n : Nat, n < L.nodes.length → n ≠ L.initial → ∃ a : Nat, L.Edge a n) (hnp : NoPruning D)
    (hpath : ∃ (ls : List (Link S)) (n : Nat), L.Path L.initial ls n ∧ L.Final n)
    (E : OutEnv S) (hv : VocabInverse D.vocab E.idToWord)
    (hs : E.idToWord D.vocab.sos = some "<s>".toList) (he : E.idToWord D.vocab.eos = some "</s>".toList) (hT : E.num.Faithful)
    (hlw : ∀ k ∈ L.links, ∀ w, k.word = some w → FieldWord w) (u : Str) (hu : FieldWord u) (log : Nat → S)
    (args : DecodeArgs S) (scale : S) (hbase : BaseScale log args.logBase scale) (hscale : scale ≠ 0) (out : OutputArgs)
    (hout : out.output = "ref".toList ∨ out.output = "trn".toList ∨ out.output = "full".toList) (n : Nat) (hn : out.nBest = n)
    (hpos : 0 < n) :
    ∃ (h : Hyp S) (line : Str) (lines : List Str), (decodeOutput D E log args out L u).2 = none ∧
      fileLines (decodeOutput D E log args out L u).1 = line :: lines ∧ h.Valid D L ∧
      LineShows E.num (scale) u out.output h line ∧
      ∀ (ls : List (Link S)) (m : Nat) (z : S), L.Path L.initial ls m → L.Final m → AddedComplete D ls z →
        pathScore D L ls z ≤ h.total := by
  obtain ⟨best, rest, recomb, hd, _, hb⟩ := C32_best hw hac hin hnp hpath
  obtain ⟨hyps, h1, h2, h3, _, h5, h6⟩ := C85_nbest hw E hv hs he hT hlw u hu log args scale hbase hscale out hout n hn _ _ hd
  obtain ⟨n, rfl⟩ : ∃ k, n = k + 1 := ⟨n - 1, by omega⟩
  cases hyps with
  | nil => simp at h1
  | cons h hyps =>
    cases hl : fileLines (decodeOutput D E log args out L u).1 with
    | nil => rw [hl] at h6; cases h6
    | cons line lines =>
      rw [hl] at h6
      cases h6 with
      | cons h6 _ =>
        refine ⟨h, line, lines, h5, rfl, h3 h (by simp), h6, ?_⟩
        intro ls m z p1 p2 p3
        have ht : h.total = best.total := by
          simp only [List.map_cons, List.take_succ_cons, List.cons.injEq] at h2
          exact h2.1
        rw [ht]
        exact (hb ls m p1 p2).1 z p3

/-! ## The whole job -/

theorem fileLines_nil {t : Str} (h : fileLines t = []) : t = [] := by
  cases t with
  | nil => rfl
  | cons c cs =>
    rw [fileLines] at h
    split at h
    · cases h
    · split at h <;> cases h

theorem fileLines_append {a : Str} (h : a = [] ∨ a.getLast? = some '\n') (b : Str) :
    fileLines (a ++ b) = fileLines a ++ fileLines b := by
  induction a with
  | nil => rfl
  | cons c a ih =>
    rw [List.cons_append, fileLines, fileLines]
    by_cases hc : c = '\n'
    · rw [if_pos hc, if_pos hc, ih]
      · rfl
      · cases a with
        | nil => exact Or.inl rfl
        | cons d a =>
          right
          rcases h with h | h
          · cases h
          · rwa [List.getLast?_cons_cons] at h
    · rw [if_neg hc, if_neg hc]
      cases a with
      | nil =>
        rcases h with h | h
        · cases h
        · simp only [List.getLast?_singleton, Option.some.injEq] at h
          exact absurd h hc
      | cons d a =>
        rw [ih (by
          right
          rcases h with h | h
          · cases h
          · rwa [List.getLast?_cons_cons] at h)]
        cases hl : fileLines (d :: a) with
        | nil => exact absurd (fileLines_nil hl) (by simp)
        | cons x xs => rfl

theorem writeTokens_end (format : Token S St → Except Err Str) (ts : List (Token S St)) :
    (writeTokens format ts).1 = [] ∨ (writeTokens format ts).1.getLast? = some '\n' := by
  induction ts with
  | nil => exact Or.inl rfl
  | cons t ts ih =>
    unfold writeTokens
    cases format t with
    | error e => exact Or.inl rfl
    | ok line =>
      right
      dsimp only
      rw [List.getLast?_append, List.getLast?_cons]
      rcases ih with ih | ih
      · rw [ih]; rfl
      · rw [ih]; rfl

theorem decodeOutput_end (E : OutEnv S) (log : Nat → S) (args : DecodeArgs S) (out : OutputArgs)
    (hout : out.output = "ref".toList ∨ out.output = "trn".toList ∨ out.output = "full".toList) (u : Str) :
    (decodeOutput D E log args out L u).1 = [] ∨ (decodeOutput D E log args out L u).1.getLast? = some '\n' := by
  have hns : ¬ (out.output = "slf".toList ∨ out.output = "kaldi".toList) := by
    rcases hout with h | h | h <;> rw [h] <;> decide
  unfold decodeOutput
  split
  · exact Or.inl rfl
  · rw [if_neg hns]
    exact writeTokens_end _ _

/-- The lattice with its utterance ID: if it does not have one, its number within the job. -/
def namedLattice (number : Nat) (L : Lattice S) : Lattice S :=
  { L with utteranceId := some (L.utteranceId.getD (toString number).toList) }

/-- The lines are the n-best list of the lattice, as in `C85_nbest`. -/
def NBestLines (D : Decoder S St) (T : NumText S) (scale : S) (output : Str) (n : Nat) (L : Lattice S) (lines : List Str) :
    Prop :=
  ∃ (u : Str) (finals : List (Token S St)) (recombs : List (Recomb S St)) (hyps : List (Hyp S)), L.utteranceId = some u ∧
    decode D L = .ok (finals, recombs) ∧ hyps.length = min n finals.length ∧
    hyps.map Hyp.total = (finals.map Token.total).take n ∧ (∀ h ∈ hyps, h.Valid D L) ∧
    hyps.Pairwise (fun h h' => h'.total ≤ h.total ∧ pathText h.path ≠ pathText h'.path) ∧
    List.Forall₂ (LineShows T scale u output) hyps lines

theorem decodeLoop_lines (E : OutEnv S) (hv : VocabInverse D.vocab E.idToWord)
    (hs : E.idToWord D.vocab.sos = some "<s>".toList) (he : E.idToWord D.vocab.eos = some "</s>".toList) (hT : E.num.Faithful)
    (log : Nat → S) (args : DecodeArgs S) (scale : S) (hbase : BaseScale log args.logBase scale) (hscale : scale ≠ 0) (out : OutputArgs)
    (hout : out.output = "ref".toList ∨ out.output = "trn".toList ∨ out.output = "full".toList) (n : Nat) (hn : out.nBest = n)
    (lattices : List (Lattice S)) (hw : ∀ L ∈ lattices, L.WF)
    (hlw : ∀ L ∈ lattices, ∀ k ∈ L.links, ∀ w, k.word = some w → FieldWord w)
    (hu : ∀ L ∈ lattices, ∀ u, L.utteranceId = some u → FieldWord u) :
    ∀ i : Nat, (∀ p ∈ lattices.zipIdx i, ∃ r, decode D (namedLattice p.2 p.1) = .ok r) →
    (decodeLoop D E log args out i lattices).2 = none ∧
    ∃ blocks : List (List Str), fileLines (decodeLoop D E log args out i lattices).1 = blocks.flatten ∧
      List.Forall₂ (fun p lines => NBestLines D E.num (scale) out.output n (namedLattice p.2 p.1) lines)
        (lattices.zipIdx i) blocks := by
  induction lattices with
  | nil => exact fun i _ => ⟨rfl, [], rfl, .nil⟩
  | cons L rest ih =>
    intro i hd
    rw [List.zipIdx_cons] at hd ⊢
    obtain ⟨i1, blocks, i2, i3⟩ := ih (fun L hL => hw L (List.mem_cons_of_mem _ hL)) (fun L hL => hlw L (List.mem_cons_of_mem _ hL))
      (fun L hL => hu L (List.mem_cons_of_mem _ hL)) (i + 1) (fun p hp => hd p (List.mem_cons_of_mem _ hp))
    obtain ⟨⟨finals, recombs⟩, hdec⟩ := hd (L, i) (by simp)
    dsimp only at hdec
    have hwf := hw L (by simp)
    have hwn : (namedLattice i L).WF := ⟨hwf.1, hwf.2, hwf.3, hwf.4, hwf.5, hwf.6⟩
    have hun : FieldWord (utteranceName i L) := by
      unfold utteranceName
      cases h : L.utteranceId with
      | none => exact decimal_field i
      | some u => exact hu L (by simp) u h
    have hb := C85_nbest hwn E hv hs he hT (hlw L (by simp)) (utteranceName i L) hun log args scale hbase hscale out hout n hn _ _ hdec
    obtain ⟨hyps, b1, b2, b3, b4, b5, b6⟩ := hb
    have hend := decodeOutput_end (D := D) (L := namedLattice i L) E log args out hout (utteranceName i L)
    have hstep : decodeLoop D E log args out i (L :: rest) =
        ((decodeOutput D E log args out (namedLattice i L) (utteranceName i L)).1 ++ (decodeLoop D E log args out (i + 1) rest).1,
          (decodeLoop D E log args out (i + 1) rest).2) := by
      rw [decodeLoop]
      dsimp only
      change (match decodeOutput D E log args out (namedLattice i L) (utteranceName i L) with
        | (text, some e) => (text, some e)
        | (text, none) => _) = _
      rcases hdo : decodeOutput D E log args out (namedLattice i L) (utteranceName i L) with ⟨text, err⟩
      rw [hdo] at b5
      cases b5
      rfl
    rw [hstep]
    refine ⟨i1, fileLines (decodeOutput D E log args out (namedLattice i L) (utteranceName i L)).1 :: blocks, ?_, .cons ?_ i3⟩
    · rw [fileLines_append hend, i2, List.flatten_cons]
    · exact ⟨_, _, _, hyps, rfl, hdec, b1, b2, b3, b4, b6⟩

/-- C85: the output of a job is the n-best lists of its lattices, in the order of the lattices.  Lattices without an utterance
ID are numbered. -/
theorem C85_job (V : DecVocab S) (net : DecNet S St) (lin : S → S → S → S) (E : OutEnv S) (log : Nat → S) (args : DecodeArgs S)
    (out : OutputArgs) (hD : decoderInit V net lin (decodingOptions log args) = .ok D) (hv : VocabInverse D.vocab E.idToWord)
    (hs : E.idToWord D.vocab.sos = some "<s>".toList) (he : E.idToWord D.vocab.eos = some "</s>".toList) (hT : E.num.Faithful)
    (scale : S) (hbase : BaseScale log args.logBase scale) (hscale : scale ≠ 0)
    (hout : out.output = "ref".toList ∨ out.output = "trn".toList ∨ out.output = "full".toList) (n : Nat) (hn : out.nBest = n)
    (lattices : List (Lattice S)) (hw : ∀ L ∈ lattices, L.WF)
    (hlw : ∀ L ∈ lattices, ∀ k ∈ L.links, ∀ w, k.word = some w → FieldWord w)
    (hu : ∀ L ∈ lattices, ∀ u, L.utteranceId = some u → FieldWord u)
    (hd : ∀ p ∈ lattices.zipIdx, ∃ r, decode D (namedLattice p.2 p.1) = .ok r) :
    (decodeCommand V net lin E log args out lattices).2 = none ∧
    ∃ blocks : List (List Str), fileLines (decodeCommand V net lin E log args out lattices).1 = blocks.flatten ∧
      List.Forall₂ (fun p lines => NBestLines D E.num (scale) out.output n (namedLattice p.2 p.1) lines)
        lattices.zipIdx blocks := by
  unfold decodeCommand
  rw [hD]
  exact decodeLoop_lines E hv hs he hT log args scale hbase hscale out hout n hn lattices hw hlw hu 0 hd

/-- C85: the lattices of a job that do not have utterance IDs get different IDs. -/
theorem C85_numbers (lattices : List (Lattice S)) (h : ∀ L ∈ lattices, L.utteranceId = none) :
    (lattices.zipIdx.map (fun p => (namedLattice p.2 p.1).utteranceId)).Nodup := by
  have key : lattices.zipIdx.map (fun p => (namedLattice p.2 p.1).utteranceId) =
      (List.range lattices.length).map (fun i => some (decimal i)) := by
    apply List.ext_getElem?
    intro i
    rw [List.getElem?_map, List.getElem?_map, List.getElem?_zipIdx]
    by_cases hi : i < lattices.length
    · have := h lattices[i] (List.getElem_mem hi)
      simp [hi, namedLattice, this, decimal]
    · simp [hi]
  rw [key]
  refine List.Nodup.map ?_ List.nodup_range
  intro a b hab
  simp only [Option.some.injEq] at hab
  have key : ∀ k, Nat.ofDigitChars 10 (decimal k) 0 = k := fun k => by
    rw [decimal_eq]; exact Nat.ofDigitChars_ten_toDigits
  rw [← key a, ← key b, hab]

/-! ## Concrete cases -/

/-- The arguments of the example: a language model scale, a word insertion penalty and no pruning. -/
def exDecodeArgs : DecodeArgs ℚ where
  nnlmWeight := 1 / 2
  lmScale := some 2
  wiPenalty := some (-1)
  logBase := none
  unkPenalty := none
  shortlist := true
  unkFromLattice := false
  linear := false
  maxTokens := none
  beam := none
  recombinationOrder := none
  pruneRelative := none
  absMinMaxTokens := 30
  absMinBeam := 150

def exOutEnv : OutEnv ℚ where
  num := unary
  slf := ⟨unaryInt, unary.showScore, unary.showScore⟩
  idToWord := exVocabWord
  kaldiWordToId w := if w = "a".toList then some 1 else none
  depth := 100

/-- A lattice with a word and another word. -/
def exOneLattice (w : Str) : Lattice ℚ := exWordLattice 2 [(0, 1, some w, -2, -3)]

/-- Concrete case for C85: three best of the four hypotheses of a lattice. -/
example : (decodeOutput exDecoder exOutEnv (fun _ => 1) exDecodeArgs ⟨"ref".toList, 3⟩ exRescLattice "x".toList).2 = none ∧
    fileLines (decodeOutput exDecoder exOutEnv (fun _ => 1) exDecodeArgs ⟨"ref".toList, 3⟩ exRescLattice "x".toList).1 =
      ["x <s> c b </s>\n".toList, "x <s> a b </s>\n".toList, "x <s> c a d </s>\n".toList] := by
  decide +kernel

/-- The hypotheses of C85 are met in this case. -/
example : exRescLattice.WF ∧ VocabInverse exDecoder.vocab exOutEnv.idToWord ∧
    exOutEnv.idToWord exDecoder.vocab.sos = some "<s>".toList ∧ exOutEnv.idToWord exDecoder.vocab.eos = some "</s>".toList ∧
    exOutEnv.num.Faithful ∧ (∀ k ∈ exRescLattice.links, ∀ w, k.word = some w → FieldWord w) ∧ FieldWord "x".toList ∧
    BaseScale (fun _ => (1 : ℚ)) exDecodeArgs.logBase 1 ∧ NoPruning exDecoder := by
  refine ⟨exRescLattice_ok.wf, exVocab_inverse, by decide, by decide, unary_faithful, ?_, ⟨by decide, by decide⟩, ⟨fun _ => rfl, by decide⟩,
    ⟨rfl, rfl, rfl, Or.inl rfl, rfl⟩⟩
  have h : ∀ k ∈ exRescLattice.links, ∀ w ∈ k.word, w ≠ [] ∧ ∀ c ∈ w, isSpace c = false := by decide +kernel
  exact fun k hk w hkw => h k hk w hkw

/-- Concrete case for `C85_job`: two lattices, the second one has an utterance ID. -/
example : decodeCommand exVocab exNet (fun x _ _ => x) exOutEnv (fun _ => 1) exDecodeArgs ⟨"trn".toList, 1⟩
      [exOneLattice "a".toList, { exOneLattice "b".toList with utteranceId := some "y".toList }] =
    ("<s> a </s> (0)\n<s> b </s> (y)\n".toList, none) := by
  decide +kernel

/-- C85: the utterance IDs are not different in different jobs.  A set of two lattices is divided into two jobs, and both of
the jobs write an utterance "0", although the lattices are different. -/
theorem C85_violated_jobs : ∃ (lattices : List (Lattice ℚ)) (ws ws' : List Str), (∀ L ∈ lattices, L.WF) ∧
    (∀ L ∈ lattices, L.utteranceId = none) ∧ ws ≠ ws' ∧
    (∃ line : Str, decodeCommand exVocab exNet (fun x _ _ => x) exOutEnv (fun _ => 1) exDecodeArgs ⟨"ref".toList, 1⟩
      (sliceStep 1 0 lattices) = (line, none) ∧ pySplit line = "0".toList :: ws) ∧
    (∃ line : Str, decodeCommand exVocab exNet (fun x _ _ => x) exOutEnv (fun _ => 1) exDecodeArgs ⟨"ref".toList, 1⟩
      (sliceStep 1 1 lattices) = (line, none) ∧ pySplit line = "0".toList :: ws') := by
  refine ⟨[exOneLattice "a".toList, exOneLattice "b".toList], ["<s>", "a", "</s>"].map String.toList,
    ["<s>", "b", "</s>"].map String.toList, ?_, by decide, by decide, ⟨"0 <s> a </s>\n".toList, ?_, ?_⟩,
    ⟨"0 <s> b </s>\n".toList, ?_, ?_⟩⟩
  · intro L hL
    simp only [List.mem_cons, List.not_mem_nil, or_false] at hL
    rcases hL with rfl | rfl
    · exact wf_of_check _ (by decide +kernel)
    · exact wf_of_check _ (by decide +kernel)
  all_goals decide +kernel

/-- C85: the count of the words in format "full" includes the markers of the beginning and end of the sentence, and there are
three scores before it. -/
theorem C85_violated_count : ∃ (L : Lattice ℚ) (line : Str), L.WF ∧
    (∀ ls n, L.Path L.initial ls n → L.Final n → pathText ls = ["a".toList]) ∧
    decodeOutput exDecoder exOutEnv (fun _ => 1) exDecodeArgs ⟨"full".toList, 1⟩ L "x".toList = (line, none) ∧
    (pySplit line)[4]? = some "3".toList ∧ (pySplit line).drop 5 = ["<s>", "a", "</s>"].map String.toList := by
  refine ⟨exOneLattice "a".toList, _, wf_of_check _ (by decide +kernel), ?_, rfl, ?_⟩
  · have hlinks : ∀ k ∈ (exOneLattice "a".toList).links, k.startNode = 0 ∧ k.endNode = 1 ∧ k.word = some "a".toList := by
      decide +kernel
    have hzero : ∀ ls n, (exOneLattice "a".toList).Path 0 ls n → n = 0 → ls = [] := by
      intro ls n hp hn
      cases hp with
      | nil => rfl
      | snoc ls k h hk => rw [(hlinks k hk).2.1] at hn; cases hn
    intro ls n hp hf
    cases hp with
    | nil =>
      obtain ⟨node, h1, h2⟩ := hf
      have : (exOneLattice "a".toList).nodes[0]? = some ⟨[0], [], none, false⟩ := by decide +kernel
      cases h1.symm.trans this
      cases h2
    | snoc ls k h hk =>
      rw [hzero ls _ h (hlinks k hk).1, pathText, List.nil_append, List.filterMap_cons, (hlinks k hk).2.2]
      rfl
  · decide +kernel

end TheanoLM
