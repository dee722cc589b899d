import Verif.Lemmas.Shuffling
import Verif.Props.BatchIterator
/-! # Properties C05, C09 and C10 of the training iterator -/
namespace TheanoLM

/-! ## Specification -/

/-- `n` is `q` rounded to the nearest integer, halves to an even one. -/
def IsRounded (q : ℚ) (n : ℤ) : Prop := |q - n| ≤ 1 / 2 ∧ (|q - n| = 1 / 2 → n % 2 = 0)

/-- Byte positions of the lines of file `k` that are read during an epoch with the given order, in the order of
reading.  A sentence index stands for a file and a position in it. -/
def visits (files : List Str) (order : List Nat) (k : Nat) : List Nat :=
  ((order.filterMap (fun i => (sentencePointers files)[i]?)).filter (fun p => decide (p.1 = k))).map Prod.snd

/-- The orders of all epochs result from `_reset`, whatever the random numbers are. -/
def Shuffles (files : List Str) (sampling : List ℚ) (rand : Nat → List Nat) : Prop :=
  ∀ k, ShuffleOutcome (pointerRanges files) (sampleSizes sampling (pointerRanges files)) (rand k)

theorem shuffles_valid {files : List Str} {sampling : List ℚ} {rand : Nat → List Nat}
    (h : Shuffles files sampling rand) (k : Nat) : ∀ i ∈ rand k, i < (sentencePointers files).length := by
  obtain ⟨choices, h1, h2⟩ := (h k).ex
  intro i hi
  have := choices_bounds files 0 _ choices h1 i (h2.mem_iff.mp hi)
  simp only [sentencePointers]; omega

/-! ## C10 -/

/-- **C10** In every epoch, for every file, the number of lines read is the number of lines in the file times the
sampling fraction, rounded; if the fraction is at most one, no line is read twice; if it is one (or not given) every
line is read exactly once. -/
theorem C10_samples (files : List Str) (sampling : List ℚ) (rand : Nat → List Nat)
    (st : IterSt ShufSt) (hst : shufNew files sampling rand = .ok st) (hr : Shuffles files sampling rand)
    (epoch k : Nat) (hk : k < files.length) (ls : List Str) (hls : Lines files[k] ls) :
    IsRounded (sampling.getD k 1 * ls.length) (visits files (rand epoch) k).length ∧
    (sampling.getD k 1 ≤ 1 → (visits files (rand epoch) k).Nodup) ∧
    (sampling.getD k 1 = 1 → (visits files (rand epoch) k).Perm (findSentenceStarts isNl files[k])) := by
  have hne : files[k] ≠ [] := by
    intro hc
    unfold shufNew at hst
    split at hst
    · cases hst
    · rename_i h
      apply h
      rw [List.any_eq_true]
      exact ⟨files[k], List.getElem_mem hk, by rw [hc]; rfl⟩
  have hlen : ls.length = (findSentenceStarts isNl files[k]).length := by
    rw [lines_eq hls, ← findSentenceStarts_lines isNl _ hne, List.length_map]
  obtain ⟨choices, h1, h2⟩ := (hr epoch).ex
  have hv := visits_choices files 0 0 sampling (fun i => (sentencePointers files)[i]?) (by simp [sentencePointers])
    choices h1 k hk
  simp only [Nat.zero_add] at hv
  have hp : (visits files (rand epoch) k).Perm (visitsAux (fun i => (sentencePointers files)[i]?) choices.flatten k) :=
    ((h2.filterMap _).filter _).map _
  obtain ⟨v1, v2, v3⟩ := hv
  rw [hlen]
  refine ⟨?_, fun hf => hp.nodup_iff.mpr (v2 ?_), fun hf => hp.trans (v3 ?_)⟩
  · rw [hp.length_eq]
    unfold IsRounded
    have := pyRound_spec (sampling.getD k 1 * (findSentenceStarts isNl files[k]).length)
    rw [← v1] at this
    exact_mod_cast this
  · apply pyRound_le
    have : (0 : ℚ) ≤ (findSentenceStarts isNl files[k]).length := by positivity
    nlinarith
  · rw [hf, one_mul, pyRound_natCast]

/-- **C10** The constructor rejects a negative fraction whose sample size rounds below zero, an empty file and an
empty list of files; otherwise it succeeds, and the iterator is at the start of the first epoch. -/
theorem C10_constructor (files : List Str) (sampling : List ℚ) (rand : Nat → List Nat) :
    ((∃ st, shufNew files sampling rand = .ok st) ↔
      files ≠ [] ∧ (∀ f ∈ files, f ≠ []) ∧ ∀ n ∈ sampleSizes sampling (pointerRanges files), 0 ≤ n) ∧
    ∀ st, shufNew files sampling rand = .ok st → st = { src := ⟨rand 0, 0, 1⟩, buffer := [], eof := false } := by
  unfold shufNew
  constructor
  · constructor
    · rintro ⟨st, h⟩
      split at h
      · cases h
      · rename_i h1
        split at h
        · cases h
        · rename_i h2
          split at h
          · cases h
          · rename_i h3
            refine ⟨h2, ?_, ?_⟩
            · intro f hf hc
              exact h1 (List.any_eq_true.mpr ⟨f, hf, by simp [hc]⟩)
            · intro n hn
              by_contra hc
              exact h3 (List.any_eq_true.mpr ⟨n, hn, by simpa using hc⟩)
    · rintro ⟨h1, h2, h3⟩
      rw [if_neg, if_neg h1, if_neg]
      · exact ⟨_, rfl⟩
      · rw [List.any_eq_true]
        rintro ⟨n, hn, hlt⟩
        have := h3 n hn
        simp at hlt; omega
      · rw [List.any_eq_true]
        rintro ⟨f, hf, he⟩
        exact h2 f hf (by simpa using he)
  · intro st h
    split at h
    · cases h
    · split at h
      · cases h
      · split at h
        · cases h
        · cases h; rfl

/-! ## C03 and C05 for the training iterator -/

/-- The sequences that the iterator should deliver when it reads the given lines. -/
def SequencesOfLines (lines : List (Str × Nat)) (m : Option Nat) (ss : List (List Tok)) : Prop :=
  ∃ us cuts, List.Forall₂ (fun l u => ∃ ws, utteranceFromLine l.1 = .ok ws ∧ u = ws.map (fun w => (w, l.2))) lines us ∧
    List.Forall₂ (IsCutOpt m) us cuts ∧ ss = cuts.flatten.filter (fun p => decide (2 ≤ p.length))

/-- The lines that the sentence indices stand for, with the numbers of their files. -/
def linesAt (files : List Str) (order : List Nat) : List (Str × Nat) :=
  (order.filterMap (fun i => (sentencePointers files)[i]?)).map
    (fun p => (readlineAt isNl (files.getD p.1 []) p.2, p.1))

theorem sequencesOfLines_iff (lines : List (Str × Nat)) (m : Option Nat) (hm : m ≠ some 0) (ss : List (List Tok)) :
    SequencesOfLines lines m ss ↔ ss = longEnough (lines.map (fun l => piecesOf m (lineToks l))).flatten := by
  have key : ∀ us : List (List Tok),
      List.Forall₂ (fun (l : Str × Nat) u => ∃ ws, utteranceFromLine l.1 = .ok ws ∧ u = ws.map (fun w => (w, l.2)))
        lines us ↔ us = lines.map lineToks := by
    intro us
    constructor
    · intro h
      induction h with
      | nil => rfl
      | cons h _ ih =>
        obtain ⟨ws, h1, rfl⟩ := h
        rw [ih, List.map_cons, lineToks, utterance_of_ok h1]
    · rintro rfl
      rw [List.forall₂_map_right_iff, List.forall₂_same]
      exact fun l _ => ⟨_, utterance_ok _, rfl⟩
  constructor
  · rintro ⟨us, cuts, h1, h2, rfl⟩
    rw [(forall₂_cut m hm us cuts).mp h2, (key us).mp h1, List.map_map]; rfl
  · rintro rfl
    refine ⟨_, _, (key _).mpr rfl, (forall₂_cut m hm _ _).mpr rfl, ?_⟩
    rw [List.map_map]; rfl

theorem linesAt_eq (files : List Str) (order : List Nat) (h : ∀ i ∈ order, i < (sentencePointers files).length) :
    linesAt files order = order.map (shufLine files) := by
  induction order with
  | nil => rfl
  | cons i order ih =>
    have hi := h i (by simp)
    have := ih (fun j hj => h j (by simp [hj]))
    simp only [linesAt] at this ⊢
    rw [List.filterMap_cons, List.getElem?_eq_getElem hi]
    simp only [List.map_cons, this]
    congr 1
    simp [List.getElem?_eq_getElem hi, shufLine]

theorem shuf_pend {files : List Str} {sampling : List ℚ} {rand : Nat → List Nat} (hr : Shuffles files sampling rand)
    (cfg : IterCfg) (hm : cfg.maxLen ≠ some 0) (epoch shuffles : Nat) (ss : List (List Tok))
    (hs : SequencesOfLines (linesAt files (rand epoch)) cfg.maxLen ss) :
    ss = pend cfg (shufRem files) { src := ⟨rand epoch, 0, shuffles⟩, buffer := [], eof := false } := by
  rw [(sequencesOfLines_iff _ _ hm _).mp hs, linesAt_eq files _ (shuffles_valid hr epoch)]
  simp [pend, piecesOf_nil, shufRem]

/-- **C03** for the training iterator: a pass delivers exactly the sequences of the lines visited in this epoch, in the
shuffled order, in batches of the requested size; at the end a new order is generated. -/
theorem C03_shuffled_pass (files : List Str) (sampling : List ℚ) (rand : Nat → List Nat)
    (hr : Shuffles files sampling rand) (cfg : IterCfg) (hm : cfg.maxLen ≠ some 0) (hb : 0 < cfg.batchSize)
    (epoch shuffles : Nat) (ss : List (List Tok))
    (hs : SequencesOfLines (linesAt files (rand epoch)) cfg.maxLen ss) :
    ∃ batches, IsCut cfg.batchSize ss batches ∧ ∃ N, ∀ fuel n, N ≤ fuel → N ≤ n →
      runPass (shufflingSource files rand) cfg fuel n { src := ⟨rand epoch, 0, shuffles⟩, buffer := [], eof := false } =
        some (batches, { src := ⟨rand shuffles, 0, shuffles + 1⟩, buffer := [], eof := false }) := by
  have hss := shuf_pend hr cfg hm epoch shuffles ss hs
  refine ⟨chunk (cfg.batchSize - 1) ss, ?_,
    work (shufRem files) { src := ⟨rand epoch, 0, shuffles⟩, buffer := [], eof := false } + 2, fun fuel n hf hn => ?_⟩
  · have := isCut_chunk (cfg.batchSize - 1) ss
    rwa [show cfg.batchSize - 1 + 1 = cfg.batchSize by omega] at this
  · obtain ⟨s, ⟨_, g2, g3⟩, h⟩ := runPass_spec (shuffling_lawful files rand (rand epoch) shuffles) cfg hm hb n fuel
      { src := ⟨rand epoch, 0, shuffles⟩, buffer := [], eof := false } ⟨shuffles_valid hr epoch, rfl, rfl⟩ rfl
      (by omega) hn
    rw [h, ← hss]
    simp [shufflingSource, shufReset, g3]

/-- **C05** for the training iterator: `len()` at the start of a pass is the number of batches of the pass, and it does
not change the iterator. -/
theorem C05_len_shuffled (files : List Str) (sampling : List ℚ) (rand : Nat → List Nat)
    (hr : Shuffles files sampling rand) (cfg : IterCfg) (hm : cfg.maxLen ≠ some 0) (hb : 0 < cfg.batchSize)
    (epoch shuffles : Nat) :
    ∃ batches N, ∀ fuel n, N ≤ fuel → N ≤ n →
      let st : IterSt ShufSt := { src := ⟨rand epoch, 0, shuffles⟩, buffer := [], eof := false }
      (runPass (shufflingSource files rand) cfg fuel n st).map Prod.fst = some batches ∧
      iterLen (shufflingSource files rand) cfg fuel st = some (.ok batches.length, st) := by
  obtain ⟨k, hk⟩ : ∃ k, cfg.batchSize = k + 1 := ⟨cfg.batchSize - 1, by omega⟩
  let st : IterSt ShufSt := { src := ⟨rand epoch, 0, shuffles⟩, buffer := [], eof := false }
  refine ⟨chunk (cfg.batchSize - 1) (pend cfg (shufRem files) st), work (shufRem files) st + 2, ?_⟩
  intro fuel n hf hn
  have hg : shufGood files st.src ∧ st.src.order = rand epoch ∧ st.src.shuffles = shuffles :=
    ⟨shuffles_valid hr epoch, rfl, rfl⟩
  constructor
  · obtain ⟨s, _, h⟩ := runPass_spec (shuffling_lawful files rand (rand epoch) shuffles) cfg hm hb n fuel st hg rfl
      (by omega) hn
    rw [h]; rfl
  · obtain ⟨s, ⟨_, g2, g3⟩, h⟩ := lenLoop_spec (shuffling_lawful files rand (rand epoch) shuffles) cfg hm fuel 0 st hg
      (by omega)
    unfold iterLen
    have e : ({ st with src := (shufflingSource files rand).reset false st.src } : IterSt ShufSt) = st := rfl
    rw [e, h]
    simp only
    rw [if_neg (by omega), hk, chunk_length]
    simp only [Nat.add_sub_cancel, Nat.zero_add, shufflingSource, shufReset, Bool.false_eq_true, if_false, g2, g3]
    rfl

/-! ## C09 -/

/-- States of a training iterator that can be seen between two calls of `next`, from the construction on. -/
inductive Reach (files : List Str) (rand : Nat → List Nat) (cfg : IterCfg) : IterSt ShufSt → Prop
  | new : Reach files rand cfg { src := ⟨rand 0, 0, 1⟩, buffer := [], eof := false }
  | next (st st' : IterSt ShufSt) (fuel : Nat) (r : Option (List (List Tok))) :
      Reach files rand cfg st → next (shufflingSource files rand) cfg fuel st = some (r, st') →
      Reach files rand cfg st'

theorem reach_inv {files : List Str} {sampling : List ℚ} {rand : Nat → List Nat} (hr : Shuffles files sampling rand)
    {cfg : IterCfg} (hm : cfg.maxLen ≠ some 0) {st : IterSt ShufSt} (h : Reach files rand cfg st) :
    shufGood files st.src ∧ (st.eof = true → st.buffer = [] ∧ shufRem files st.src = []) ∧
      (cfg.maxLen = none → st.buffer = []) := by
  induction h with
  | new => exact ⟨shuffles_valid hr 0, by simp, fun _ => rfl⟩
  | next st st' fuel r _ hn ih =>
    obtain ⟨i1, i2, i3⟩ := ih
    unfold TheanoLM.next at hn
    split at hn
    · rename_i he
      cases hn
      exact ⟨shuffles_valid hr _, by simp, i3⟩
    · rename_i he
      have := nextLoop_inv (shuffling_lawful files rand st.src.order st.src.shuffles) cfg hm fuel [] st
        ⟨i1, rfl, rfl⟩ (by simpa using he) hn
      refine ⟨?_, this.2, fun hnone => nextLoop_unlimited _ cfg hnone _ _ _ hn⟩
      rcases this.1 with h | ⟨s, _, h⟩
      · exact h.1
      · rw [h]; exact shuffles_valid hr _

/-- What the rest of the pass returns after saving the position in `st` and restoring it to a new iterator `st0`: only
the sequences that are left in the buffer of `st` are missing. -/
theorem C09_rest {files : List Str} {sampling : List ℚ} {rand : Nat → List Nat} (hr : Shuffles files sampling rand)
    {cfg : IterCfg} (hm : cfg.maxLen ≠ some 0) (hb : 0 < cfg.batchSize) {st st0 st' : IterSt ShufSt}
    (h : Reach files rand cfg st) (h0 : st0.buffer = []) (h0e : st0.eof = false)
    (hs : shufSetState (some (shufGetState st)) st0 = .ok st') :
    ∃ lost rest, IsCutOpt cfg.maxLen st.buffer lost ∧ ∃ b b', IsCut cfg.batchSize (longEnough lost ++ rest) b ∧
      IsCut cfg.batchSize rest b' ∧ ∃ N, ∀ fuel n, N ≤ fuel → N ≤ n →
        (runPass (shufflingSource files rand) cfg fuel n st).map Prod.fst = some b ∧
        (runPass (shufflingSource files rand) cfg fuel n st').map Prod.fst = some b' := by
  obtain ⟨i1, i2, i3⟩ := reach_inv hr hm h
  unfold shufSetState at hs
  simp only at hs
  split at hs
  · cases hs
  · rename_i ho
    cases hs
    have hrem : shufRem files { st0.src with order := (shufGetState st).order, nextLine := (shufGetState st).nextLine } =
        shufRem files st.src := rfl
    set st' : IterSt ShufSt :=
      { st0 with src := { st0.src with order := (shufGetState st).order, nextLine := (shufGetState st).nextLine } }
      with hst'
    have hp : pend cfg (shufRem files) st = longEnough (piecesOf cfg.maxLen st.buffer) ++ pend cfg (shufRem files) st' := by
      unfold pend
      have e : st'.buffer = [] := h0
      rw [longEnough_append, e, piecesOf_nil, List.nil_append]
      rfl
    have hcut : ∀ l : List (List Tok), IsCut cfg.batchSize l (chunk (cfg.batchSize - 1) l) := by
      intro l
      have := isCut_chunk (cfg.batchSize - 1) l
      rwa [show cfg.batchSize - 1 + 1 = cfg.batchSize by omega] at this
    refine ⟨piecesOf cfg.maxLen st.buffer, pend cfg (shufRem files) st', (isCutOpt_iff _ hm _ _).mpr rfl,
      _, _, hcut _, hcut _, work (shufRem files) st + work (shufRem files) st' + 2, ?_⟩
    intro fuel n hf hn
    rw [← hp]
    constructor
    · by_cases he : st.eof = true
      · obtain ⟨j1, j2⟩ := i2 he
        obtain ⟨n', rfl⟩ : ∃ n', n = n' + 1 := ⟨n - 1, by omega⟩
        have e : pend cfg (shufRem files) st = [] := by simp [pend, j1, j2, piecesOf_nil, longEnough]
        rw [e, chunk_nil]
        simp [runPass, TheanoLM.next, he]
      · obtain ⟨s, _, h⟩ := runPass_spec (shuffling_lawful files rand st.src.order st.src.shuffles) cfg hm hb n fuel st
          ⟨i1, rfl, rfl⟩ (by simpa using he) (by omega) (by omega)
        rw [h]; rfl
    · obtain ⟨s, _, h⟩ := runPass_spec (shuffling_lawful files rand st'.src.order st'.src.shuffles) cfg hm hb n fuel st'
        ⟨i1, rfl, rfl⟩ h0e (by omega) (by omega)
      rw [h]; rfl

/-- **C09 (partial)** If the maximum sequence length is not limited, or the position is saved when no rest of a line is
waiting in the buffer, then after restoring it to a new iterator the rest of the pass returns exactly the batches that
the saved iterator would have returned.  Missing from C09: a save in the middle of a line
(`C09_violated_buffer`), and restoring to an iterator that has reached the end of the data (`C09_violated_eof`). -/
theorem C09_partial {files : List Str} {sampling : List ℚ} {rand : Nat → List Nat} (hr : Shuffles files sampling rand)
    {cfg : IterCfg} (hm : cfg.maxLen ≠ some 0) (hb : 0 < cfg.batchSize) {st st0 st' : IterSt ShufSt}
    (h : Reach files rand cfg st) (hbuf : cfg.maxLen = none ∨ st.buffer = []) (h0 : st0.buffer = [])
    (h0e : st0.eof = false) (hs : shufSetState (some (shufGetState st)) st0 = .ok st') :
    ∃ batches N, ∀ fuel n, N ≤ fuel → N ≤ n →
      (runPass (shufflingSource files rand) cfg fuel n st).map Prod.fst = some batches ∧
      (runPass (shufflingSource files rand) cfg fuel n st').map Prod.fst = some batches := by
  have hb0 : st.buffer = [] := by
    rcases hbuf with h1 | h1
    · exact (reach_inv hr hm h).2.2 h1
    · exact h1
  obtain ⟨lost, rest, h1, b, b', h2, h3, N, h4⟩ := C09_rest hr hm hb h h0 h0e hs
  rw [isCutOpt_iff _ hm, hb0, piecesOf_nil] at h1
  subst h1
  obtain ⟨k, hk⟩ : ∃ k, cfg.batchSize = k + 1 := ⟨cfg.batchSize - 1, by omega⟩
  rw [hk] at h2 h3
  have e : b = b' := by
    rw [isCut_unique k _ _ h2, isCut_unique k _ _ h3]; rfl
  subst e
  exact ⟨b, N, h4⟩

/-- A position can be restored exactly when the saved order is not empty. -/
theorem C09_restorable (saved : Option ShufSaved) (st0 : IterSt ShufSt) :
    (∃ st', shufSetState saved st0 = .ok st') ↔ ∃ s, saved = some s ∧ s.order ≠ [] := by
  cases saved with
  | none => simp [shufSetState]
  | some s =>
    simp only [shufSetState]
    split
    · rename_i h; simp [h]
    · rename_i h; simp [h]

/-- The text of the counterexamples below: one line, `a b c d`; the only possible order of an epoch. -/
def ceFiles : List Str := ["a b c d\n".toList]

theorem ceShuffles : Shuffles ceFiles [] (fun _ => [0]) := by
  intro k
  refine ⟨[[0]], ?_, List.Perm.refl _⟩
  have e1 : pointerRanges ceFiles = [(0, 1)] := by decide
  have e2 : sampleSizes [] [(0, 1)] = [1] := by
    have := pyRound_natCast 1
    simpa [sampleSizes] using this
  rw [e1, e2]
  exact .cons ⟨rfl, by simp, by simp⟩ .nil

/-- **C09, what is missing (1).**  Sequences of at most two words, batches of one: after the first batch `<s> a` the
iterator goes on with `b c` and `d </s>`, but after saving and restoring the position the pass ends. -/
theorem C09_violated_buffer :
    ∃ st st0 st' : IterSt ShufSt, Reach ceFiles (fun _ => [0]) ⟨1, some 2⟩ st ∧
      st0 = { src := ⟨[0], 0, 1⟩, buffer := [], eof := false } ∧
      shufSetState (some (shufGetState st)) st0 = .ok st' ∧
      (runPass (shufflingSource ceFiles (fun _ => [0])) ⟨1, some 2⟩ 20 20 st).map Prod.fst =
        some [[[(['b'], 0), (['c'], 0)]], [[(['d'], 0), (eos, 0)]]] ∧
      (runPass (shufflingSource ceFiles (fun _ => [0])) ⟨1, some 2⟩ 20 20 st').map Prod.fst = some [] := by
  refine ⟨{ src := ⟨[0], 1, 1⟩, buffer := [(['b'], 0), (['c'], 0), (['d'], 0), (eos, 0)], eof := false }, _,
    { src := ⟨[0], 1, 1⟩, buffer := [], eof := false }, ?_, rfl, by decide, by decide, by decide⟩
  exact .next _ _ 20 (some [[(sos, 0), (['a'], 0)]]) .new rfl

/-- **C09, what is missing (2).**  After the last batch of a pass the iterator remembers that the end was reached.
Restoring an earlier position does not clear the mark: the pass ends at once although the line has not been read. -/
theorem C09_violated_eof :
    ∃ st st0 st' : IterSt ShufSt, Reach ceFiles (fun _ => [0]) ⟨2, none⟩ st ∧ Reach ceFiles (fun _ => [0]) ⟨2, none⟩ st0 ∧
      shufSetState (some (shufGetState st)) st0 = .ok st' ∧
      (runPass (shufflingSource ceFiles (fun _ => [0])) ⟨2, none⟩ 20 20 st).map Prod.fst =
        some [[[(sos, 0), (['a'], 0), (['b'], 0), (['c'], 0), (['d'], 0), (eos, 0)]]] ∧
      (runPass (shufflingSource ceFiles (fun _ => [0])) ⟨2, none⟩ 20 20 st').map Prod.fst = some [] := by
  refine ⟨_, { src := ⟨[0], 1, 1⟩, buffer := [], eof := true }, { src := ⟨[0], 0, 1⟩, buffer := [], eof := true },
    .new, ?_, by decide, by decide, by decide⟩
  exact .next _ _ 20 (some [[(sos, 0), (['a'], 0), (['b'], 0), (['c'], 0), (['d'], 0), (eos, 0)]]) .new rfl

/-- The hypotheses of C10 and C09 are satisfiable. -/
example : ∃ st, shufNew ceFiles [] (fun _ => [0]) = .ok st ∧ Shuffles ceFiles [] (fun _ => [0]) :=
  ⟨_, by
    have := pyRound_natCast 1
    have e1 : pointerRanges ceFiles = [(0, 1)] := by decide
    have e2 : sampleSizes [] [(0, 1)] = [1] := by simpa [sampleSizes] using this
    unfold shufNew
    rw [e1, e2, if_neg (by decide), if_neg (by decide), if_neg (by decide)], ceShuffles⟩

end TheanoLM
