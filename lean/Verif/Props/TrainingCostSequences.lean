import Verif.Props.TrainingCost
/-!
# The training cost of a mini-batch and of its sequences: C120
-/
set_option linter.unusedSectionVars false

namespace TheanoLM

/-! ## Specification -/

/-- The mini-batch consists of the sequences `ss`, one in each column, followed by anything that is masked out. -/
structure MiniBatch.Consists (b : MiniBatch) (ss : List (List Nat)) : Prop where
  size : b.n = ss.length
  sequence : ∀ i s, ss[i]? = some s → s ≠ [] ∧ s.length ≤ b.steps + 1 ∧
    (∀ t w, s[t]? = some w → b.word t i = w ∧ b.mask t i = 1) ∧ ∀ t, s.length ≤ t → t ≤ b.steps → b.mask t i = 0

/-- The number of words that are predicted in a sequence: all but the first one, without `<unk>` if so requested. -/
def wordCount (unkId : Nat) (excludeUnk : Bool) (s : List Nat) : Nat :=
  s.tail.countP fun w => !(excludeUnk && w == unkId)

/-! ## Lemmas -/

theorem counted_sum (b : MiniBatch) (unkId : Nat) (excludeUnk : Bool) (f : Nat → Nat → ℝ) :
    ((b.counted unkId excludeUnk).map fun p => f p.1 p.2).sum = ∑ i ∈ Finset.range b.n, ∑ t ∈ Finset.range b.steps,
      if b.mask (t + 1) i = 1 ∧ ¬ (excludeUnk = true ∧ b.word (t + 1) i = unkId) then f t i else 0 := by
  unfold MiniBatch.counted
  have e : b.positions = List.range b.steps ×ˢ List.range b.n := rfl
  rw [sum_filter_map, e, sum_product, Finset.sum_product, Finset.sum_comm]
  simp only [decide_eq_true_iff]

theorem counted_sequences {b : MiniBatch} {ss : List (List Nat)} (h : b.Consists ss) (unkId : Nat) (excludeUnk : Bool)
    {f : Nat → Nat → ℝ} {g : List Nat → Nat → ℝ} (hfg : ∀ i s t, ss[i]? = some s → t + 1 < s.length → f t i = g s t) :
    ((b.counted unkId excludeUnk).map fun p => f p.1 p.2).sum =
      (ss.map fun s => (((sentenceBatch s).counted unkId excludeUnk).map fun p => g s p.1).sum).sum := by
  rw [counted_sum, ← Fin.sum_univ_fun_getElem, Finset.sum_range]
  have hn := h.size
  revert hn
  generalize b.n = n
  rintro rfl
  refine Finset.sum_congr rfl fun i _ => ?_
  have hi : ss[i.1]? = some ss[i.1] := List.getElem?_eq_getElem i.2
  generalize ss[i.1] = s at hi
  obtain ⟨h1, h2, h3, h4⟩ := h.sequence _ _ hi
  have hpos := List.length_pos_iff.mpr h1
  rw [counted_sum (sentenceBatch s) unkId excludeUnk fun t _ => g s t]
  simp only [sentenceBatch, Finset.sum_range_one, true_and]
  rw [← Finset.sum_subset (s₁ := Finset.range (s.length - 1)) (s₂ := Finset.range b.steps)]
  · refine Finset.sum_congr rfl fun t ht => ?_
    rw [Finset.mem_range] at ht
    obtain ⟨w1, w2⟩ := h3 (t + 1) _ (List.getElem?_eq_getElem (by omega))
    rw [w1, w2, hfg _ _ _ hi (by omega), List.getD_eq_getElem?_getD, List.getElem?_eq_getElem (by omega)]
    simp
  · intro t ht
    rw [Finset.mem_range] at ht ⊢
    omega
  · intro t ht hn
    rw [Finset.mem_range] at ht hn
    rw [h4 (t + 1) (by omega) (by omega), if_neg (by omega)]

theorem counted_word (unkId : Nat) (excludeUnk : Bool) (s : List Nat) :
    ((sentenceBatch s).counted unkId excludeUnk).length = wordCount unkId excludeUnk s := by
  unfold MiniBatch.counted wordCount
  rw [sentence_positions, ← List.countP_eq_length_filter, List.countP_map]
  have e : s.tail = (List.range (s.length - 1)).map fun t => s.getD (t + 1) 0 := by
    apply List.ext_getElem
    · simp
    · intro t h1 h2
      simp at h1 h2
      simp [List.getD_eq_getElem?_getD, List.getElem?_eq_getElem (show t + 1 < s.length by omega)]
  rw [e, List.countP_map]
  congr 1
  funext t
  simp only [Function.comp, sentenceBatch, true_and]
  generalize s.getD (t + 1) 0 = w
  cases excludeUnk <;> by_cases hw : w = unkId <;> simp [hw]

theorem counted_length {b : MiniBatch} {ss : List (List Nat)} (h : b.Consists ss) (unkId : Nat) (excludeUnk : Bool) :
    (b.counted unkId excludeUnk).length = (ss.map (wordCount unkId excludeUnk)).sum := by
  have := counted_sequences h unkId excludeUnk (f := fun _ _ => 1) (g := fun _ _ => 1) fun _ _ _ _ _ => rfl
  simp only [List.map_const', List.sum_replicate, counted_word, nsmul_eq_mul, mul_one] at this
  have e : ((ss.map (wordCount unkId excludeUnk)).sum : ℝ) = (ss.map fun s => (wordCount unkId excludeUnk s : ℝ)).sum := by
    clear this h
    induction ss with
    | nil => simp
    | cons s ss ih => simp [Function.comp_def]
  rw [← e] at this
  exact_mod_cast this

/-- A number, or zero for the exceptional values. -/
noncomputable def finOr : Flt ℝ → ℝ
  | .fin x => x
  | _ => 0

section
variable {P : Parsers} {v : Vocab} {unkId : Nat}

theorem sentence_training (hv : Constructible P v) {s : List Nat} (hne : s ≠ []) (hs : ∀ w ∈ s, w < v.numShortlist) :
    (sentenceBatch s).ForTraining v := by
  obtain ⟨n, ps, hvi⟩ := hv.inv
  have hsl : v.numShortlist ≤ v.numWords := hvi.short
  have key : ∀ t i, t ≤ (sentenceBatch s).steps → i < (sentenceBatch s).n → (sentenceBatch s).word t i < v.numShortlist := by
    intro t i ht _
    simp only [sentenceBatch] at ht ⊢
    have := List.length_pos_iff.mpr hne
    rw [List.getD_eq_getElem?_getD, List.getElem?_eq_getElem (by omega)]
    exact hs _ (List.getElem_mem _)
  exact ⟨⟨fun t i ht hi => lt_of_lt_of_le (key t i ht hi) hsl, fun _ _ _ _ => .inr rfl⟩, key⟩

theorem consists_shortlist {b : MiniBatch} (hb : b.ForTraining v) {ss : List (List Nat)} (h : b.Consists ss) :
    ∀ s ∈ ss, s ≠ [] ∧ ∀ w ∈ s, w < v.numShortlist := by
  intro s hs
  obtain ⟨i, hi, rfl⟩ := List.mem_iff_getElem.mp hs
  obtain ⟨h1, h2, h3, _⟩ := h.sequence i _ (List.getElem?_eq_getElem hi)
  refine ⟨h1, fun w hw => ?_⟩
  obtain ⟨t, ht, rfl⟩ := List.mem_iff_getElem.mp hw
  rw [← (h3 t _ (List.getElem?_eq_getElem ht)).1]
  exact hb.shortlist _ _ (by omega) (by rw [h.size]; exact hi)

/-! ## The property -/

/-- **C120** The training cost of a mini-batch is the mean of the costs of its sequences, each computed alone, weighted by the numbers of
words in the sequences; for networks without dropout and bidirectional layers, and for the cross-entropy cost. -/
theorem C120_mean (hv : Constructible P v) (hu : v.wordToId unk = some unkId) {env : CreateEnv ℝ} {a : Architecture}
    {layers : List (Created ℝ)} {output : Nat} (hm : ModelOf env a v layers output) (hd : ∀ c ∈ layers, c.layer.Deterministic)
    (hf : ∀ c ∈ layers, c.layer.Forward) (excludeUnk : Bool) :
    ∃ cost : List Nat → ℝ,
      (∀ s, s ≠ [] → (∀ w ∈ s, w < v.numShortlist) → wordCount unkId excludeUnk s ≠ 0 → ∀ keep l1Weight l2Weight params,
        trainingCost v unkId layers output excludeUnk keep l1Weight l2Weight params (sentenceBatch s) =
          (.fin (cost s + penalty l1Weight l2Weight params.flatten), wordCount unkId excludeUnk s)) ∧
      ∀ b ss, b.ForTraining v → b.Consists ss → (∃ s ∈ ss, wordCount unkId excludeUnk s ≠ 0) → ∀ keep l1Weight l2Weight params,
        trainingCost v unkId layers output excludeUnk keep l1Weight l2Weight params b =
          (.fin ((ss.map fun s => wordCount unkId excludeUnk s * cost s).sum / ((ss.map (wordCount unkId excludeUnk)).sum : ℕ) +
            penalty l1Weight l2Weight params.flatten), (ss.map (wordCount unkId excludeUnk)).sum) := by
  have hi := C96_independent hv hu hm hf true false
  refine ⟨fun s => -(((sentenceBatch s).counted unkId excludeUnk).map fun p =>
    finOr ((scorerOf v unkId layers output true false).networkScore (sentenceBatch s) p.1 0)).sum / wordCount unkId excludeUnk s, ?_, ?_⟩
  · intro s hne hs hc keep l1 l2 params
    have ht := sentence_training hv hne hs
    obtain ⟨lp, hlp⟩ := cost_logprobs hv hu hm hd keep _ ht
    rw [cost_mean ht hlp (by rw [← counted_word, ne_eq, List.length_eq_zero_iff] at hc; exact hc), counted_word]
    congr 6
    refine List.map_congr_left fun p hp => ?_
    have hp' := (List.mem_filter.mp hp).1
    rw [sentence_positions] at hp'
    obtain ⟨t, ht', rfl⟩ := List.mem_map.mp hp'
    rw [List.mem_range] at ht'
    rw [(hlp t 0 ht' Nat.one_pos).1]
    rfl
  · intro b ss hb hc hex keep l1 l2 params
    have hsh := consists_shortlist hb hc
    have hlen := counted_length hc unkId excludeUnk
    have hpos : (ss.map (wordCount unkId excludeUnk)).sum ≠ 0 := by
      obtain ⟨s, hs, hne⟩ := hex
      have := List.single_le_sum (l := ss.map (wordCount unkId excludeUnk)) (fun _ _ => Nat.zero_le _) _ (List.mem_map_of_mem hs)
      omega
    obtain ⟨lp, hlp⟩ := cost_logprobs hv hu hm hd keep _ hb
    rw [cost_mean hb hlp (by rw [← hlen, ne_eq, List.length_eq_zero_iff] at hpos; exact hpos), hlen]
    congr 3
    rw [counted_sequences hc unkId excludeUnk (f := lp)
      (g := fun s t => finOr ((scorerOf v unkId layers output true false).networkScore (sentenceBatch s) t 0)) ?_]
    · congr 1
      have : ∀ l : List (List Nat), (∀ s ∈ l, s ∈ ss) → -(l.map fun s => (((sentenceBatch s).counted unkId excludeUnk).map fun p =>
          finOr ((scorerOf v unkId layers output true false).networkScore (sentenceBatch s) p.1 0)).sum).sum =
        (l.map fun s => wordCount unkId excludeUnk s * (-(((sentenceBatch s).counted unkId excludeUnk).map fun p =>
          finOr ((scorerOf v unkId layers output true false).networkScore (sentenceBatch s) p.1 0)).sum / wordCount unkId excludeUnk s)).sum := by
        intro l hl
        induction l with
        | nil => simp
        | cons s l ih =>
          rw [List.map_cons, List.map_cons, List.sum_cons, List.sum_cons, neg_add, ih fun s hs => hl s (List.mem_cons_of_mem _ hs)]
          congr 1
          by_cases h0 : wordCount unkId excludeUnk s = 0
          · rw [← counted_word, List.length_eq_zero_iff] at h0
            simp [h0]
          · rw [mul_div_cancel₀]
            exact_mod_cast h0
      exact this ss fun _ hs => hs
    · intro i s t hs ht
      obtain ⟨k1, k2, k3, _⟩ := hc.sequence i s hs
      have hmem : s ∈ ss := List.mem_of_getElem? hs
      have hin : i < b.n := by rw [hc.size]; exact (List.getElem?_eq_some_iff.mp hs).1
      have hst := sentence_training hv (hsh s hmem).1 (hsh s hmem).2
      rw [← hi b (sentenceBatch s) i 0 (s.length - 1) hb.valid hst.valid hin Nat.one_pos (by omega) (le_refl _) ?_ t (by omega),
        (hlp t i (by omega) hin).1]
      · rfl
      · intro t' ht'
        obtain ⟨w1, w2⟩ := k3 t' _ (List.getElem?_eq_getElem (by have := List.length_pos_iff.mpr k1; omega))
        refine ⟨?_, w2, rfl⟩
        rw [w1]
        simp only [sentenceBatch]
        rw [List.getD_eq_getElem?_getD, List.getElem?_eq_getElem]
        rfl

/-- **C120** The training cost and the number of words do not depend on the order of the sequences in the mini-batch, on how long the
mini-batch is, or on what there is after the ends of the sequences. -/
theorem C120_order (hv : Constructible P v) (hu : v.wordToId unk = some unkId) {env : CreateEnv ℝ} {a : Architecture}
    {layers : List (Created ℝ)} {output : Nat} (hm : ModelOf env a v layers output) (hd : ∀ c ∈ layers, c.layer.Deterministic)
    (hf : ∀ c ∈ layers, c.layer.Forward) (excludeUnk : Bool) {b b' : MiniBatch} {ss ss' : List (List Nat)}
    (hb : b.ForTraining v) (hb' : b'.ForTraining v) (hc : b.Consists ss) (hc' : b'.Consists ss') (hp : ss.Perm ss')
    (hne : ∃ s ∈ ss, wordCount unkId excludeUnk s ≠ 0) (keep keep' : Nat → Nat → Nat → List Bool) (l1Weight l2Weight : Option ℝ)
    (params : List (List ℝ)) :
    trainingCost v unkId layers output excludeUnk keep l1Weight l2Weight params b =
      trainingCost v unkId layers output excludeUnk keep' l1Weight l2Weight params b' := by
  obtain ⟨cost, _, h⟩ := C120_mean hv hu hm hd hf excludeUnk
  obtain ⟨s, hs, hn⟩ := hne
  rw [h b ss hb hc ⟨s, hs, hn⟩, h b' ss' hb' hc' ⟨s, hp.mem_iff.mp hs, hn⟩, (hp.map _).sum_eq, (hp.map (wordCount unkId excludeUnk)).sum_eq]

end

/-! ## Examples -/

/-- The same sentences in the other order, with more padding. -/
def exTrainSwapped : MiniBatch where
  steps := 4
  n := 2
  word t i := (([[3, 3], [1, 1], [4, 2], [0, 4], [0, 0]].getD t []).getD i 0)
  mask t i := (([[1, 1], [1, 1], [1, 1], [0, 1], [0, 0]].getD t []).getD i 0)

theorem exTrainBatch_consists : exTrainBatch.Consists [[3, 1, 2, 4], [3, 1, 4]] := by
  refine ⟨rfl, fun i s hs => ?_⟩
  have hi : i < 2 := (List.getElem?_eq_some_iff.mp hs).1
  interval_cases i <;> cases hs <;> refine ⟨nofun, by decide, fun t w ht => ?_, fun t h1 h2 => ?_⟩
  · have := (List.getElem?_eq_some_iff.mp ht).1
    simp at this
    interval_cases t <;> cases ht <;> decide
  · simp [exTrainBatch] at h1 h2
    omega
  · have := (List.getElem?_eq_some_iff.mp ht).1
    simp at this
    interval_cases t <;> cases ht <;> decide
  · simp [exTrainBatch] at h1 h2
    interval_cases t
    decide

theorem exTrainSwapped_consists : exTrainSwapped.Consists [[3, 1, 4], [3, 1, 2, 4]] := by
  refine ⟨rfl, fun i s hs => ?_⟩
  have hi : i < 2 := (List.getElem?_eq_some_iff.mp hs).1
  interval_cases i <;> cases hs <;> refine ⟨nofun, by decide, fun t w ht => ?_, fun t h1 h2 => ?_⟩
  · have := (List.getElem?_eq_some_iff.mp ht).1
    simp at this
    interval_cases t <;> cases ht <;> decide
  · simp [exTrainSwapped] at h1 h2
    interval_cases t <;> decide
  · have := (List.getElem?_eq_some_iff.mp ht).1
    simp at this
    interval_cases t <;> cases ht <;> decide
  · simp [exTrainSwapped] at h1 h2
    interval_cases t
    decide

/-- A case that meets the hypotheses of `C120_mean` and `C120_order`. -/
example : ∃ layers, ModelOf exampleModelEnv (exampleSmall "q") exScoreVocab layers 3 ∧ (∀ c ∈ layers, c.layer.Deterministic) ∧
    (∀ c ∈ layers, c.layer.Forward) ∧ Constructible exParsers exScoreVocab ∧ exScoreVocab.wordToId unk = some 5 ∧
    exTrainBatch.ForTraining exScoreVocab ∧ exTrainSwapped.ForTraining exScoreVocab ∧
    exTrainBatch.Consists [[3, 1, 2, 4], [3, 1, 4]] ∧ exTrainSwapped.Consists [[3, 1, 4], [3, 1, 2, 4]] ∧
    List.Perm [[3, 1, 2, 4], [3, 1, 4]] [[3, 1, 4], [3, 1, 2, 4]] ∧ wordCount 5 false [3, 1, 2, 4] = 3 := by
  obtain ⟨layers, h1, h2, _⟩ := exampleModel
  refine ⟨layers, h1, exampleModel_deterministic h1, h2, exScoreVocab_constructible, by decide +kernel,
    ⟨⟨?_, ?_⟩, ?_⟩, ⟨⟨?_, ?_⟩, ?_⟩, exTrainBatch_consists, exTrainSwapped_consists, by decide, rfl⟩
  all_goals
    intro t i ht hi
    simp only [exTrainBatch, exTrainSwapped] at ht hi
    interval_cases t <;> interval_cases i <;> decide +kernel

end TheanoLM
