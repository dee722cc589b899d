import Verif.Props.FilePerplexity
import Verif.Props.Cost
import Verif.Model.TrainingCost
import Mathlib.Tactic.IntervalCases
/-!
# The training cost and the validation perplexity: C112
-/
set_option linter.unusedSectionVars false

namespace TheanoLM

/-! ## Specification -/

/-- The layer is not a dropout layer. -/
def Layer.Deterministic {S : Type} (layer : Layer S) : Prop := ∀ b scale, layer ≠ .dropout b scale

/-- The cost that `update_minibatch` minimises for a mini-batch, without the penalties, and the number of words: the network is evaluated
in training mode, with any dropout masks. -/
noncomputable def trainingCost (v : Vocab) (unkId : Nat) (layers : List (Created ℝ)) (output : Nat) (excludeUnk : Bool)
    (keep : Nat → Nat → Nat → List Bool) (l1Weight l2Weight : Option ℝ) (params : List (List ℝ)) (b : MiniBatch) : Flt ℝ × Nat :=
  updateCost realAct fltLog ⟨true, false, keep⟩ (layers.map Created.layer) output (excludedWord unkId excludeUnk) l1Weight l2Weight params
    b.matrices.1 (table (b.steps + 1) b.n fun t i => (memberOf v (b.word t i)).1) b.matrices.2

/-- The perplexity of the mini-batch, computed as in validation. -/
noncomputable def validationPerplexity (v : Vocab) (unkId : Nat) (layers : List (Created ℝ)) (output : Nat) (excludeUnk : Bool)
    (b : MiniBatch) : Except Err (Flt ℝ) :=
  (validationScorer realAct fltLog (fun q => (q : ℝ)) v unkId (layers.map Created.layer) output excludeUnk).computePerplexity [b.matrices]

/-- A mini-batch for training: the words are in the shortlist (`C08_training`). -/
structure MiniBatch.ForTraining (b : MiniBatch) (v : Vocab) : Prop where
  valid : b.Valid v
  shortlist : ∀ t i, t ≤ b.steps → i < b.n → b.word t i < v.numShortlist

/-- The target words that are counted: those inside the mask, without `<unk>` if so requested. -/
def MiniBatch.counted (b : MiniBatch) (unkId : Nat) (excludeUnk : Bool) : List (Nat × Nat) :=
  b.positions.filter fun p => decide (b.mask (p.1 + 1) p.2 = 1 ∧ ¬ (excludeUnk = true ∧ b.word (p.1 + 1) p.2 = unkId))

/-! ## Lemmas -/

section
variable {S : Type}

/-- A network without dropout layers is evaluated in the same way in training. -/
theorem evalLayers_deterministic [Add S] [Mul S] [Sub S] [Div S] [Zero S] [One S] {act : Act S} {keep keep' : Nat → Nat → Nat → List Bool} {x y excludeUnk : Bool}
    (layers : List (Layer S)) (h : ∀ layer ∈ layers, layer.Deterministic) (k : Nat) (g : List (List (Entry S))) :
    evalLayers act ⟨x, excludeUnk, keep⟩ k layers g = evalLayers act ⟨y, excludeUnk, keep'⟩ k layers g := by
  induction layers generalizing k g with
  | nil => rfl
  | cons layer layers ih =>
    have e : ∀ g, evalLayer act ⟨x, excludeUnk, keep⟩ layer k g = evalLayer act ⟨y, excludeUnk, keep'⟩ layer k g := by
      intro g
      have hd := h layer List.mem_cons_self
      cases layer with
      | dropout b scale => exact absurd rfl (hd b scale)
      | _ => rfl
    unfold evalLayers
    rw [e]
    split
    · rfl
    · exact ih (fun l hl => h l (List.mem_cons_of_mem _ hl)) _ _

theorem sum_filter_map [AddCommMonoid S] {α : Type} (l : List α) (p : α → Bool) (f : α → S) :
    ((l.filter p).map f).sum = (l.map fun x => if p x = true then f x else 0).sum := by
  induction l with
  | nil => rfl
  | cons x l ih =>
    rw [List.map_cons, List.sum_cons, ← ih]
    by_cases h : p x = true
    · rw [List.filter_cons_of_pos h, List.map_cons, List.sum_cons, if_pos h]
    · rw [List.filter_cons_of_neg h, if_neg h, zero_add]

end

theorem counted_card (b : MiniBatch) (unkId : Nat) (excludeUnk : Bool) (hm : ∀ t i, t ≤ b.steps → i < b.n → b.mask t i = 0 ∨ b.mask t i = 1) :
    (countedPositions (excludedWord unkId excludeUnk) (fun t i => b.mask (t + 1) i != 0) (fun t i => b.word (t + 1) i) b.steps b.n).card =
      (b.counted unkId excludeUnk).length ∧ ∀ f : Nat → Nat → ℝ,
    ∑ p ∈ countedPositions (excludedWord unkId excludeUnk) (fun t i => b.mask (t + 1) i != 0) (fun t i => b.word (t + 1) i) b.steps b.n,
      f p.1 p.2 = ((b.counted unkId excludeUnk).map fun p => f p.1 p.2).sum := by
  have key : ∀ f : Nat → Nat → ℝ,
      ∑ p ∈ countedPositions (excludedWord unkId excludeUnk) (fun t i => b.mask (t + 1) i != 0) (fun t i => b.word (t + 1) i) b.steps b.n,
      f p.1 p.2 = ((b.counted unkId excludeUnk).map fun p => f p.1 p.2).sum := by
    intro f
    unfold MiniBatch.counted
    rw [sum_filter_map, countedPositions, Finset.sum_filter]
    have e : b.positions = List.range b.steps ×ˢ List.range b.n := rfl
    rw [e, sum_product]
    apply Finset.sum_congr rfl
    intro p hp
    rw [Finset.mem_product, Finset.mem_range, Finset.mem_range] at hp
    have := hm (p.1 + 1) p.2 (by omega) hp.2
    have hiff : Counted (excludedWord unkId excludeUnk) (fun t i => b.mask (t + 1) i != 0) (fun t i => b.word (t + 1) i) p.1 p.2 ↔
        decide (b.mask (p.1 + 1) p.2 = 1 ∧ ¬ (excludeUnk = true ∧ b.word (p.1 + 1) p.2 = unkId)) = true := by
      unfold Counted excludedWord
      rw [decide_eq_true_iff]
      apply and_congr
      · rcases this with h | h <;> simp [h]
      · cases excludeUnk
        · simp
        · simp [eq_comm]
    by_cases hc : Counted (excludedWord unkId excludeUnk) (fun t i => b.mask (t + 1) i != 0) (fun t i => b.word (t + 1) i) p.1 p.2
    · rw [if_pos hc, if_pos (hiff.mp hc)]
    · rw [if_neg hc, if_neg fun h => hc (hiff.mpr h)]
  refine ⟨?_, key⟩
  have := key fun _ _ => 1
  rw [Finset.sum_const, List.map_const', List.sum_replicate] at this
  simpa using this

section
variable {P : Parsers} {v : Vocab} {unkId : Nat}

/-- Shortlist words are not divided further. -/
theorem oos_shortlist (hv : Constructible P v) {w : Nat} (hw : w < v.numShortlist) {l : List (Option ℚ)} (h : v.oosProbs = some l)
    {q : Option ℚ} (hq : l[w]? = some q) : q = some 1 := by
  unfold Vocab.oosProbs at h
  cases hu : v.unigram with
  | none => rw [hu] at h; cases h
  | some u =>
    rw [hu] at h
    simp only [Option.some.injEq] at h
    subst h
    obtain ⟨n, ps, hvi⟩ := hv.inv
    have hlen : u.length = v.numWords := hvi.uni u hu
    have hsl : v.numShortlist ≤ v.numWords := hvi.short
    rw [List.getElem?_append_left (by simp; omega), List.getElem?_map, List.getElem?_take_of_lt hw,
      List.getElem?_eq_getElem (by omega)] at hq
    injection hq with hq
    exact hq.symm

variable {env : CreateEnv ℝ} {a : Architecture} {layers : List (Created ℝ)} {output : Nat}

/-- The log probabilities that the network predicts are finite, and they are those of the cost. -/
theorem cost_logprobs (hv : Constructible P v) (hu : v.wordToId unk = some unkId) (hm : ModelOf env a v layers output)
    (hd : ∀ c ∈ layers, c.layer.Deterministic) (keep : Nat → Nat → Nat → List Bool) (b : MiniBatch) (hb : b.ForTraining v) :
    ∃ lp : Nat → Nat → ℝ, ∀ t i, t < b.steps → i < b.n →
      (scorerOf v unkId layers output true false).networkScore b t i = .fin (lp t i) ∧
      targetLogprob realAct ⟨true, false, keep⟩ (layers.map Created.layer) output fltLog b.matrices.1.dropLast
        (table (b.steps + 1) b.n fun t i => (memberOf v (b.word t i)).1).dropLast
        (table (b.steps + 1) b.n fun t i => (memberOf v (b.word t i)).1).tail b.matrices.2.tail t i = .fin (lp t i) := by
  have hpos : 0 < v.numClasses := lt_of_le_of_lt (Nat.zero_le _) (memberOf_class hv hu 0).1
  obtain ⟨out, o1, o2, o3, o4⟩ := output_distribution_le hm (excludeUnk := false) nofun hpos (batch := table b.steps b.n (cellOf v unkId b))
    rect_table (cells_valid hv hu hm.words hm.classes b b.steps)
  have key : ∀ t i, t < b.steps → i < b.n → ∃ x : ℝ, (scorerOf v unkId layers output true false).networkScore b t i = .fin x := by
    intro t i ht hi
    obtain ⟨e, he⟩ := Option.isSome_iff_exists.mp ((posAt_isSome o3 t i).mpr ⟨by rw [o2]; simp [table]; omega, hi⟩)
    obtain ⟨p, hp, p1, _, _, _, p5, _⟩ := o4 _ _ e he
    rw [score_of_output ht hi o1 he hp]
    have hlt : (memberOf v (b.word (t + 1) i)).1 < p.length := by rw [p1]; exact (memberOf_class hv hu _).1
    rw [List.getElem?_eq_getElem hlt]
    have h0 := p5 rfl _ (List.getElem_mem hlt)
    have hl : fltLog p[(memberOf v (b.word (t + 1) i)).1] = .fin (Real.log p[(memberOf v (b.word (t + 1) i)).1]) := by
      unfold fltLog
      rw [if_neg h0.ne', if_pos h0]
    exact ⟨_, hl⟩
  refine ⟨fun t i => if h : t < b.steps ∧ i < b.n then (key t i h.1 h.2).choose else 0, fun t i ht hi => ?_⟩
  simp only [ht, hi, and_self, dite_true]
  have hs := (key t i ht hi).choose_spec
  refine ⟨hs, Eq.trans ?_ hs⟩
  have e1 : b.matrices.1.dropLast = table b.steps b.n fun t i => if b.word t i < v.numShortlist then b.word t i else unkId := by
    unfold MiniBatch.matrices table
    simp only
    rw [List.range_succ, List.map_append, List.map_singleton, List.dropLast_concat]
    apply List.map_congr_left
    intro t ht
    apply List.map_congr_left
    intro i hi
    rw [List.mem_range] at ht hi
    rw [if_pos (hb.shortlist t i (by omega) hi)]
  have e2 : (table (b.steps + 1) b.n fun t i => (memberOf v (b.word t i)).1).dropLast =
      table b.steps b.n fun t i => (memberOf v (b.word t i)).1 := by
    unfold table
    rw [List.range_succ, List.map_append, List.map_singleton, List.dropLast_concat]
  have et : ∀ f : Nat → Nat → Nat, (table (b.steps + 1) b.n f).tail = table b.steps b.n fun t i => f (t + 1) i := by
    intro f
    unfold table
    rw [List.range_succ_eq_map, List.map_cons, List.tail_cons, List.map_map]
    rfl
  rw [e1, e2, et, show b.matrices.2.tail = table b.steps b.n fun t i => b.mask (t + 1) i from et _]
  show _ = targetLogprob realAct ⟨false, false, fun _ _ _ => []⟩ (layers.map Created.layer) output fltLog _ _ _ _ t i
  unfold targetLogprob evalNetwork
  rw [evalLayers_deterministic (y := false) (keep' := fun _ _ _ => []) _ (by
    intro layer hl
    obtain ⟨c, hc, rfl⟩ := List.mem_map.mp hl
    exact hd c hc)]
  rfl

/-- The training cost from the log probabilities that the network predicts. -/
theorem cost_mean {keep : Nat → Nat → Nat → List Bool} {b : MiniBatch} (hb : b.ForTraining v) {excludeUnk : Bool} {lp : Nat → Nat → ℝ}
    (hlp : ∀ t i, t < b.steps → i < b.n →
      (scorerOf v unkId layers output true false).networkScore b t i = .fin (lp t i) ∧
      targetLogprob realAct ⟨true, false, keep⟩ (layers.map Created.layer) output fltLog b.matrices.1.dropLast
        (table (b.steps + 1) b.n fun t i => (memberOf v (b.word t i)).1).dropLast
        (table (b.steps + 1) b.n fun t i => (memberOf v (b.word t i)).1).tail b.matrices.2.tail t i = .fin (lp t i))
    (hne : b.counted unkId excludeUnk ≠ []) (l1Weight l2Weight : Option ℝ) (params : List (List ℝ)) :
    trainingCost v unkId layers output excludeUnk keep l1Weight l2Weight params b =
      (.fin (-((b.counted unkId excludeUnk).map fun p => lp p.1 p.2).sum / (b.counted unkId excludeUnk).length +
        penalty l1Weight l2Weight params.flatten), (b.counted unkId excludeUnk).length) := by
  unfold trainingCost updateCost
  simp only
  have et : ∀ f : Nat → Nat → Nat, (table (b.steps + 1) b.n f).tail = matrix b.steps b.n fun t i => f (t + 1) i := by
    intro f
    unfold table matrix
    rw [List.range_succ_eq_map, List.map_cons, List.tail_cons, List.map_map]
    rfl
  have e1 : (b.matrices.2.tail.map (List.map fun m => m != 0)) = matrix b.steps b.n fun t i => b.mask (t + 1) i != 0 := by
    rw [show b.matrices.2.tail = matrix b.steps b.n fun t i => b.mask (t + 1) i from et _, map_matrix]
  have e3 : ((table (b.steps + 1) b.n fun t i => (memberOf v (b.word t i)).1).tail.zipIdx.map fun row => row.1.zipIdx.map fun x =>
      targetLogprob realAct ⟨true, false, keep⟩ (layers.map Created.layer) output fltLog b.matrices.1.dropLast
        (table (b.steps + 1) b.n fun t i => (memberOf v (b.word t i)).1).dropLast
        (table (b.steps + 1) b.n fun t i => (memberOf v (b.word t i)).1).tail b.matrices.2.tail row.2 x.2) =
      matrix b.steps b.n fun t i => .fin (lp t i) := by
    rw [et]
    apply List.ext_getElem?
    intro t
    unfold matrix
    rw [List.getElem?_map, List.getElem?_zipIdx, List.getElem?_map, List.getElem?_map]
    by_cases ht : t < b.steps
    · rw [List.getElem?_range ht]
      simp only [Option.map_some, Option.some.injEq, zero_add]
      apply List.ext_getElem?
      intro i
      rw [List.getElem?_map, List.getElem?_zipIdx, List.getElem?_map, List.getElem?_map]
      by_cases hi : i < b.n
      · rw [List.getElem?_range hi]
        simp only [Option.map_some, Option.some.injEq, zero_add]
        have := (hlp t i ht hi).2
        rw [et] at this
        exact this
      · rw [List.getElem?_eq_none (by simpa using hi)]
        rfl
    · rw [List.getElem?_eq_none (by simpa using ht)]
      rfl
  rw [e1, e3, show b.matrices.1.tail = matrix b.steps b.n fun t i => b.word (t + 1) i from et _, C78_cost,
    (counted_card b unkId excludeUnk hb.valid.mask).1, (counted_card b unkId excludeUnk hb.valid.mask).2, if_neg]
  exact fun h => hne (List.length_eq_zero_iff.mp h)

end

/-! ## C112 -/

section
variable {P : Parsers} {v : Vocab} {unkId : Nat}

/-- C112.  For a training mini-batch and a network without dropout layers, the cross-entropy training cost and the perplexity that is
computed in validation measure the same thing: the perplexity is the exponential of the cost (without the penalties) minus a number that
does not depend on the network, the mean of the logarithms of the class membership probabilities of the words.  This holds if `<unk>` is
excluded in training or is not a target, or if the vocabulary does not have unigram probabilities, so that the same words are counted. -/
theorem C112_perplexity (hv : Constructible P v) (hu : v.wordToId unk = some unkId) (hprob : ∀ w, 0 ≤ probOf v w)
    (hun : ∀ u, v.unigram = some u → ∀ x ∈ u, 0 ≤ x) (excludeUnk : Bool) (b : MiniBatch) (hb : b.ForTraining v)
    (hsame : excludeUnk = true ∨ v.unigram = none ∨ ∀ t i, t < b.steps → i < b.n → b.mask (t + 1) i = 1 → b.word (t + 1) i ≠ unkId)
    (hmem : ∀ p ∈ b.counted unkId excludeUnk, (memberOf v (b.word (p.1 + 1) p.2)).2 ≠ 0) (hne : b.counted unkId excludeUnk ≠ [])
    {env : CreateEnv ℝ} {a : Architecture} {layers : List (Created ℝ)} {output : Nat} (hm : ModelOf env a v layers output)
    (hd : ∀ c ∈ layers, c.layer.Deterministic) (keep : Nat → Nat → Nat → List Bool) (l1Weight l2Weight : Option ℝ)
    (params : List (List ℝ)) :
    ∃ cost : ℝ, trainingCost v unkId layers output excludeUnk keep l1Weight l2Weight params b =
        (.fin (cost + penalty l1Weight l2Weight params.flatten), (b.counted unkId excludeUnk).length) ∧
      validationPerplexity v unkId layers output excludeUnk b = .ok (.fin (Real.exp (cost -
        ((b.counted unkId excludeUnk).map fun p => Real.log ((memberOf v (b.word (p.1 + 1) p.2)).2 : ℝ)).sum /
          (b.counted unkId excludeUnk).length))) := by
  obtain ⟨lp, hlp⟩ := cost_logprobs hv hu hm hd keep b hb
  set C := b.counted unkId excludeUnk with hC
  have hlen : (C.length : ℝ) ≠ 0 := by
    rw [Nat.cast_ne_zero]
    exact fun h => hne (List.length_eq_zero_iff.mp h)
  refine ⟨-(C.map fun p => lp p.1 p.2).sum / C.length, ?_, ?_⟩
  · exact cost_mean hb hlp hne l1Weight l2Weight params
  · unfold validationPerplexity
    set sc := validationScorer realAct fltLog (fun q => (q : ℝ)) v unkId (layers.map Created.layer) output excludeUnk with hsc
    have hvocab : sc.vocab = v := rfl
    have hfilter : b.positions.filter (fun p => decide (sc.Included b p.1 p.2)) = C := by
      rw [hC]
      unfold MiniBatch.counted
      apply List.filter_congr
      intro p hp
      obtain ⟨h1, h2⟩ := mem_positions hp
      rw [decide_eq_decide]
      have hsl := hb.shortlist (p.1 + 1) p.2 (by omega) h2
      have hex : b.mask (p.1 + 1) p.2 = 1 → (sc.Excluded (b.word (p.1 + 1) p.2) ↔ excludeUnk = true ∧ b.word (p.1 + 1) p.2 = unkId) := by
        intro hk
        unfold Scorer.Excluded
        by_cases hus : sc.UsesShortlist
        · rw [if_pos hus]
          have hu' : sc.unkId = unkId := rfl
          rw [hu']
          rcases hsame with h | h | h
          · simp [h]
          · exact absurd h hus.2
          · simp [h _ _ h1 h2 hk]
        · rw [if_neg hus]
          have e1 : sc.excludeUnk = excludeUnk := rfl
          have e2 : sc.unkId = unkId := rfl
          rw [e1, e2, hvocab]
          constructor
          · rintro ⟨a, h | h⟩
            · exact ⟨a, h⟩
            · omega
          · rintro ⟨a, h⟩
            exact ⟨a, .inl h⟩
      constructor
      · rintro ⟨h1, h2, _⟩
        exact ⟨h1, fun h => h2 ((hex h1).mpr h)⟩
      · rintro ⟨h3, h4⟩
        refine ⟨h3, fun h => h4 ((hex h3).mp h), ?_⟩
        refine hmem p ?_
        rw [hC]
        exact List.mem_filter.mpr ⟨hp, decide_eq_true ⟨h3, h4⟩⟩
    have hword : ∀ p ∈ C, sc.WordScore b p.1 p.2 (.fin (lp p.1 p.2 + Real.log ((memberOf v (b.word (p.1 + 1) p.2)).2 : ℝ))) := by
      intro p hp
      have hp' := hp
      rw [hC] at hp'
      obtain ⟨h1, h2⟩ := mem_positions (List.mem_filter.mp hp').1
      have hsl := hb.shortlist (p.1 + 1) p.2 (by omega) h2
      have hn : sc.networkScore b p.1 p.2 = .fin (lp p.1 p.2) := (hlp _ _ h1 h2).1
      have h0 : (0 : ℝ) < ((memberOf v (b.word (p.1 + 1) p.2)).2 : ℝ) := by
        have hge : 0 ≤ (memberOf v (b.word (p.1 + 1) p.2)).2 := by
          rw [(memberOf_class hv hu _).2.2]
          exact hprob _
        exact_mod_cast lt_of_le_of_ne hge (Ne.symm (hmem p hp))
      have hl : sc.log (memberOf sc.vocab (b.word (p.1 + 1) p.2)).2 =
          .fin (Real.log ((memberOf v (b.word (p.1 + 1) p.2)).2 : ℝ)) := by
        show fltLog ((memberOf v (b.word (p.1 + 1) p.2)).2 : ℝ) = _
        unfold fltLog
        rw [if_neg h0.ne', if_pos h0]
      have hsum : (sc.networkScore b p.1 p.2).add (sc.log (memberOf sc.vocab (b.word (p.1 + 1) p.2)).2) =
          .fin (lp p.1 p.2 + Real.log ((memberOf v (b.word (p.1 + 1) p.2)).2 : ℝ)) := by
        rw [hn, hl]
        rfl
      refine ⟨fun _ => hsum.symm, fun hus => ?_⟩
      have hsome : v.oosProbs ≠ none := by
        unfold Vocab.oosProbs
        obtain ⟨u, hg⟩ := Option.ne_none_iff_exists'.mp hus.2
        rw [show v.unigram = some u from hg]
        nofun
      obtain ⟨l, hl1⟩ := Option.ne_none_iff_exists'.mp hsome
      have hlt : b.word (p.1 + 1) p.2 < l.length := by
        by_contra hge
        have hl1' := hl1
        unfold Vocab.oosProbs at hl1'
        obtain ⟨u, hg⟩ := Option.ne_none_iff_exists'.mp hus.2
        rw [show v.unigram = some u from hg] at hl1'
        simp only [Option.some.injEq] at hl1'
        subst hl1'
        obtain ⟨n, ps, hvi⟩ := hv.inv
        have h1 : u.length = v.numWords := hvi.uni u hg
        have h2 : v.numShortlist ≤ v.numWords := hvi.short
        simp only [List.length_append, List.length_map, List.length_take] at hge
        omega
      refine ⟨l, l[b.word (p.1 + 1) p.2], hl1, List.getElem?_eq_getElem hlt, ?_⟩
      rw [oos_shortlist hv hsl hl1 (List.getElem?_eq_getElem hlt), hsum]
      show _ = Flt.add _ (fltLog ((1 : ℚ) : ℝ))
      simp [fltLog, Flt.add]
    rw [show [b.matrices] = [b].map MiniBatch.matrices from rfl]
    refine (C38_perplexity P sc ⟨hv, hu⟩ [b] (fun b' hb' => by rw [List.mem_singleton.mp hb']; exact hb.valid) _).mpr
      ⟨[C.map fun p => lp p.1 p.2 + Real.log ((memberOf v (b.word (p.1 + 1) p.2)).2 : ℝ)], .cons ⟨?_, ?_⟩ .nil, ?_, ?_⟩
    · unfold Scorer.IncludedScores
      rw [hfilter, List.forall₂_map_right_iff, List.forall₂_map_right_iff, List.forall₂_same]
      exact hword
    · refine list_sum_nonpos _ fun x hx => ?_
      obtain ⟨p, hp, rfl⟩ := List.mem_map.mp hx
      have hp' := hp
      rw [hC] at hp'
      obtain ⟨h1, h2⟩ := mem_positions (List.mem_filter.mp hp').1
      exact C110_probability hv hu hm true false nofun hprob hun b p.1 p.2 h1 h2 _ (hword p hp)
    · simpa using hne
    · have hexp : sc.exp = Real.exp := rfl
      rw [hexp]
      simp only [List.flatten_cons, List.flatten_nil, List.append_nil, List.length_map]
      congr 2
      rw [List.sum_map_add]
      field_simp
      ring

/-- C112, comparison of networks.  Of two networks without dropout layers, the one with the smaller training cost of a mini-batch (without
penalties) has the smaller perplexity. -/
theorem C112_order (hv : Constructible P v) (hu : v.wordToId unk = some unkId) (hprob : ∀ w, 0 ≤ probOf v w)
    (hun : ∀ u, v.unigram = some u → ∀ x ∈ u, 0 ≤ x) (excludeUnk : Bool) (b : MiniBatch) (hb : b.ForTraining v)
    (hsame : excludeUnk = true ∨ v.unigram = none ∨ ∀ t i, t < b.steps → i < b.n → b.mask (t + 1) i = 1 → b.word (t + 1) i ≠ unkId)
    (hmem : ∀ p ∈ b.counted unkId excludeUnk, (memberOf v (b.word (p.1 + 1) p.2)).2 ≠ 0) (hne : b.counted unkId excludeUnk ≠ [])
    {env env' : CreateEnv ℝ} {a a' : Architecture} {layers layers' : List (Created ℝ)} {output output' : Nat}
    (hm : ModelOf env a v layers output) (hm' : ModelOf env' a' v layers' output')
    (hd : ∀ c ∈ layers, c.layer.Deterministic) (hd' : ∀ c ∈ layers', c.layer.Deterministic)
    (keep keep' : Nat → Nat → Nat → List Bool) (params params' : List (List ℝ)) :
    ∃ cost cost' ppl ppl' : ℝ,
      (trainingCost v unkId layers output excludeUnk keep none none params b).1 = .fin cost ∧
      (trainingCost v unkId layers' output' excludeUnk keep' none none params' b).1 = .fin cost' ∧
      validationPerplexity v unkId layers output excludeUnk b = .ok (.fin ppl) ∧
      validationPerplexity v unkId layers' output' excludeUnk b = .ok (.fin ppl') ∧ (ppl < ppl' ↔ cost < cost') := by
  obtain ⟨c, h1, h2⟩ := C112_perplexity hv hu hprob hun excludeUnk b hb hsame hmem hne hm hd keep none none params
  obtain ⟨c', h1', h2'⟩ := C112_perplexity hv hu hprob hun excludeUnk b hb hsame hmem hne hm' hd' keep' none none params'
  have hp : ∀ l : List ℝ, penalty none none l = 0 := fun l => by simp [penalty]
  refine ⟨c, c', _, _, by rw [h1, hp, add_zero], by rw [h1', hp, add_zero], h2, h2', ?_⟩
  rw [Real.exp_lt_exp]
  constructor <;> intro h <;> linarith

/-- C112, `<unk>`.  The same words are not counted, if `<unk>` is not excluded in training and the vocabulary has unigram probabilities: for
a mini-batch where `<unk>` is the only target, there is a training cost, but the perplexity cannot be computed. -/
theorem C112_unknown (hv : Constructible P v) (hu : v.wordToId unk = some unkId) (hun : v.unigram ≠ none) (b : MiniBatch)
    (hb : b.ForTraining v) (hne : b.counted unkId false ≠ [])
    (hall : ∀ t i, t < b.steps → i < b.n → b.mask (t + 1) i = 1 → b.word (t + 1) i = unkId)
    {env : CreateEnv ℝ} {a : Architecture} {layers : List (Created ℝ)} {output : Nat} (hm : ModelOf env a v layers output)
    (hd : ∀ c ∈ layers, c.layer.Deterministic) (keep : Nat → Nat → Nat → List Bool) (params : List (List ℝ)) :
    (∃ cost : ℝ, (trainingCost v unkId layers output false keep none none params b).1 = .fin cost) ∧
      validationPerplexity v unkId layers output false b = .error .valueError := by
  obtain ⟨lp, hlp⟩ := cost_logprobs hv hu hm hd keep b hb
  refine ⟨⟨_, by rw [cost_mean hb hlp hne]⟩, ?_⟩
  refine C38_no_words P (validationScorer realAct fltLog (fun q => (q : ℝ)) v unkId (layers.map Created.layer) output false) ⟨hv, hu⟩ [b]
    (fun b' hb' => by rw [List.mem_singleton.mp hb']; exact hb.valid) fun b' hb' t i ht hi => ?_
  rw [List.mem_singleton] at hb'
  subst hb'
  rintro ⟨h1, h2, _⟩
  refine h2 ?_
  unfold Scorer.Excluded
  rw [if_pos ⟨rfl, hun⟩]
  exact hall t i ht hi h1

end

/-! ## Examples -/

instance decidableDeterministic {S : Type} (l : Layer S) : Decidable l.Deterministic :=
  match l with
  | .dropout b scale => isFalse fun h => h b scale rfl
  | .bidirectional _ _ _ => isTrue nofun
  | .wordInput => isTrue nofun
  | .classInput => isTrue nofun
  | .projection _ => isTrue nofun
  | .fullyConnected _ => isTrue nofun
  | .addition _ _ => isTrue nofun
  | .recurrent _ _ => isTrue nofun
  | .highway _ => isTrue nofun
  | .glu _ _ _ _ => isTrue nofun
  | .softmax _ _ => isTrue nofun
  | .hsoftmax _ _ _ _ _ => isTrue nofun

theorem exampleModel_deterministic {layers : List (Created ℝ)} (h : ModelOf exampleModelEnv (exampleSmall "q") exScoreVocab layers 3) :
    ∀ c ∈ layers, c.layer.Deterministic := by
  obtain ⟨net', g1, g2⟩ : ∃ net, createNetwork exampleModelEnv (exampleSmall "q") = .ok net ∧ ∀ c ∈ net.layers, c.layer.Deterministic := by
    decide +kernel
  obtain ⟨net, h1, _, h3, _⟩ := h.created
  rw [g1] at h1
  cases h1
  intro c hc
  obtain ⟨c', hc', _, _, hs⟩ := forall₂_from h3 hc
  have hd := g2 c' hc'
  intro b scale e
  rw [e] at hs
  revert hd
  generalize c'.layer = l at hs
  intro hd
  cases hs
  exact hd _ _ rfl

/-- The sentences "a c" and "a". -/
def exTrainBatch : MiniBatch where
  steps := 3
  n := 2
  word t i := (([[3, 3], [1, 1], [2, 4], [4, 5]].getD t []).getD i 0)
  mask t i := (([[1, 1], [1, 1], [1, 1], [1, 0]].getD t []).getD i 0)

/-- A case that meets the hypotheses of `C112_perplexity` and `C112_order`. -/
example : ∃ layers, ModelOf exampleModelEnv (exampleSmall "q") exScoreVocab layers 3 ∧ (∀ c ∈ layers, c.layer.Deterministic) ∧
    Constructible exParsers exScoreVocab ∧ exScoreVocab.wordToId unk = some 5 ∧ (∀ w, 0 ≤ probOf exScoreVocab w) ∧
    (∀ u, exScoreVocab.unigram = some u → ∀ x ∈ u, 0 ≤ x) ∧ exTrainBatch.ForTraining exScoreVocab ∧
    (∀ t i, t < exTrainBatch.steps → i < exTrainBatch.n → exTrainBatch.mask (t + 1) i = 1 → exTrainBatch.word (t + 1) i ≠ 5) ∧
    (∀ p ∈ exTrainBatch.counted 5 false, (memberOf exScoreVocab (exTrainBatch.word (p.1 + 1) p.2)).2 ≠ 0) ∧
    exTrainBatch.counted 5 false ≠ [] := by
  obtain ⟨layers, h1, _⟩ := exampleModel
  refine ⟨layers, h1, exampleModel_deterministic h1, exScoreVocab_constructible, by decide +kernel, exScoreVocab_nonneg, fun u hu => ?_,
    ⟨⟨?_, ?_⟩, ?_⟩, ?_, by decide +kernel, by decide +kernel⟩
  · cases hu
    decide +kernel
  all_goals
    intro t i ht hi
    simp only [exTrainBatch] at ht hi
    interval_cases t <;> interval_cases i <;> decide +kernel

/-- A case that meets the hypotheses of `C112_unknown`. -/
example : ∃ b : MiniBatch, b.ForTraining exScoreVocab ∧ b.counted 5 false ≠ [] ∧ exScoreVocab.unigram ≠ none ∧
    ∀ t i, t < b.steps → i < b.n → b.mask (t + 1) i = 1 → b.word (t + 1) i = 5 := by
  refine ⟨⟨1, 1, fun t _ => if t = 0 then 3 else 5, fun _ _ => 1⟩, ⟨⟨?_, ?_⟩, ?_⟩, by decide +kernel, nofun, ?_⟩
  all_goals
    intro t i ht hi
    simp only at ht hi
    interval_cases t <;> interval_cases i <;> decide +kernel

end TheanoLM
