import Verif.Props.CostSpec
import Verif.Lemmas.ScoreText
import Verif.Lemmas.LayerAt
import Verif.Props.OutputLayer
import Mathlib.Analysis.SpecialFunctions.Pow.Real
import Mathlib.Tactic.FieldSimp
import Mathlib.Tactic.Ring
import Mathlib.Algebra.Order.BigOperators.Group.List
/-!
# C78: the costs of mini-batches
-/
set_option linter.unusedSectionVars false
namespace TheanoLM

/-! ## Matrices -/

section
variable {α β γ : Type}

theorem zipWith_matrix (f : α → β → γ) (T B : Nat) (a : Nat → Nat → α) (b : Nat → Nat → β) :
    List.zipWith (List.zipWith f) (matrix T B a) (matrix T B b) = matrix T B fun t s => f (a t s) (b t s) := by
  unfold matrix
  rw [List.zipWith_map, List.zipWith_self]
  apply List.map_congr_left
  intro t _
  rw [List.zipWith_map, List.zipWith_self]

theorem map_matrix (f : α → β) (T B : Nat) (a : Nat → Nat → α) :
    (matrix T B a).map (List.map f) = matrix T B fun t s => f (a t s) := by
  unfold matrix
  rw [List.map_map]
  apply List.map_congr_left
  intro t _
  simp

theorem flatten_matrix (T B : Nat) (a : Nat → Nat → α) :
    (matrix T B a).flatten = (List.range T ×ˢ List.range B).map fun p => a p.1 p.2 := by
  unfold matrix
  show _ = List.map _ (List.product _ _)
  unfold List.product
  rw [List.map_flatMap, List.flatMap_def]
  congr 1
  apply List.map_congr_left
  intro t _
  simp

theorem matrix_congr {T B : Nat} {a b : Nat → Nat → α} (h : ∀ t < T, ∀ s < B, a t s = b t s) : matrix T B a = matrix T B b := by
  unfold matrix
  apply List.map_congr_left
  intro t ht
  apply List.map_congr_left
  intro s hs
  exact h t (List.mem_range.mp ht) s (List.mem_range.mp hs)

theorem sum_product [AddCommMonoid α] (T B : Nat) (f : Nat × Nat → α) :
    ((List.range T ×ˢ List.range B).map f).sum = ∑ p ∈ Finset.range T ×ˢ Finset.range B, f p := by
  rw [Finset.sum_product]
  show (List.map f (List.product _ _)).sum = _
  unfold List.product
  rw [List.map_flatMap]
  have h1 : ∀ (n : Nat) (g : Nat → α), ((List.range n).map g).sum = ∑ i ∈ Finset.range n, g i := by
    intro n g
    induction n with
    | zero => simp
    | succ n ih => rw [List.range_succ, Finset.sum_range_succ, List.map_append, List.sum_append, ih]; simp
  have h2 : ∀ (n : Nat) (g : Nat → List α), ((List.range n).flatMap g).sum = ∑ i ∈ Finset.range n, (g i).sum := by
    intro n g
    induction n with
    | zero => simp
    | succ n ih => rw [List.range_succ, Finset.sum_range_succ, List.flatMap_append, List.sum_append, ih]; simp
  rw [h2]
  apply Finset.sum_congr rfl
  intro t _
  rw [List.map_map, h1]
  rfl

end

/-! ## The cost -/

section
variable {S : Type} [Field S] [LinearOrder S]

theorem costMask_matrix (exclude : Option Nat) (T B : Nat) (mask : Nat → Nat → Bool) (word : Nat → Nat → Nat) :
    costMask exclude (matrix T B mask) (matrix T B word) = matrix T B fun t s => if Counted exclude mask word t s then 1 else 0 := by
  unfold costMask
  cases exclude with
  | none =>
    simp only
    rw [map_matrix]
    apply matrix_congr
    intro t _ s _
    simp [Counted]
  | some e =>
    simp only
    rw [map_matrix, zipWith_matrix]
    apply matrix_congr
    intro t _ s _
    by_cases h1 : mask t s = true <;> by_cases h2 : word t s = e <;> simp [Counted, h1, h2, eq_comm]
    · exact fun h => h2 h.symm

theorem sum_fin (l : List S) : Flt.sum (l.map Flt.fin) = .fin l.sum := by
  induction l with
  | nil => rfl
  | cons a l ih => rw [List.map_cons, Flt.sum_cons, ih]; rfl

theorem l1Norm_flatten [IsStrictOrderedRing S] (params : List (List S)) :
    l1Norm params = (params.flatten.map fun v => |v|).sum := by
  unfold l1Norm
  induction params with
  | nil => rfl
  | cons p ps ih =>
    rw [List.map_cons, List.sum_cons, ih, List.flatten_cons, List.map_append, List.sum_append]
    rfl

theorem sumOfSquares_flatten (params : List (List S)) :
    sumOfSquares params = (params.flatten.map fun v => v * v).sum := by
  unfold sumOfSquares
  induction params with
  | nil => rfl
  | cons p ps ih =>
    rw [List.map_cons, List.sum_cons, ih, List.flatten_cons, List.map_append, List.sum_append]
    congr 2
    apply List.map_congr_left
    intro v _
    ring

/-- The number of words, in terms of the positions. -/
theorem costMask_sum (exclude : Option Nat) (T B : Nat) (mask : Nat → Nat → Bool) (word : Nat → Nat → Nat) :
    (costMask exclude (matrix T B mask) (matrix T B word)).flatten.sum = (countedPositions exclude mask word T B).card := by
  rw [costMask_matrix, flatten_matrix, sum_product, countedPositions, Finset.card_filter]

theorem masked_logprobs (exclude : Option Nat) (T B : Nat) (mask : Nat → Nat → Bool) (word : Nat → Nat → Nat)
    (logprob : Nat → Nat → Flt S) :
    (List.zipWith (List.zipWith Flt.mulMask) (matrix T B logprob) (costMask exclude (matrix T B mask) (matrix T B word))).flatten =
      (List.range T ×ˢ List.range B).map fun p =>
        (logprob p.1 p.2).mulMask (if Counted exclude mask word p.1 p.2 then 1 else 0) := by
  rw [costMask_matrix, zipWith_matrix, flatten_matrix]

/-- **C78.** The cost of a mini-batch is the negative mean of the log probabilities of the targets that are inside the mask and are not
the excluded word, plus the penalties for large parameters.  It is not a number if there are no such targets.  The number of words
is the number of such targets. -/
theorem C78_cost [IsStrictOrderedRing S] (exclude : Option Nat) (l1Weight l2Weight : Option S) (params : List (List S)) (T B : Nat)
    (mask : Nat → Nat → Bool) (word : Nat → Nat → Nat) (logprob : Nat → Nat → S) :
    costTensor exclude l1Weight l2Weight params (matrix T B mask) (matrix T B word) (matrix T B fun t s => .fin (logprob t s)) =
      (if (countedPositions exclude mask word T B).card = 0 then .nan
        else .fin (-(∑ p ∈ countedPositions exclude mask word T B, logprob p.1 p.2) / (countedPositions exclude mask word T B).card +
          penalty l1Weight l2Weight params.flatten),
        (countedPositions exclude mask word T B).card) := by
  unfold costTensor
  simp only
  rw [costMask_sum, masked_logprobs]
  have h : (List.range T ×ˢ List.range B).map (fun p =>
      (Flt.fin (logprob p.1 p.2)).mulMask (if Counted exclude mask word p.1 p.2 then 1 else 0)) =
      ((List.range T ×ˢ List.range B).map fun p => if Counted exclude mask word p.1 p.2 then logprob p.1 p.2 else 0).map Flt.fin := by
    rw [List.map_map]
    apply List.map_congr_left
    intro p _
    by_cases hc : Counted exclude mask word p.1 p.2 <;> simp [Flt.mulMask, hc]
  rw [h, sum_fin, sum_product, ← Finset.sum_filter, ← countedPositions]
  congr 1
  generalize countedPositions exclude mask word T B = P
  by_cases h0 : P.card = 0
  · rw [if_pos h0, h0]
    rw [Finset.card_eq_zero] at h0
    subst h0
    cases l1Weight <;> cases l2Weight <;> simp [Flt.neg, Flt.div, Flt.add]
  · rw [if_neg h0]
    have h1 : ((P.card : Nat) : S) ≠ 0 := by exact_mod_cast h0
    have h2 : ((Flt.fin (∑ p ∈ P, logprob p.1 p.2)).neg).div (.fin (P.card : S)) = .fin (-(∑ p ∈ P, logprob p.1 p.2) / P.card) := by
      simp only [Flt.neg, Flt.div, if_neg h1]
    rw [h2, l1Norm_flatten, sumOfSquares_flatten]
    cases l1Weight <;> cases l2Weight <;> simp [penalty, Flt.add, add_assoc]

/-- **C78.** Log probabilities outside the mask and of the excluded word do not affect the cost. -/
theorem C78_padding [IsStrictOrderedRing S] (exclude : Option Nat) (l1Weight l2Weight : Option S) (params : List (List S)) (T B : Nat)
    (mask : Nat → Nat → Bool) (word : Nat → Nat → Nat) (logprob logprob' : Nat → Nat → S)
    (h : ∀ t < T, ∀ s < B, Counted exclude mask word t s → logprob t s = logprob' t s) :
    costTensor exclude l1Weight l2Weight params (matrix T B mask) (matrix T B word) (matrix T B fun t s => .fin (logprob t s)) =
      costTensor exclude l1Weight l2Weight params (matrix T B mask) (matrix T B word)
        (matrix T B fun t s => .fin (logprob' t s)) := by
  rw [C78_cost, C78_cost]
  have : ∑ p ∈ countedPositions exclude mask word T B, logprob p.1 p.2 =
      ∑ p ∈ countedPositions exclude mask word T B, logprob' p.1 p.2 := by
    apply Finset.sum_congr rfl
    intro p hp
    rw [countedPositions, Finset.mem_filter, Finset.mem_product, Finset.mem_range, Finset.mem_range] at hp
    exact h _ hp.1.1 _ hp.1.2 hp.2
  rw [this]

end

/-! ## Cross-entropy -/

section
variable {u : ℝ → Bool}

theorem log_pos {x : ℝ} (h : 0 < x) : Flt.log (realFun u) (.fin x) = .fin (Real.log x) := if_pos h

/-- **C78.** The exponential of the cross-entropy cost is the perplexity of the counted targets: the geometric mean of the inverses of
their probabilities. -/
theorem C78_cross_entropy (exclude : Option Nat) (params : List (List ℝ)) (T B : Nat) (mask : Nat → Nat → Bool)
    (word : Nat → Nat → Nat) (prob : Nat → Nat → ℝ) (hp : ∀ t < T, ∀ s < B, 0 < prob t s)
    (hc : (countedPositions exclude mask word T B).Nonempty) :
    ∃ cost, costTensor exclude none none params (matrix T B mask) (matrix T B word)
        (crossEntropyLogprobs (realFun u) (matrix T B prob)) = (.fin cost, (countedPositions exclude mask word T B).card) ∧
      Real.exp cost ^ (countedPositions exclude mask word T B).card =
        ∏ p ∈ countedPositions exclude mask word T B, (prob p.1 p.2)⁻¹ := by
  have h : crossEntropyLogprobs (realFun u) (matrix T B prob) = matrix T B fun t s => .fin (Real.log (prob t s)) := by
    unfold crossEntropyLogprobs
    rw [map_matrix]
    apply matrix_congr
    intro t ht s hs
    exact log_pos (hp t ht s hs)
  have hn : (countedPositions exclude mask word T B).card ≠ 0 := by
    rw [Ne, Finset.card_eq_zero]
    exact hc.ne_empty
  rw [h, C78_cost, if_neg hn]
  refine ⟨_, rfl, ?_⟩
  have hpos : ∀ p ∈ countedPositions exclude mask word T B, 0 < prob p.1 p.2 := by
    intro p hp'
    rw [countedPositions, Finset.mem_filter, Finset.mem_product, Finset.mem_range, Finset.mem_range] at hp'
    exact hp _ hp'.1.1 _ hp'.1.2
  generalize countedPositions exclude mask word T B = P at hn hpos
  rw [← Real.exp_nat_mul]
  have e : (P.card : ℝ) * (-(∑ p ∈ P, Real.log (prob p.1 p.2)) / P.card + penalty none none params.flatten) =
      ∑ p ∈ P, -Real.log (prob p.1 p.2) := by
    have h1 : ((P.card : Nat) : ℝ) ≠ 0 := by exact_mod_cast hn
    simp only [penalty, Option.getD_none, zero_mul, add_zero, Finset.sum_neg_distrib]
    field_simp
  rw [e, Real.exp_sum]
  apply Finset.prod_congr rfl
  intro p hp'
  rw [Real.exp_neg, Real.exp_log (hpos p hp')]

theorem sum_nan {l : List (Flt ℝ)} (h : .nan ∈ l) : Flt.sum l = .nan := by
  induction l with
  | nil => cases h
  | cons a l ih =>
    rw [Flt.sum_cons]
    rcases List.mem_cons.mp h with h | h
    · rw [← h]; rfl
    · rw [ih h]; cases a <;> rfl

theorem sum_negInf {l : List (Flt ℝ)} (h : ∀ x ∈ l, x = .negInf ∨ ∃ a, x = .fin a) :
    (.negInf ∈ l → Flt.sum l = .negInf) ∧ (.negInf ∉ l → ∃ a, Flt.sum l = .fin a) := by
  induction l with
  | nil => exact ⟨fun h => (by cases h), fun _ => ⟨0, rfl⟩⟩
  | cons a l ih =>
    have ih := ih fun x hx => h x (by simp [hx])
    rw [Flt.sum_cons]
    by_cases hl : Flt.negInf ∈ l
    · rw [ih.1 hl]
      refine ⟨fun _ => ?_, fun hn => absurd (List.mem_cons_of_mem _ hl) hn⟩
      rcases h a (by simp) with rfl | ⟨b, rfl⟩ <;> rfl
    · obtain ⟨c, hc⟩ := ih.2 hl
      rw [hc]
      rcases h a (by simp) with rfl | ⟨b, rfl⟩
      · exact ⟨fun _ => rfl, fun hn => absurd (by simp) hn⟩
      · refine ⟨fun hn => ?_, fun _ => ⟨_, rfl⟩⟩
        rcases List.mem_cons.mp hn with hn | hn
        · cases hn
        · exact absurd hn hl

theorem log_zero : Flt.log (realFun u) (.fin 0) = .negInf := by
  unfold Flt.log
  simp

/-- **C78.** The cost is infinite if a counted target has zero probability, and all other targets have a positive probability; it is not
a number if a target that is not counted has zero probability. -/
theorem C78_zero_probability (exclude : Option Nat) (params : List (List ℝ)) (T B : Nat) (mask : Nat → Nat → Bool)
    (word : Nat → Nat → Nat) (prob : Nat → Nat → ℝ) (hp : ∀ t < T, ∀ s < B, 0 ≤ prob t s) :
    ((∃ t < T, ∃ s < B, Counted exclude mask word t s ∧ prob t s = 0) →
      (∀ t < T, ∀ s < B, ¬ Counted exclude mask word t s → prob t s ≠ 0) →
      (costTensor exclude none none params (matrix T B mask) (matrix T B word)
        (crossEntropyLogprobs (realFun u) (matrix T B prob))).1 = .posInf) ∧
    ((∃ t < T, ∃ s < B, ¬ Counted exclude mask word t s ∧ prob t s = 0) →
      (costTensor exclude none none params (matrix T B mask) (matrix T B word)
        (crossEntropyLogprobs (realFun u) (matrix T B prob))).1 = .nan) := by
  have hm : crossEntropyLogprobs (realFun u) (matrix T B prob) = matrix T B fun t s => Flt.log (realFun u) (.fin (prob t s)) := by
    unfold crossEntropyLogprobs
    rw [map_matrix]
  unfold costTensor
  simp only
  rw [hm, costMask_sum, masked_logprobs]
  have hmem : ∀ p : Nat × Nat, p ∈ List.range T ×ˢ List.range B ↔ p.1 < T ∧ p.2 < B := by
    intro p
    rw [List.mem_product, List.mem_range, List.mem_range]
  constructor
  · rintro ⟨t, ht, s, hs, hc, h0⟩ hn
    have hsum := (sum_negInf (l := (List.range T ×ˢ List.range B).map fun p =>
        (Flt.log (realFun u) (.fin (prob p.1 p.2))).mulMask (if Counted exclude mask word p.1 p.2 then 1 else 0)) (by
      intro x hx
      obtain ⟨p, hpm, rfl⟩ := List.mem_map.mp hx
      obtain ⟨h1, h2⟩ := (hmem p).mp hpm
      rcases (hp _ h1 _ h2).lt_or_eq with hlt | heq
      · right
        rw [log_pos hlt]
        exact ⟨_, rfl⟩
      · left
        have hc' : Counted exclude mask word p.1 p.2 := by
          by_contra hc'
          exact hn _ h1 _ h2 hc' heq.symm
        rw [← heq, log_zero, if_pos hc']
        rfl)).1 (List.mem_map.mpr ⟨(t, s), (hmem _).mpr ⟨ht, hs⟩, by
          simp only
          rw [h0, log_zero, if_pos hc]; rfl⟩)
    rw [hsum]
    simp only [Flt.neg, Flt.div]
    rw [if_neg]
    exact not_lt.mpr (Nat.cast_nonneg _)
  · rintro ⟨t, ht, s, hs, hc, h0⟩
    have hsum := sum_nan (l := (List.range T ×ˢ List.range B).map fun p =>
        (Flt.log (realFun u) (.fin (prob p.1 p.2))).mulMask (if Counted exclude mask word p.1 p.2 then 1 else 0))
        (List.mem_map.mpr ⟨(t, s), (hmem _).mpr ⟨ht, hs⟩, by
          simp only
          rw [h0, log_zero, if_neg hc]; rfl⟩)
    rw [hsum]
    rfl

/-! ## Noise-contrastive estimation -/

theorem softplus_fin (x : ℝ) : Flt.softplus (realFun u) (.fin x) = .fin (Real.log (1 + Real.exp x)) := by
  show Flt.log (realFun u) (.fin (1 + Real.exp x)) = _
  exact log_pos (by positivity)

/-- **C78.** Noise-contrastive estimation: the log probability is the logarithm of the probability of all the correct guesses, that the
target is not noise, and that each of the sampled classes is noise. -/
theorem C78_nce (epsilon : ℝ) (target : NoiseClass ℝ) (sample : List (NoiseClass ℝ))
    (h : ∀ c ∈ target :: sample, 0 < c.prior + epsilon) :
    nceLogprob (realFun u) epsilon target sample =
      .fin (Real.log (notNoise (Real.exp target.logprob) (target.prior + epsilon)) +
        (sample.map fun c => Real.log (1 - notNoise (Real.exp c.logprob) (c.prior + epsilon))).sum) := by
  unfold nceLogprob
  simp only
  have hG : ∀ c ∈ target :: sample, (Flt.fin c.logprob).sub (Flt.log (realFun u) (.fin (c.prior + epsilon))) =
      .fin (c.logprob - Real.log (c.prior + epsilon)) := by
    intro c hc
    rw [log_pos (h c hc)]
    show Flt.fin (c.logprob + -Real.log (c.prior + epsilon)) = _
    rw [sub_eq_add_neg]
  have hs : (sample.map fun c => (Flt.softplus (realFun u) ((Flt.fin c.logprob).sub
      (Flt.log (realFun u) (.fin (c.prior + epsilon))))).neg) =
      (sample.map fun c => Real.log (1 - notNoise (Real.exp c.logprob) (c.prior + epsilon))).map Flt.fin := by
    rw [List.map_map]
    apply List.map_congr_left
    intro c hc
    have hq := h c (List.mem_cons_of_mem _ hc)
    rw [hG c (List.mem_cons_of_mem _ hc), softplus_fin]
    show Flt.fin (-Real.log (1 + Real.exp (c.logprob - Real.log (c.prior + epsilon)))) =
      Flt.fin (Real.log (1 - notNoise (Real.exp c.logprob) (c.prior + epsilon)))
    congr 1
    rw [← Real.log_inv, Real.exp_sub, Real.exp_log hq, notNoise]
    congr 1
    have := Real.exp_pos c.logprob
    field_simp
    ring
  rw [hs, sum_fin, hG target (by simp)]
  have hq := h target (by simp)
  show (Flt.softplus (realFun u) (.fin (-(target.logprob - Real.log (target.prior + epsilon))))).neg.add _ = _
  rw [softplus_fin]
  show Flt.fin _ = Flt.fin _
  congr 2
  rw [← Real.log_inv, neg_sub, Real.exp_sub, Real.exp_log hq]
  unfold notNoise
  congr 1
  have := Real.exp_pos target.logprob
  field_simp

/-! ## BlackOut -/

theorem weightedProb_fin {c : NoiseClass ℝ} (h : 0 < c.prior) :
    weightedProb (realFun u) c = .fin (Real.exp c.logprob / c.prior) := by
  show (if c.prior = 0 then _ else _) = _
  rw [if_neg h.ne']
  rfl

theorem shares_pos {classes : List (NoiseClass ℝ)} (hne : classes ≠ []) (h : ∀ c ∈ classes, 0 < c.prior) :
    0 < (classes.map fun d => Real.exp d.logprob / d.prior).sum := by
  apply List.sum_pos
  · intro x hx
    obtain ⟨c, hc, rfl⟩ := List.mem_map.mp hx
    exact div_pos (Real.exp_pos _) (h c hc)
  · simpa using hne

/-- **C78.** BlackOut: the log probability is the sum of the logarithms of the share of the target, and of the complement of the share
of each sampled class. -/
theorem C78_blackout (epsilon : ℝ) (he : 0 < epsilon) (target : NoiseClass ℝ) (sample : List (NoiseClass ℝ))
    (h : ∀ c ∈ target :: sample, 0 < c.prior) :
    blackoutLogprob (realFun u) epsilon target sample =
      .fin (Real.log (share (target :: sample) target + epsilon) +
        (sample.map fun c => Real.log (1 - share (target :: sample) c + epsilon)).sum) := by
  unfold blackoutLogprob
  simp only
  have hD := shares_pos (List.cons_ne_nil _ _) h
  have hsum : (weightedProb (realFun u) target).add (Flt.sum (sample.map (weightedProb (realFun u)))) =
      .fin ((target :: sample).map fun d => Real.exp d.logprob / d.prior).sum := by
    have : sample.map (weightedProb (realFun u)) = (sample.map fun d => Real.exp d.logprob / d.prior).map Flt.fin := by
      rw [List.map_map]
      apply List.map_congr_left
      intro c hc
      exact weightedProb_fin (h c (List.mem_cons_of_mem _ hc))
    rw [this, sum_fin, weightedProb_fin (h target (by simp))]
    rfl
  rw [hsum]
  have hdiv : ∀ c ∈ target :: sample, (weightedProb (realFun u) c).div
      (.fin ((target :: sample).map fun d => Real.exp d.logprob / d.prior).sum) = .fin (share (target :: sample) c) := by
    intro c hc
    rw [weightedProb_fin (h c hc)]
    show (if _ = (0 : ℝ) then _ else _) = _
    rw [if_neg hD.ne']
    rfl
  have hnn : ∀ c ∈ target :: sample, 0 ≤ share (target :: sample) c ∧ share (target :: sample) c ≤ 1 := by
    intro c hc
    have hc' := div_pos (Real.exp_pos c.logprob) (h c hc)
    refine ⟨div_nonneg hc'.le hD.le, ?_⟩
    rw [share, div_le_one hD]
    apply List.single_le_sum
    · intro x hx
      obtain ⟨d, hd, rfl⟩ := List.mem_map.mp hx
      exact (div_pos (Real.exp_pos _) (h d hd)).le
    · exact List.mem_map.mpr ⟨c, hc, rfl⟩
  have hs : (List.map (fun c => Flt.log (realFun u) (c.add (.fin epsilon))) (sample.map fun c => (Flt.fin 1).sub
      ((weightedProb (realFun u) c).div (.fin ((target :: sample).map fun d => Real.exp d.logprob / d.prior).sum)))) =
      (sample.map fun c => Real.log (1 - share (target :: sample) c + epsilon)).map Flt.fin := by
    rw [List.map_map, List.map_map]
    apply List.map_congr_left
    intro c hc
    show Flt.log _ (((Flt.fin 1).sub _).add _) = Flt.fin _
    rw [hdiv c (List.mem_cons_of_mem _ hc)]
    have hle := (hnn c (List.mem_cons_of_mem _ hc)).2
    show Flt.log _ (.fin (1 + -share (target :: sample) c + epsilon)) = _
    rw [log_pos (by linarith), ← sub_eq_add_neg]
  rw [hs, sum_fin, hdiv target (by simp)]
  show (Flt.log _ (.fin (share (target :: sample) target + epsilon))).add _ = _
  have hle := (hnn target (by simp)).1
  rw [log_pos (by linarith)]
  rfl

/-- **C78.** The shares are positive and sum to one. -/
theorem C78_shares (classes : List (NoiseClass ℝ)) (hne : classes ≠ []) (h : ∀ c ∈ classes, 0 < c.prior) :
    (∀ c ∈ classes, 0 < share classes c) ∧ (classes.map (share classes)).sum = 1 := by
  have hD := shares_pos hne h
  constructor
  · intro c hc
    exact div_pos (div_pos (Real.exp_pos _) (h c hc)) hD
  · have : classes.map (share classes) =
        (classes.map fun d => Real.exp d.logprob / d.prior).map fun x => x * ((classes.map fun d => Real.exp d.logprob / d.prior).sum)⁻¹ := by
      rw [List.map_map]
      apply List.map_congr_left
      intro c _
      exact div_eq_mul_inv _ _
    rw [this, List.sum_map_mul_right, List.map_id', mul_inv_cancel₀ hD.ne']

/-- **C78.** BlackOut does not need normalized probabilities: a constant can be added to the unnormalized log probabilities of all
classes, for example the one that makes their exponentials sum to one over the vocabulary. -/
theorem C78_blackout_unnormalized (epsilon : ℝ) (he : 0 < epsilon) (target : NoiseClass ℝ) (sample : List (NoiseClass ℝ))
    (h : ∀ c ∈ target :: sample, 0 < c.prior) (k : ℝ) :
    blackoutLogprob (realFun u) epsilon ⟨target.prior, target.logprob + k⟩ (sample.map fun c => ⟨c.prior, c.logprob + k⟩) =
      blackoutLogprob (realFun u) epsilon target sample := by
  let g : NoiseClass ℝ → NoiseClass ℝ := fun c => ⟨c.prior, c.logprob + k⟩
  have hshare : ∀ c, share ((target :: sample).map g) (g c) = share (target :: sample) c := by
    intro c
    unfold share
    have : ((target :: sample).map g).map (fun d => Real.exp d.logprob / d.prior) =
        ((target :: sample).map fun d => Real.exp d.logprob / d.prior).map fun x => x * Real.exp k := by
      rw [List.map_map, List.map_map]
      apply List.map_congr_left
      intro d _
      show Real.exp (d.logprob + k) / d.prior = Real.exp d.logprob / d.prior * Real.exp k
      rw [Real.exp_add]
      ring
    rw [this, List.sum_map_mul_right, List.map_id']
    show Real.exp (c.logprob + k) / c.prior / _ = _
    rw [Real.exp_add]
    have hk := (Real.exp_pos k).ne'
    rw [show Real.exp c.logprob * Real.exp k / c.prior = Real.exp c.logprob / c.prior * Real.exp k by ring,
      mul_div_mul_right _ _ hk]
  have h' : ∀ c ∈ g target :: sample.map g, 0 < c.prior := by
    intro c hc
    rw [← List.map_cons] at hc
    obtain ⟨d, hd, rfl⟩ := List.mem_map.mp hc
    exact h d hd
  show blackoutLogprob _ _ (g target) (sample.map g) = _
  rw [C78_blackout epsilon he _ _ h', C78_blackout epsilon he _ _ h, ← List.map_cons, hshare, List.map_map]
  congr 2
  apply congrArg
  apply List.map_congr_left
  intro c _
  show Real.log (1 - share ((target :: sample).map g) (g c) + epsilon) = _
  rw [hshare]

end

/-! ## Noise samples -/

section
variable {S : Type} [Field S] [LinearOrder S]

theorem matrix_succ {α : Type} (T B : Nat) (f : Nat → Nat → α) :
    matrix (T + 1) B f = (List.range B).map (f 0) :: matrix T B fun t => f (t + 1) := by
  unfold matrix
  rw [List.range_succ_eq_map, List.map_cons, List.map_map]
  rfl

theorem reshape2_matrix {α : Type} (d : α) {T B : Nat} {x : List α} (hx : x.length = T * B) :
    reshape2 B T x = matrix T B fun t s => x.getD (t * B + s) d := by
  induction T generalizing x with
  | zero => rfl
  | succ T ih =>
    rw [Nat.add_mul, Nat.one_mul] at hx
    rw [reshape2, matrix_succ, ih (by rw [List.length_drop]; omega)]
    congr 1
    · apply List.ext_getElem?
      intro i
      rw [List.getElem?_take, List.getElem?_map]
      by_cases hi : i < B
      · rw [if_pos hi, List.getElem?_range hi, List.getElem?_eq_getElem (by omega)]
        simp [List.getD_eq_getElem?_getD, List.getElem?_eq_getElem (show i < x.length by omega)]
      · rw [if_neg hi, List.getElem?_eq_none (by simpa using hi)]
        rfl
    · apply matrix_congr
      intro t _ s _
      rw [List.getD_eq_getElem?_getD, List.getD_eq_getElem?_getD, List.getElem?_drop]
      congr 2
      ring

/-- **C78.** The noise classes are drawn for each position of the mini-batch, once for each time step, or once. -/
theorem C78_noise {sharing : Option Str} (hs : sharing = none ∨ sharing = some "seq".toList ∨ sharing = some "batch".toList)
    (T B k : Nat) {draw : Nat → Nat → List (List Nat)} (hd : ∀ m n, (draw m n).length = m ∧ Rect n (draw m n)) :
    ∃ sample : Nat → Nat → List Nat, noiseSamples sharing T B k draw = .ok (matrix T B sample) ∧
      ∀ t < T, ∀ s < B, NoiseAt sharing T B k draw t s (sample t s) := by
  have hone : ∀ n, ∃ row, draw 1 n = [row] ∧ row.length = n := by
    intro n
    obtain ⟨h1, h2⟩ := hd 1 n
    obtain ⟨row, hr⟩ := List.length_eq_one_iff.mp h1
    exact ⟨row, hr, h2 row (by rw [hr]; simp)⟩
  rcases hs with rfl | rfl | rfl
  · obtain ⟨h1, h2⟩ := hd (T * B) k
    refine ⟨_, congrArg Except.ok (reshape2_matrix [] h1), ?_⟩
    intro t ht s hs
    have hlt : t * B + s < (draw (T * B) k).length := by
      rw [h1]
      calc t * B + s < t * B + B := by omega
        _ = (t + 1) * B := by ring
        _ ≤ T * B := Nat.mul_le_mul_right _ ht
    simp only [List.getD_eq_getElem?_getD, List.getElem?_eq_getElem hlt, Option.getD_some]
    refine ⟨h2 _ (List.getElem_mem hlt), ?_⟩
    intro i _
    simp only [posAt, List.getElem?_eq_getElem hlt, Option.bind_some]
  · obtain ⟨row, hr, hl⟩ := hone (T * k)
    refine ⟨fun t _ => (List.range k).map fun i => row.getD (t * k + i) 0, ?_, ?_⟩
    · unfold noiseSamples
      simp only
      rw [if_pos trivial, hr, List.flatten_cons, List.flatten_nil, List.append_nil, reshape2_matrix 0 hl]
      unfold matrix
      rw [List.map_map]
      congr 1
      apply List.map_congr_left
      intro t _
      apply List.ext_getElem
      · simp
      · intro i h1 h2
        simp
    · intro t ht s _
      refine ⟨by simp, ?_⟩
      intro i hi
      have hlt : t * k + i < row.length := by
        rw [hl]
        calc t * k + i < t * k + k := by omega
          _ = (t + 1) * k := by ring
          _ ≤ T * k := Nat.mul_le_mul_right _ ht
      simp only
      rw [if_pos trivial, hr]
      simp [posAt, hi, List.getD_eq_getElem?_getD, List.getElem?_eq_getElem hlt]
  · obtain ⟨row, hr, hl⟩ := hone k
    refine ⟨fun _ _ => row, ?_, ?_⟩
    · unfold noiseSamples
      simp only
      rw [if_neg (by decide), if_pos trivial, hr]
      simp only [List.getElem?_cons_zero]
      unfold matrix
      congr 1
      apply List.ext_getElem
      · simp
      · intro i h1 h2
        apply List.ext_getElem
        · simp
        · intro j h3 h4
          simp
    · intro t _ s _
      refine ⟨hl, ?_⟩
      intro i hi
      simp only
      rw [if_neg (by decide), hr]
      rfl

/-- **C78.** Other kinds of sharing are rejected. -/
theorem C78_sharing_error {sharing : Str} (h1 : sharing ≠ "seq".toList) (h2 : sharing ≠ "batch".toList) (T B k : Nat)
    (draw : Nat → Nat → List (List Nat)) : noiseSamples (some sharing) T B k draw = .error .valueError := by
  unfold noiseSamples
  simp only
  rw [if_neg h1, if_neg h2]

theorem targetPreact_eq {b : Basic S} {W : List (List S)} {bias : List S} {n : Nat}
    (hW : getParam "input/W".toList none b.weights = .ok W) (hb : getParam "input/b".toList none b.biases = .ok bias)
    (hWn : W.length = n) (hbn : bias.length = n) (x : List S) {c : Nat} (hc : c < n) :
    targetPreact b.weights b.biases "input".toList x c = .ok (unitPreact W bias x c) := by
  unfold targetPreact
  have e1 : "input".toList ++ "/W".toList = "input/W".toList := by decide
  have e2 : "input".toList ++ "/b".toList = "input/b".toList := by decide
  rw [e1, e2, hW, hb]
  simp only [List.getElem?_eq_getElem (show c < W.length by omega), List.getElem?_eq_getElem (show c < bias.length by omega)]
  unfold unitPreact unitDot dot
  simp [List.getD_eq_getElem?_getD, List.getElem?_eq_getElem (show c < W.length by omega),
    List.getElem?_eq_getElem (show c < bias.length by omega)]

/-- **C78.** What the sampling-based costs compute in each position of a mini-batch: they are given the target class and the noise
classes of the position, each with its probability in the noise distribution and the preactivation of the softmax layer, whose
exponential divided by the sum over the classes is the probability of the class (C79). -/
theorem C78_sampling (F : ProbFun S) {noise : NoiseDistribution S} {sharing : Option Str}
    (hs : sharing = none ∨ sharing = some "seq".toList ∨ sharing = some "batch".toList) {T B : Nat} (k : Nat) (hT : 0 < T)
    {draw : Nat → Nat → List (List Nat)} {n : Nat}
    (hd : ∀ m n', (draw m n').length = m ∧ Rect n' (draw m n') ∧ ∀ row ∈ draw m n', ∀ c ∈ row, c < n)
    (f : NoiseClass S → List (NoiseClass S) → Flt S) {b : Basic S} {W : List (List S)} {bias : List S}
    (hdev : b.devices.length ≤ 1) (hW : getParam "input/W".toList none b.weights = .ok W)
    (hb : getParam "input/b".toList none b.biases = .ok bias) (hWn : W.length = n) (hbn : bias.length = n)
    {q : Nat → S} (hq : ∀ c < n, noiseProb F noise c = .ok (q c))
    (x : Nat → Nat → List S) (cls : Nat → Nat → Nat) (hcls : ∀ t < T, ∀ s < B, cls t s < n) :
    ∃ sample : Nat → Nat → List Nat, (∀ t < T, ∀ s < B, NoiseAt sharing T B k draw t s (sample t s)) ∧
      samplingLogprobs F noise sharing k draw f b (matrix T B x) (matrix T B cls) =
        .ok (matrix T B fun t s => f ⟨q (cls t s), unitPreact W bias (x t s) (cls t s)⟩
          ((sample t s).map fun c => ⟨q c, unitPreact W bias (x t s) c⟩)) := by
  obtain ⟨sample, h1, h2⟩ := C78_noise hs T B k (fun m n' => ⟨(hd m n').1, (hd m n').2.1⟩)
  refine ⟨sample, h2, ?_⟩
  have hmem : ∀ t < T, ∀ s < B, ∀ c ∈ sample t s, c < n := by
    intro t ht s hs' c hc
    obtain ⟨i, hi, rfl⟩ := List.getElem_of_mem hc
    obtain ⟨hl, hat⟩ := h2 t ht s hs'
    have := hat i (by omega)
    rw [List.getElem?_eq_getElem hi] at this
    have key : ∀ m n' a j, posAt (draw m n') a j = some (sample t s)[i] → (sample t s)[i] < n := by
      intro m n' a j hp
      obtain ⟨row, hrow, hj⟩ := Option.bind_eq_some_iff.mp hp
      exact (hd m n').2.2 row (List.mem_of_getElem? hrow) _ (List.mem_of_getElem? hj)
    rcases hs with rfl | rfl | rfl
    · exact key _ _ _ _ this.symm
    · simp only [if_true] at this
      exact key _ _ _ _ this.symm
    · simp only at this
      rw [if_neg (by decide)] at this
      exact key _ _ _ _ this.symm
  have hlen : (matrix T B x).length = T := by simp [matrix]
  have hnum : numSequences (matrix T B x) = B := by
    obtain ⟨T, rfl⟩ : ∃ T', T = T' + 1 := ⟨T - 1, by omega⟩
    rw [matrix_succ]
    simp [numSequences]
  have hclass : ∀ (y : List S) (c : Nat), c < n → noiseClass F noise b y c = .ok ⟨q c, unitPreact W bias y c⟩ := by
    intro y c hc
    unfold noiseClass
    rw [hq c hc, targetPreact_eq hW hb hWn hbn y hc]
  unfold samplingLogprobs
  rw [if_neg (by omega), hlen, hnum, h1]
  simp only
  have hz : List.zipWith List.zip (matrix T B x) (List.zipWith List.zip (matrix T B cls) (matrix T B sample)) =
      matrix T B fun t s => (x t s, cls t s, sample t s) := by
    have e : ∀ {α β : Type}, (List.zip : List α → List β → List (α × β)) = List.zipWith Prod.mk := by
      intro α β
      funext a b
      exact List.zip_eq_zipWith
    rw [e, e, zipWith_matrix, zipWith_matrix]
  rw [hz]
  unfold matrix
  rw [mapE_map_of]
  apply mapE_eq
  intro t ht
  rw [mapE_map_of]
  apply mapE_eq
  intro s hs'
  rw [List.mem_range] at ht hs'
  unfold samplingCell
  simp only
  rw [hclass _ _ (hcls t ht s hs'), mapE_eq fun c hc => hclass _ c (hmem t ht s hs' c hc)]

/-- **C78.** With more than one device the sampling-based costs cannot be used. -/
theorem C78_sampling_devices (F : ProbFun S) (noise : NoiseDistribution S) (sharing : Option Str) (k : Nat)
    (draw : Nat → Nat → List (List Nat)) (f : NoiseClass S → List (NoiseClass S) → Flt S) {b : Basic S}
    (hdev : b.devices.length > 1) (input : List (List (List S))) (targets : List (List Nat)) :
    samplingLogprobs F noise sharing k draw f b input targets = .error .typeError := if_pos hdev

end

/-! ## The noise distribution -/

/-- **C78.** The dampened unigram distribution is a distribution, in which the probabilities of classes are proportional to the power of
their relative frequencies. -/
theorem C78_unigram {dampening : ℝ} (hd : dampening ≠ 0) {priors : List ℝ} (h0 : ∀ p ∈ priors, 0 ≤ p) (h1 : ∃ p ∈ priors, 0 < p) :
    ∃ probs : List ℝ, noiseDistribution (fun p d => p ^ d) "unigram".toList dampening priors = .ok (.multinomial probs) ∧
      probs.length = priors.length ∧ (∀ p ∈ probs, 0 ≤ p) ∧ probs.sum = 1 ∧
      ∃ Z > 0, ∀ (c : Nat) (p : ℝ), priors[c]? = some p → probs[c]? = some (p ^ dampening / Z) := by
  unfold noiseDistribution
  rw [if_neg (by
    rintro (h | ⟨-, h⟩)
    · exact absurd h (by decide)
    · exact hd h), if_neg (by decide), if_pos rfl]
  have hnn : ∀ x ∈ priors.map fun p => p ^ dampening, 0 ≤ x := by
    intro x hx
    obtain ⟨p, hp, rfl⟩ := List.mem_map.mp hx
    exact Real.rpow_nonneg (h0 p hp) _
  have hZ : 0 < (priors.map fun p => p ^ dampening).sum := by
    obtain ⟨p, hp, hp0⟩ := h1
    exact lt_of_lt_of_le (Real.rpow_pos_of_pos hp0 dampening)
      (List.single_le_sum hnn _ (List.mem_map.mpr ⟨p, hp, rfl⟩))
  refine ⟨_, rfl, by simp, ?_, ?_, _, hZ, ?_⟩
  · intro x hx
    obtain ⟨y, hy, rfl⟩ := List.mem_map.mp hx
    exact div_nonneg (hnn y hy) hZ.le
  · generalize priors.map (fun p => p ^ dampening) = l at hZ
    have : (l.map fun p => p / l.sum) = l.map fun p => p * l.sum⁻¹ := List.map_congr_left fun p _ => div_eq_mul_inv _ _
    rw [this, List.sum_map_mul_right, List.map_id', mul_inv_cancel₀ hZ.ne']
  · intro c p hc
    simp [hc]

/-- **C78.** The other noise distributions; without dampening the exponent is one, and with exponent zero the distribution is uniform. -/
theorem C78_noise_distribution {S : Type} [Field S] [LinearOrder S] (pow : S → S → S) (kind : Str) (dampening : S) (priors : List S) :
    (kind = "uniform".toList → noiseDistribution pow kind dampening priors = .ok (.uniform priors.length)) ∧
    (kind = "unigram".toList → dampening = 0 → noiseDistribution pow kind dampening priors = .ok (.uniform priors.length)) ∧
    (kind = "log-uniform".toList → noiseDistribution pow kind dampening priors = .ok (.logUniform priors.length)) ∧
    (kind ≠ "uniform".toList → kind ≠ "unigram".toList → kind ≠ "log-uniform".toList →
      noiseDistribution pow kind dampening priors = .error .valueError) := by
  unfold noiseDistribution
  refine ⟨fun h => if_pos (.inl h), fun h h' => if_pos (.inr ⟨h, h'⟩), ?_, ?_⟩
  · rintro rfl
    rw [if_neg, if_pos rfl]
    rintro (h | ⟨h, -⟩) <;> exact absurd h (by decide)
  · intro h1 h2 h3
    rw [if_neg, if_neg h3, if_neg h2]
    rintro (h | ⟨h, -⟩)
    · exact h1 h
    · exact h2 h

/-! ## Examples -/

/-- Two time steps of two sequences; the second sequence has one word, and the word 7 is excluded: two of the four positions are
counted. -/
def exampleCostMask : Nat → Nat → Bool := fun t s => s == 0 || t == 0
def exampleCostWord : Nat → Nat → Nat := fun t s => if t = 1 ∧ s = 0 then 7 else 3

example : costTensor (S := ℚ) (some 7) (some (1 / 2)) (some 2) [[1, -3], [2]] (matrix 2 2 exampleCostMask) (matrix 2 2 exampleCostWord)
    (matrix 2 2 fun t s => .fin (-(1 + t + 10 * s))) = (.fin (6 + (1 / 2 * 6 + 2 * 14)), 2) := by decide +kernel

example : (countedPositions (some 7) exampleCostMask exampleCostWord 2 2).Nonempty := ⟨(0, 0), by decide⟩

/-- The word that is not counted has zero probability. -/
example : ∃ t < 2, ∃ s < 2, ¬ Counted (some 7) exampleCostMask exampleCostWord t s ∧
    (fun t s => if t = 1 ∧ s = 0 then (0 : ℝ) else 1 / 2) t s = 0 := ⟨1, by omega, 0, by omega, by decide, by simp⟩

/-- Two classes in the noise distribution. -/
example : ∀ c ∈ [(⟨1 / 4, 1⟩ : NoiseClass ℝ), ⟨3 / 4, 2⟩, ⟨1 / 4, 1⟩], 0 < c.prior := by
  intro c hc
  simp only [List.mem_cons, List.not_mem_nil, or_false] at hc
  rcases hc with rfl | rfl | rfl <;> norm_num

/-- A softmax layer of three classes and two inputs. -/
def exampleSoftmax : Basic ℚ :=
  { inputs := [0], devices := [none], size := 3, activation := .tanh,
    weights := [("input/W".toList, [[1, 2], [3, 4], [5, 6]])], biases := [("input/b".toList, [7, 8, 9])] }

/-- Sampling the classes 0, 1, 2 in turn. -/
def exampleDraw (m n : Nat) : List (List Nat) := matrix m n fun i j => (i * n + j) % 3

example : (∀ m n', (exampleDraw m n').length = m ∧ Rect n' (exampleDraw m n') ∧ ∀ row ∈ exampleDraw m n', ∀ c ∈ row, c < 3) ∧
    exampleSoftmax.devices.length ≤ 1 ∧
    getParam "input/W".toList none exampleSoftmax.weights = .ok [[1, 2], [3, 4], [5, 6]] ∧
    getParam "input/b".toList none exampleSoftmax.biases = .ok [7, 8, 9] ∧
    (∀ c < 3, noiseProb (⟨id, id, fun _ => false⟩ : ProbFun ℚ) (.multinomial [1 / 2, 1 / 4, 1 / 4]) c = .ok (([1 / 2, 1 / 4, 1 / 4] : List ℚ).getD c 0)) := by
  refine ⟨fun m n' => ⟨by simp [exampleDraw, matrix], ?_, ?_⟩, by decide, by decide +kernel, by decide +kernel, by decide +kernel⟩
  · intro row hr
    obtain ⟨i, -, rfl⟩ := List.mem_map.mp hr
    simp
  · intro row hr c hc
    obtain ⟨i, -, rfl⟩ := List.mem_map.mp hr
    obtain ⟨j, -, rfl⟩ := List.mem_map.mp hc
    exact Nat.mod_lt _ (by omega)

/-- The noise classes of both positions, when they are drawn for each position. -/
example : noiseSamples none 1 2 2 exampleDraw = .ok [[[0, 1], [2, 0]]] ∧
    noiseSamples (some "seq".toList) 2 2 2 exampleDraw = .ok [[[0, 1], [0, 1]], [[2, 0], [2, 0]]] ∧
    noiseSamples (some "batch".toList) 2 2 2 exampleDraw = .ok [[[0, 1], [0, 1]], [[0, 1], [0, 1]]] := by decide +kernel

/-- Relative frequencies of two classes. -/
example : (∀ p ∈ [(1 / 4 : ℝ), 3 / 4], 0 ≤ p) ∧ ∃ p ∈ [(1 / 4 : ℝ), 3 / 4], 0 < p := by
  constructor
  · intro p hp
    simp only [List.mem_cons, List.not_mem_nil, or_false] at hp
    rcases hp with rfl | rfl <;> norm_num
  · exact ⟨1 / 4, by simp, by norm_num⟩

end TheanoLM
