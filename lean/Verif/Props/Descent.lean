import Verif.Props.Optimizer
import Mathlib.Analysis.Calculus.FDeriv.Comp
import Mathlib.Analysis.Calculus.Deriv.Slope
import Mathlib.Analysis.Calculus.Deriv.Comp
import Mathlib.Analysis.Calculus.Deriv.Mul
import Mathlib.Analysis.Calculus.Deriv.Add
import Mathlib.Analysis.Normed.Module.FiniteDimension
/-!
# The updates of the optimizers decrease the cost: C114
-/
set_option linter.unusedSectionVars false

namespace TheanoLM

/-! ## Specification -/

/-- The methods whose updates do not depend on the directions of the earlier updates. -/
def OptMethod.Direct : OptMethod → Prop
  | .sgd | .adagrad | .adadelta | .rmspropSgd => True
  | _ => False

section
variable {S : Type} [Field S] [LinearOrder S]

/-- Options in their documented ranges. -/
structure OptOptions.InRange (o : OptOptions S) : Prop where
  epsilon : 0 < o.epsilon
  gamma : 0 ≤ o.gamma ∧ o.gamma < 1
  gammaSqr : 0 ≤ o.gammaSqr ∧ o.gammaSqr < 1
  momentum : 0 ≤ o.momentum
  maxNorm : ∀ m, o.maxNorm = some m → 0 < m

/-- The parameters after one more update with the learning rate `alpha`, when the gradient of the cost is `g`. -/
def updated (method : OptMethod) (sqrt : S → S) (o : OptOptions S) (paths : List Str) (g : Str → List S) (alpha : S) (st : OptState S) :
    Str → List S :=
  fun p => (applyUpdates st (getParamUpdates method sqrt o paths g alpha st)).vars (.net p)

end

/-- An element of the parameters. -/
abbrev ParamIndex (paths : List Str) (len : Str → Nat) := (p : { p // p ∈ paths }) × Fin (len p.1)

/-- The parameters as a vector. -/
def paramVector (paths : List Str) (len : Str → Nat) (theta : Str → List ℝ) : ParamIndex paths len → ℝ := fun j => (theta j.1.1).getD j.2 0

/-- The parameters whose vector is `x`. -/
noncomputable def paramLists (paths : List Str) (len : Str → Nat) (x : ParamIndex paths len → ℝ) : Str → List ℝ :=
  fun p => if h : p ∈ paths then List.ofFn fun i => x ⟨⟨p, h⟩, i⟩ else []

/-- `g` is the gradient of the cost as a function of the parameters. -/
def IsGradient (paths : List Str) (len : Str → Nat) (cost : (Str → List ℝ) → ℝ) (theta g : Str → List ℝ) : Prop :=
  HasFDerivAt (fun x => cost (paramLists paths len x))
    (∑ j : ParamIndex paths len, (g j.1.1).getD j.2 0 • (ContinuousLinearMap.proj j : (ParamIndex paths len → ℝ) →L[ℝ] ℝ))
    (paramVector paths len theta)

/-! ## Lemmas -/

section
variable {S : Type} [Field S] [LinearOrder S]

theorem optRun_before (method : OptMethod) (sqrt : S → S) (o : OptOptions S) (paths : List Str)
    (grad : Nat → (Str → List S) → Str → List S) (lr : Nat → S) (st : OptState S) (n : Nat) (alpha : S) (k : Nat) (hk : k ≤ n) :
    optRun method sqrt o paths grad (Function.update lr n alpha) st k = optRun method sqrt o paths grad lr st k := by
  induction k with
  | zero => rfl
  | succ k ih =>
    rw [optRun, optRun, ih (by omega), Function.update_of_ne (by omega)]

theorem optRun_after (method : OptMethod) (sqrt : S → S) (o : OptOptions S) (paths : List Str)
    (grad : Nat → (Str → List S) → Str → List S) (lr : Nat → S) (st : OptState S) (n : Nat) (alpha : S) (p : Str) :
    (optRun method sqrt o paths grad (Function.update lr n alpha) st (n + 1)).vars (.net p) =
      updated method sqrt o paths (grad n fun p => (optRun method sqrt o paths grad lr st n).vars (.net p)) alpha
        (optRun method sqrt o paths grad lr st n) p := by
  rw [optRun, optRun_before _ _ _ _ _ _ _ _ _ _ le_rfl, Function.update_self]
  rfl

variable [IsStrictOrderedRing S]

theorem isSqrt_pos {sqrt : S → S} (hq : IsSqrt sqrt) {x : S} (hx : 0 < x) : 0 < sqrt x := by
  obtain ⟨h1, h2⟩ := hq x hx.le
  rcases h1.lt_or_eq with h | h
  · exact h
  · rw [← h, zero_pow two_ne_zero] at h2
    exact absurd h2 hx.ne

theorem decayingMean_nonneg {gamma x0 : S} (h0 : 0 ≤ gamma) (h1 : gamma < 1) (hx : 0 ≤ x0) {x : Nat → S} (h : ∀ k, 0 ≤ x k) (n : Nat) :
    0 ≤ decayingMean gamma x0 x n := by
  induction n with
  | zero => rw [decayingMean_zero]; exact hx
  | succ n ih =>
    rw [decayingMean_succ]
    exact add_nonneg (mul_nonneg h0 ih) (mul_nonneg (sub_nonneg.mpr h1.le) (h n))

theorem decayingMean_congr {gamma x0 : S} {x y : Nat → S} {n : Nat} (h : ∀ k < n, x k = y k) :
    decayingMean gamma x0 x n = decayingMean gamma x0 y n := by
  unfold decayingMean
  rw [Finset.sum_congr rfl fun k hk => by rw [h k (Finset.mem_range.mp hk)]]

theorem limited_congr {sqrt : S → S} {epsilon : S} {maxNorm : Option S} {paths : List Str} {len : Str → Nat} {raw raw' D : Str → Nat → S}
    (h : ∀ p ∈ paths, ∀ i < len p, raw' p i = raw p i) (hD : Limited sqrt epsilon maxNorm paths len raw' D) :
    Limited sqrt epsilon maxNorm paths len raw D := by
  have hn : totalNorm sqrt paths len raw' = totalNorm sqrt paths len raw := by
    unfold totalNorm
    congr 2
    apply List.map_congr_left
    intro p hp
    exact Finset.sum_congr rfl fun i hi => by rw [h p hp i (Finset.mem_range.mp hi)]
  intro p hp i hi
  rw [hD p hp i hi, h p hp i hi, hn]

/-- Limiting the norm of a tensor that points against the gradient. -/
theorem limited_descent {sqrt : S → S} (hq : IsSqrt sqrt) {o : OptOptions S} (ho : o.InRange) {paths : List Str} {len : Str → Nat}
    (raw g : Str → Nat → S) (k : Str → Nat → S) (hk : ∀ p ∈ paths, ∀ i < len p, 0 < k p i ∧ raw p i = -(k p i * g p i)) :
    ∃ c : Str → Nat → S, (∀ p ∈ paths, ∀ i < len p, 0 < c p i) ∧
      ∀ raw' D, (∀ p ∈ paths, ∀ i < len p, raw' p i = raw p i) → Limited sqrt o.epsilon o.maxNorm paths len raw' D →
        ∀ p ∈ paths, ∀ i < len p, D p i = -(c p i * g p i) := by
  suffices hs : ∃ c : Str → Nat → S, (∀ p ∈ paths, ∀ i < len p, 0 < c p i) ∧
      ∀ D, Limited sqrt o.epsilon o.maxNorm paths len raw D → ∀ p ∈ paths, ∀ i < len p, D p i = -(c p i * g p i) by
    obtain ⟨c, h1, h2⟩ := hs
    exact ⟨c, h1, fun raw' D he hD => h2 D (limited_congr he hD)⟩
  cases hm : o.maxNorm with
  | none => exact ⟨k, fun p hp i hi => (hk p hp i hi).1, fun D hD p hp i hi => by rw [hD p hp i hi]; exact (hk p hp i hi).2⟩
  | some m =>
    have hm0 := ho.maxNorm m hm
    set N := totalNorm sqrt paths len raw with hN
    have hsum : 0 ≤ (paths.map fun p => ∑ i ∈ Finset.range (len p), raw p i ^ 2).sum :=
      List.sum_nonneg fun x hx => by
        obtain ⟨p, _, rfl⟩ := List.mem_map.mp hx
        exact Finset.sum_nonneg fun i _ => sq_nonneg _
    obtain ⟨n1, n2⟩ := hq _ hsum
    change 0 ≤ N at n1
    change N ^ 2 = _ at n2
    rcases n1.lt_or_eq with hpos | h0
    · refine ⟨fun p i => min (max N 0) m / (o.epsilon + N) * k p i, fun p hp i hi => ?_, fun D hD p hp i hi => ?_⟩
      · exact mul_pos (div_pos (lt_min (lt_max_of_lt_left hpos) hm0) (add_pos ho.epsilon hpos)) (hk p hp i hi).1
      · rw [hD p hp i hi]
        simp only [← hN]
        rw [(hk p hp i hi).2]
        ring
    · refine ⟨k, fun p hp i hi => (hk p hp i hi).1, fun D hD p hp i hi => ?_⟩
      rw [← h0, zero_pow two_ne_zero] at n2
      have hz : raw p i = 0 := by
        have h1 : ∑ i ∈ Finset.range (len p), raw p i ^ 2 = 0 := by
          refine le_antisymm ?_ (Finset.sum_nonneg fun i _ => sq_nonneg _)
          rw [n2]
          refine List.single_le_sum (fun x hx => ?_) _ (List.mem_map.mpr ⟨p, hp, rfl⟩)
          obtain ⟨p, _, rfl⟩ := List.mem_map.mp hx
          exact Finset.sum_nonneg fun i _ => sq_nonneg _
        have h2 := (Finset.sum_eq_zero_iff_of_nonneg fun i _ => sq_nonneg (raw p i)).mp h1 i (Finset.mem_range.mpr hi)
        exact pow_eq_zero_iff two_ne_zero |>.mp h2
      rw [hD p hp i hi, ← (hk p hp i hi).2, hz]
      simp

/-- The shapes of the parameters do not change. -/
theorem run_length (sqrt : S → S) (o : OptOptions S) (paths : List Str) (grad : Nat → (Str → List S) → Str → List S)
    (hs : GradShape paths grad) (lr : Nat → S) (net : Str → List S) (method : OptMethod) (n : Nat) {p : Str} (hp : p ∈ paths) :
    ((optRun method sqrt o paths grad lr (initialOptState method paths net) n).vars (.net p)).length = (net p).length := by
  cases method with
  | sgd => obtain ⟨_, _, h⟩ := C48_sgd sqrt o paths grad lr net hs; exact (h p hp).1 n
  | nesterov => obtain ⟨_, _, h⟩ := C48_nesterov sqrt o paths grad lr net hs; exact (h p hp).1 n
  | adagrad => obtain ⟨_, _, h⟩ := C48_adagrad sqrt o paths grad lr net hs; exact (h p hp).1 n
  | adadelta => obtain ⟨_, _, h⟩ := C48_adadelta sqrt o paths grad lr net hs; exact (h p hp).1 n
  | adam => obtain ⟨_, _, _, h⟩ := C48_adam sqrt o paths grad lr net hs; exact (h p hp).1 n
  | rmspropSgd => obtain ⟨_, _, h⟩ := C48_rmsprop_sgd sqrt o paths grad lr net hs; exact (h p hp).1 n
  | rmspropNesterov => obtain ⟨_, _, h⟩ := C48_rmsprop_nesterov_partial sqrt o paths grad lr net hs; exact (h p hp).1 n

/-! ## C114 -/

/-- C114, direction: every update of the methods without momentum, and the first update of every method, moves every element of the
parameters against its partial derivative, in proportion to the learning rate; the elements whose partial derivative is zero are not
changed. -/
theorem C114_direction {sqrt : S → S} (hq : IsSqrt sqrt) {o : OptOptions S} (ho : o.InRange) (paths : List Str)
    (grad : Nat → (Str → List S) → Str → List S) (hs : GradShape paths grad) (lr : Nat → S) (net : Str → List S) (method : OptMethod)
    (n : Nat) (h : method.Direct ∨ n = 0) :
    let run := optRun method sqrt o paths grad lr (initialOptState method paths net)
    ∃ c : Str → Nat → S, (∀ p ∈ paths, ∀ i < (net p).length, 0 < c p i) ∧ ∀ alpha, ∀ p ∈ paths,
      let new := updated method sqrt o paths (grad n fun p => (run n).vars (.net p)) alpha (run n) p
      new.length = (net p).length ∧
      ∀ i < (net p).length, new.getD i 0 = paramAt run n p i - alpha * c p i * gradAt grad run n p i := by
  intro run
  have hb := fun alpha k hk => optRun_before method sqrt o paths grad lr (initialOptState method paths net) n alpha k hk
  have ha := fun alpha p => optRun_after method sqrt o paths grad lr (initialOptState method paths net) n alpha p
  have hg : ∀ alpha k, k ≤ n → gradAt grad (optRun method sqrt o paths grad (Function.update lr n alpha)
      (initialOptState method paths net)) k = gradAt grad run k := by
    intro alpha k hk
    funext p i
    unfold gradAt
    rw [hb alpha k hk]
  have hp : ∀ alpha k, k ≤ n → paramAt (optRun method sqrt o paths grad (Function.update lr n alpha)
      (initialOptState method paths net)) k = paramAt run k := by
    intro alpha k hk
    funext p i
    unfold paramAt
    rw [hb alpha k hk]
  have hx : ∀ sfx alpha k, k ≤ n → auxAt sfx (optRun method sqrt o paths grad (Function.update lr n alpha)
      (initialOptState method paths net)) k = auxAt sfx run k := by
    intro sfx alpha k hk
    funext p i
    unfold auxAt
    rw [hb alpha k hk]
  have hnew : ∀ alpha p i, (updated method sqrt o paths (grad n fun p => (run n).vars (.net p)) alpha (run n) p).getD i 0 =
      paramAt (optRun method sqrt o paths grad (Function.update lr n alpha) (initialOptState method paths net)) (n + 1) p i := by
    intro alpha p i
    rw [← ha alpha p]
    rfl
  cases method with
  | sgd =>
    obtain ⟨c, hc, key⟩ := limited_descent hq ho (len := fun p => (net p).length) (fun p i => -gradAt grad run n p i) (gradAt grad run n)
      (fun _ _ => 1) (fun p _ i _ => ⟨zero_lt_one, by rw [one_mul]⟩)
    refine ⟨c, hc, fun alpha p hpp => ?_⟩
    obtain ⟨D, hD, hst⟩ := C48_sgd sqrt o paths grad (Function.update lr n alpha) net hs
    refine ⟨by rw [← ha alpha p]; exact (hst p hpp).1 (n + 1), fun i hi => ?_⟩
    rw [hnew, ((hst p hpp).2 i hi).2 n, Function.update_self, hp alpha n le_rfl,
      key _ _ (fun p _ i _ => by rw [hg alpha n le_rfl]) (hD n) p hpp i hi]
    ring
  | adagrad =>
    have hpos : ∀ p i, 0 < sqrt ((∑ k ∈ Finset.range (n + 1), gradAt grad run k p i ^ 2) + o.epsilon) := fun p i =>
      isSqrt_pos hq (add_pos_of_nonneg_of_pos (Finset.sum_nonneg fun k _ => sq_nonneg _) ho.epsilon)
    obtain ⟨c, hc, key⟩ := limited_descent hq ho (len := fun p => (net p).length)
      (fun p i => -gradAt grad run n p i / sqrt ((∑ k ∈ Finset.range (n + 1), gradAt grad run k p i ^ 2) + o.epsilon)) (gradAt grad run n)
      (fun p i => (sqrt ((∑ k ∈ Finset.range (n + 1), gradAt grad run k p i ^ 2) + o.epsilon))⁻¹)
      (fun p _ i _ => ⟨inv_pos.mpr (hpos p i), by rw [div_eq_mul_inv]; ring⟩)
    refine ⟨c, hc, fun alpha p hpp => ?_⟩
    obtain ⟨D, hD, hst⟩ := C48_adagrad sqrt o paths grad (Function.update lr n alpha) net hs
    refine ⟨by rw [← ha alpha p]; exact (hst p hpp).1 (n + 1), fun i hi => ?_⟩
    rw [hnew, (((hst p hpp).2 i hi).2 n).2, Function.update_self, hp alpha n le_rfl,
      key _ _ (fun p _ i _ => by
        rw [hg alpha n le_rfl, Finset.sum_congr rfl fun k hk => by rw [hg alpha k (by have := Finset.mem_range.mp hk; omega)]])
        (hD n) p hpp i hi]
    ring
  | rmspropSgd =>
    have hpos : ∀ p i, 0 < sqrt (decayingMean o.gamma 1 (fun k => gradAt grad run k p i ^ 2) (n + 1) + o.epsilon) := fun p i =>
      isSqrt_pos hq (add_pos_of_nonneg_of_pos (decayingMean_nonneg ho.gamma.1 ho.gamma.2 zero_le_one (fun k => sq_nonneg _) _) ho.epsilon)
    obtain ⟨c, hc, key⟩ := limited_descent hq ho (len := fun p => (net p).length)
      (fun p i => -gradAt grad run n p i / sqrt (decayingMean o.gamma 1 (fun k => gradAt grad run k p i ^ 2) (n + 1) + o.epsilon))
      (gradAt grad run n) (fun p i => (sqrt (decayingMean o.gamma 1 (fun k => gradAt grad run k p i ^ 2) (n + 1) + o.epsilon))⁻¹)
      (fun p _ i _ => ⟨inv_pos.mpr (hpos p i), by rw [div_eq_mul_inv]; ring⟩)
    refine ⟨c, hc, fun alpha p hpp => ?_⟩
    obtain ⟨D, hD, hst⟩ := C48_rmsprop_sgd sqrt o paths grad (Function.update lr n alpha) net hs
    refine ⟨by rw [← ha alpha p]; exact (hst p hpp).1 (n + 1), fun i hi => ?_⟩
    rw [hnew, (((hst p hpp).2 i hi).2 n).2, Function.update_self, hp alpha n le_rfl,
      key _ _ (fun p _ i _ => by
        rw [hg alpha n le_rfl, decayingMean_congr fun k hk => by rw [hg alpha k (by omega)]]) (hD n) p hpp i hi]
    ring
  | adadelta =>
    obtain ⟨D0, _, hst0⟩ := C48_adadelta sqrt o paths grad lr net hs
    have hpos : ∀ p i, 0 < sqrt (decayingMean o.gamma 0 (fun k => gradAt grad run k p i ^ 2) (n + 1) + o.epsilon) := fun p i =>
      isSqrt_pos hq (add_pos_of_nonneg_of_pos (decayingMean_nonneg ho.gamma.1 ho.gamma.2 le_rfl (fun k => sq_nonneg _) _) ho.epsilon)
    have hpos' : ∀ p ∈ paths, ∀ i < (net p).length, 0 < sqrt (auxAt "_mean_sqr_delta".toList run n p i + o.epsilon) := by
      intro p hpp i hi
      rw [(((hst0 p hpp).2 i hi).2 n).2.1]
      exact isSqrt_pos hq (add_pos_of_nonneg_of_pos (decayingMean_nonneg ho.gamma.1 ho.gamma.2 le_rfl (fun k => sq_nonneg _) _) ho.epsilon)
    obtain ⟨c, hc, key⟩ := limited_descent hq ho (len := fun p => (net p).length)
      (fun p i => -gradAt grad run n p i * sqrt (auxAt "_mean_sqr_delta".toList run n p i + o.epsilon) /
        sqrt (decayingMean o.gamma 0 (fun k => gradAt grad run k p i ^ 2) (n + 1) + o.epsilon))
      (gradAt grad run n) (fun p i => sqrt (auxAt "_mean_sqr_delta".toList run n p i + o.epsilon) *
        (sqrt (decayingMean o.gamma 0 (fun k => gradAt grad run k p i ^ 2) (n + 1) + o.epsilon))⁻¹)
      (fun p hpp i hi => ⟨mul_pos (hpos' p hpp i hi) (inv_pos.mpr (hpos p i)), by rw [div_eq_mul_inv]; ring⟩)
    refine ⟨c, hc, fun alpha p hpp => ?_⟩
    obtain ⟨D, hD, hst⟩ := C48_adadelta sqrt o paths grad (Function.update lr n alpha) net hs
    refine ⟨by rw [← ha alpha p]; exact (hst p hpp).1 (n + 1), fun i hi => ?_⟩
    rw [hnew, (((hst p hpp).2 i hi).2 n).2.2, Function.update_self, hp alpha n le_rfl,
      key _ _ (fun p hpp i hi => by
        rw [hg alpha n le_rfl, decayingMean_congr (x := fun k => gradAt grad _ k p i ^ 2) fun k hk => by rw [hg alpha k (by omega)],
          ← (((hst p hpp).2 i hi).2 n).2.1, hx _ alpha n le_rfl]) (hD n) p hpp i hi]
    ring
  | adam =>
    have h0 : n = 0 := h.resolve_left id
    subst h0
    have e1 : ∀ gamma : S, ∀ x : Nat → S, decayingMean gamma 0 x (0 + 1) = (1 - gamma) * x 0 := by
      intro gamma x
      rw [decayingMean_succ, decayingMean_zero, mul_zero, zero_add]
    have hpos : ∀ p i, 0 < sqrt ((1 - o.gammaSqr) * gradAt grad run 0 p i ^ 2) + o.epsilon := fun p i =>
      add_pos_of_nonneg_of_pos (hq _ (mul_nonneg (sub_nonneg.mpr ho.gammaSqr.2.le) (sq_nonneg _))).1 ho.epsilon
    obtain ⟨c, hc, key⟩ := limited_descent hq ho (len := fun p => (net p).length)
      (fun p i => -((1 - o.gamma) * gradAt grad run 0 p i) / (sqrt ((1 - o.gammaSqr) * gradAt grad run 0 p i ^ 2) + o.epsilon))
      (gradAt grad run 0) (fun p i => (1 - o.gamma) * (sqrt ((1 - o.gammaSqr) * gradAt grad run 0 p i ^ 2) + o.epsilon)⁻¹)
      (fun p _ i _ => ⟨mul_pos (sub_pos.mpr ho.gamma.2) (inv_pos.mpr (hpos p i)), by rw [div_eq_mul_inv]; ring⟩)
    have hscale : 0 < sqrt (1 - o.gammaSqr ^ (0 + 1)) / (1 - o.gamma ^ (0 + 1)) := by
      rw [zero_add, pow_one, pow_one]
      exact div_pos (isSqrt_pos hq (sub_pos.mpr ho.gammaSqr.2)) (sub_pos.mpr ho.gamma.2)
    refine ⟨fun p i => sqrt (1 - o.gammaSqr ^ (0 + 1)) / (1 - o.gamma ^ (0 + 1)) * c p i,
      fun p hpp i hi => mul_pos hscale (hc p hpp i hi), fun alpha p hpp => ?_⟩
    obtain ⟨D, hD, _, hst⟩ := C48_adam sqrt o paths grad (Function.update lr 0 alpha) net hs
    refine ⟨by rw [← ha alpha p]; exact (hst p hpp).1 (0 + 1), fun i hi => ?_⟩
    rw [hnew, (((hst p hpp).2 i hi).2 0).2.2, Function.update_self, hp alpha 0 le_rfl,
      key _ _ (fun p hpp i hi => by rw [e1, e1, hg alpha 0 le_rfl]) (hD 0) p hpp i hi]
    ring
  | nesterov =>
    have h0 : n = 0 := h.resolve_left id
    subst h0
    obtain ⟨c, hc, key⟩ := limited_descent hq ho (len := fun p => (net p).length) (fun p i => -gradAt grad run 0 p i) (gradAt grad run 0)
      (fun _ _ => 1) (fun p _ i _ => ⟨zero_lt_one, by rw [one_mul]⟩)
    refine ⟨fun p i => (1 + o.momentum) * c p i, fun p hpp i hi => mul_pos (add_pos_of_pos_of_nonneg zero_lt_one ho.momentum) (hc p hpp i hi),
      fun alpha p hpp => ?_⟩
    obtain ⟨D, hD, hst⟩ := C48_nesterov sqrt o paths grad (Function.update lr 0 alpha) net hs
    refine ⟨by rw [← ha alpha p]; exact (hst p hpp).1 (0 + 1), fun i hi => ?_⟩
    obtain ⟨_, s2, s3⟩ := (hst p hpp).2 i hi
    rw [hnew, (s3 0).2, (s3 0).1, s2, Function.update_self, hp alpha 0 le_rfl,
      key _ _ (fun p _ i _ => by rw [hg alpha 0 le_rfl]) (hD 0) p hpp i hi]
    ring
  | rmspropNesterov =>
    have h0 : n = 0 := h.resolve_left id
    subst h0
    have hpos : ∀ p i, 0 < sqrt (o.gamma + (1 - o.gamma) * gradAt grad run 0 p i ^ 2 + o.epsilon) := fun p i =>
      isSqrt_pos hq (add_pos_of_nonneg_of_pos
        (add_nonneg ho.gamma.1 (mul_nonneg (sub_nonneg.mpr ho.gamma.2.le) (sq_nonneg _))) ho.epsilon)
    obtain ⟨c, hc, key⟩ := limited_descent hq ho (len := fun p => (net p).length)
      (fun p i => -gradAt grad run 0 p i / sqrt (o.gamma + (1 - o.gamma) * gradAt grad run 0 p i ^ 2 + o.epsilon)) (gradAt grad run 0)
      (fun p i => (sqrt (o.gamma + (1 - o.gamma) * gradAt grad run 0 p i ^ 2 + o.epsilon))⁻¹)
      (fun p _ i _ => ⟨inv_pos.mpr (hpos p i), by rw [div_eq_mul_inv]; ring⟩)
    refine ⟨fun p i => (1 + o.momentum) * c p i, fun p hpp i hi => mul_pos (add_pos_of_pos_of_nonneg zero_lt_one ho.momentum) (hc p hpp i hi),
      fun alpha p hpp => ?_⟩
    obtain ⟨D, hD, hst⟩ := C48_rmsprop_nesterov_partial sqrt o paths grad (Function.update lr 0 alpha) net hs
    refine ⟨by rw [← ha alpha p]; exact (hst p hpp).1 (0 + 1), fun i hi => ?_⟩
    obtain ⟨_, s2, s3⟩ := (hst p hpp).2 i hi
    rw [hnew, (s3 0).2.2, (s3 0).2.1, s2, Function.update_self, hp alpha 0 le_rfl,
      key _ _ (fun p _ i _ => by rw [hg alpha 0 le_rfl]) (hD 0) p hpp i hi]
    ring

end

/-- C114, decrease: if the gradient of the cost of the mini-batch is not zero, a sufficiently small learning rate decreases the cost, in every
update of the methods without momentum, and in the first update of every method. -/
theorem C114_decrease {sqrt : ℝ → ℝ} (hq : IsSqrt sqrt) {o : OptOptions ℝ} (ho : o.InRange) (paths : List Str)
    (grad : Nat → (Str → List ℝ) → Str → List ℝ) (hs : GradShape paths grad) (lr : Nat → ℝ) (net : Str → List ℝ) (method : OptMethod)
    (n : Nat) (h : method.Direct ∨ n = 0) (cost : (Str → List ℝ) → ℝ)
    (hcost : ∀ theta theta', (∀ p ∈ paths, theta p = theta' p) → cost theta = cost theta') :
    let run := optRun method sqrt o paths grad lr (initialOptState method paths net)
    let theta := fun p => (run n).vars (.net p)
    IsGradient paths (fun p => (net p).length) cost theta (grad n theta) →
    (∃ p ∈ paths, ∃ i < (net p).length, gradAt grad run n p i ≠ 0) →
    ∃ limit, 0 < limit ∧ ∀ alpha, 0 < alpha → alpha < limit →
      cost (updated method sqrt o paths (grad n theta) alpha (run n)) < cost theta := by
  intro run theta hgrad ⟨p0, hp0, i0, hi0, hne⟩
  obtain ⟨c, hc, key⟩ := C114_direction hq ho paths grad hs lr net method n h
  change ∀ alpha, ∀ p ∈ paths, (updated method sqrt o paths (grad n theta) alpha (run n) p).length = (net p).length ∧
    ∀ i < (net p).length, (updated method sqrt o paths (grad n theta) alpha (run n) p).getD i 0 =
      paramAt run n p i - alpha * c p i * gradAt grad run n p i at key
  set len := fun p => (net p).length with hlen
  set x := paramVector paths len theta with hx
  set v : ParamIndex paths len → ℝ := fun j => -(c j.1.1 j.2 * gradAt grad run n j.1.1 j.2) with hv
  have hlists : ∀ alpha, cost (updated method sqrt o paths (grad n theta) alpha (run n)) = cost (paramLists paths len (x + alpha • v)) := by
    intro alpha
    refine hcost _ _ fun p hp => ?_
    obtain ⟨k1, k2⟩ := key alpha p hp
    unfold paramLists
    rw [dif_pos hp]
    refine List.ext_getElem (by rw [k1, List.length_ofFn]) fun i hi hi' => ?_
    rw [List.getElem_ofFn]
    have := k2 i (by rw [← k1]; exact hi)
    rw [List.getD_eq_getElem?_getD, List.getElem?_eq_getElem hi, Option.getD_some] at this
    rw [this]
    simp only [hx, hv, paramVector, Pi.add_apply, Pi.smul_apply, smul_eq_mul]
    change paramAt run n p i - _ = paramAt run n p i + _
    ring
  have htheta : cost theta = cost (paramLists paths len (x + (0 : ℝ) • v)) := by
    rw [← hlists 0]
    refine hcost _ _ fun p hp => ?_
    obtain ⟨k1, k2⟩ := key 0 p hp
    have hl : (theta p).length = (net p).length := run_length sqrt o paths grad hs lr net method n hp
    refine List.ext_getElem (by rw [k1, hl]) fun i hi hi' => ?_
    have := k2 i (by rw [← k1]; exact hi')
    rw [List.getD_eq_getElem?_getD, List.getElem?_eq_getElem hi', Option.getD_some] at this
    rw [this, zero_mul, zero_mul, sub_zero]
    unfold paramAt
    rw [List.getD_eq_getElem?_getD]
    change _ = ((theta p)[i]?).getD 0
    rw [List.getElem?_eq_getElem hi, Option.getD_some]
  have hline : HasDerivAt (fun alpha : ℝ => x + alpha • v) v 0 := by
    have := ((hasDerivAt_id (0 : ℝ)).smul_const v).const_add x
    simpa using this
  unfold IsGradient at hgrad
  have hcomp := HasFDerivAt.comp_hasDerivAt (x := (0 : ℝ)) (f := fun alpha : ℝ => x + alpha • v)
    (l := fun x => cost (paramLists paths len x)) (by simpa using hgrad) hline
  set F := (fun x => cost (paramLists paths len x)) ∘ fun alpha : ℝ => x + alpha • v with hF
  have hneg : (∑ j : ParamIndex paths len, (grad n theta j.1.1).getD j.2 0 •
      (ContinuousLinearMap.proj j : (ParamIndex paths len → ℝ) →L[ℝ] ℝ)) v < 0 := by
    rw [_root_.sum_apply]
    have e : ∀ j : ParamIndex paths len, ((grad n theta j.1.1).getD j.2 0 •
        (ContinuousLinearMap.proj j : (ParamIndex paths len → ℝ) →L[ℝ] ℝ)) v =
        -(c j.1.1 j.2 * gradAt grad run n j.1.1 j.2 ^ 2) := by
      intro j
      show gradAt grad run n j.1.1 j.2 * v j = _
      simp only [hv]
      ring
    rw [Finset.sum_congr rfl fun j _ => e j, Finset.sum_neg_distrib, neg_lt_zero]
    refine Finset.sum_pos' (fun j _ => mul_nonneg (hc j.1.1 j.1.2 j.2 j.2.2).le (sq_nonneg _))
      ⟨⟨⟨p0, hp0⟩, ⟨i0, hi0⟩⟩, Finset.mem_univ _, mul_pos (hc p0 hp0 i0 hi0) (by positivity)⟩
  have hslope := (hasDerivAt_iff_tendsto_slope.mp hcomp).eventually (gt_mem_nhds hneg)
  have hev : ∀ᶠ alpha in nhdsWithin (0 : ℝ) (Set.Ioi 0), slope F 0 alpha < 0 :=
    hslope.filter_mono (nhdsWithin_mono _ fun a ha => ne_of_gt ha)
  obtain ⟨limit, hl, hsub⟩ := mem_nhdsGT_iff_exists_Ioo_subset.mp hev
  refine ⟨limit, hl, fun alpha h1 h2 => ?_⟩
  have := hsub ⟨h1, h2⟩
  rw [hlists, htheta]
  simp only [Set.mem_ofPred_eq, slope_def_field, sub_zero] at this
  have h3 : F alpha - F 0 < 0 := by
    by_contra hcon
    exact absurd this (not_lt.mpr (div_nonneg (not_lt.mp hcon) h1.le))
  exact sub_neg.mp h3

/-! ## Momentum -/

/-- A cost that is a linear function of the only element of the parameter `p`, with different derivatives in the first mini-batch and the
others. -/
noncomputable def exCost (n : Nat) (theta : Str → List ℝ) : ℝ := (if n = 0 then 1 else -1 / 100) * (theta ['p']).getD 0 0

noncomputable def exGradient (n : Nat) (theta : Str → List ℝ) (p : Str) : List ℝ := (theta p).map fun _ => if n = 0 then 1 else -1 / 100

theorem exGradient_shape : GradShape [['p']] exGradient := fun _ _ _ _ => List.length_map _

theorem exCost_gradient (n : Nat) (theta : Str → List ℝ) (h : (theta ['p']).length = 1) :
    IsGradient [['p']] (fun _ => 1) (exCost n) theta (exGradient n theta) := by
  unfold IsGradient
  obtain ⟨x, hx⟩ := List.length_eq_one_iff.mp h
  have e : (fun y => exCost n (paramLists [['p']] (fun _ => 1) y)) =
      fun y : ParamIndex [['p']] (fun _ => 1) → ℝ => (if n = 0 then (1 : ℝ) else -1 / 100) * y ⟨⟨['p'], by simp⟩, 0⟩ := by
    funext y
    unfold exCost paramLists
    simp
  rw [e]
  have hd := ((ContinuousLinearMap.proj (⟨⟨['p'], by simp⟩, 0⟩ : ParamIndex [['p']] (fun _ => 1)) :
    (ParamIndex [['p']] (fun _ => 1) → ℝ) →L[ℝ] ℝ).hasFDerivAt (x := paramVector [['p']] (fun _ => 1) theta)).const_mul
      (if n = 0 then (1 : ℝ) else -1 / 100)
  refine hd.congr_fderiv ?_
  rw [Finset.sum_eq_single (⟨⟨['p'], by simp⟩, 0⟩ : ParamIndex [['p']] (fun _ => 1))]
  · congr 1
    unfold exGradient
    simp [hx]
  · intro j _ hj
    refine absurd ?_ hj
    obtain ⟨⟨q, hq⟩, i⟩ := j
    have : q = ['p'] := by simpa using hq
    subst this
    congr
    exact Subsingleton.elim _ _
  · intro h
    exact absurd (Finset.mem_univ _) h

/-- Options as by default in the train command. -/
noncomputable def exOptOptions : OptOptions ℝ where
  epsilon := 1 / 1000000
  maxNorm := some 5
  gamma := 9 / 10
  gammaSqr := 999 / 1000
  momentum := 9 / 10

theorem exOptOptions_inRange : exOptOptions.InRange := by
  constructor
  · norm_num [exOptOptions]
  · norm_num [exOptOptions]
  · norm_num [exOptOptions]
  · norm_num [exOptOptions]
  · rintro m h
    cases h
    norm_num

/-- Limiting the norm of a tensor with one element. -/
theorem limited_one {raw D : Str → Nat → ℝ} (h : Limited Real.sqrt exOptOptions.epsilon exOptOptions.maxNorm [['p']] (fun _ => 1) raw D) :
    D ['p'] 0 = raw ['p'] 0 * (min |raw ['p'] 0| 5 / (1 / 1000000 + |raw ['p'] 0|)) := by
  have hn : totalNorm Real.sqrt [['p']] (fun _ => 1) raw = |raw ['p'] 0| := by
    unfold totalNorm
    simp [Real.sqrt_sq_eq_abs]
  have := h ['p'] (by simp) 0 (by simp)
  simp only [exOptOptions, hn] at this
  rw [this, max_eq_left (abs_nonneg _)]

theorem limited_neg {r : ℝ} (h : r < 0) : r * (min |r| 5 / (1 / 1000000 + |r|)) < 0 := by
  have h1 : 0 < |r| := abs_pos.mpr h.ne
  exact mul_neg_of_neg_of_pos h (div_pos (lt_min h1 (by norm_num)) (by positivity))

theorem limited_first {r : ℝ} (h1 : -1 ≤ r) (h2 : r ≤ -9 / 10) : r * (min |r| 5 / (1 / 1000000 + |r|)) ≤ -8 / 10 := by
  rw [abs_of_neg (by linarith), min_eq_left (by linarith)]
  have : 0 < 1 / 1000000 + -r := by linarith
  rw [← mul_div_assoc, div_le_iff₀ this]
  nlinarith

theorem limited_second {r : ℝ} (h1 : 0 ≤ r) (h2 : r ≤ 1 / 50) : r * (min |r| 5 / (1 / 1000000 + |r|)) ≤ 1 / 50 := by
  rw [abs_of_nonneg h1, min_eq_left (by linarith)]
  have : 0 < 1 / 1000000 + r := by linarith
  rw [← mul_div_assoc, div_le_iff₀ this]
  nlinarith

theorem exGradient_at (run : Nat → OptState ℝ) (n : Nat) (h : ((run n).vars (.net ['p'])).length = 1) :
    gradAt exGradient run n ['p'] 0 = if n = 0 then 1 else -1 / 100 := by
  obtain ⟨x, hx⟩ := List.length_eq_one_iff.mp h
  unfold gradAt exGradient
  simp [hx]

/-- C114 does not hold for the later updates of the methods with momentum: the cost may increase however small the learning rate is. -/
theorem C114_violated (method : OptMethod) (h : method = .nesterov ∨ method = .adam ∨ method = .rmspropNesterov) :
    let run := optRun method Real.sqrt exOptOptions [['p']] exGradient (fun _ => 1) (initialOptState method [['p']] fun _ => [0])
    let theta := fun p => (run 1).vars (.net p)
    IsGradient [['p']] (fun _ => 1) (exCost 1) theta (exGradient 1 theta) ∧
    ∀ alpha, 0 < alpha → alpha ≤ 1 →
      exCost 1 theta < exCost 1 (updated method Real.sqrt exOptOptions [['p']] (exGradient 1 theta) alpha (run 1)) := by
  intro run theta
  refine ⟨exCost_gradient 1 theta (run_length _ _ _ _ exGradient_shape _ (fun _ => [0]) method 1 (by simp)), fun alpha h1 h2 => ?_⟩
  suffices hlt : (updated method Real.sqrt exOptOptions [['p']] (exGradient 1 theta) alpha (run 1) ['p']).getD 0 0 < (theta ['p']).getD 0 0 by
    unfold exCost
    rw [if_neg one_ne_zero]
    linarith
  have ha := optRun_after method Real.sqrt exOptOptions [['p']] exGradient (fun _ => 1) (initialOptState method [['p']] fun _ => [0]) 1 alpha ['p']
  have hb := optRun_before method Real.sqrt exOptOptions [['p']] exGradient (fun _ => 1) (initialOptState method [['p']] fun _ => [0]) 1 alpha 1
    le_rfl
  set lr : Nat → ℝ := Function.update (fun _ => 1) 1 alpha with hlr
  have l0 : lr 0 = 1 := rfl
  have l1 : lr 1 = alpha := Function.update_self ..
  set run' := optRun method Real.sqrt exOptOptions [['p']] exGradient lr (initialOptState method [['p']] fun _ => [0]) with hrun'
  have hgoal : (updated method Real.sqrt exOptOptions [['p']] (exGradient 1 theta) alpha (run 1) ['p']).getD 0 0 = paramAt run' 2 ['p'] 0 := by
    unfold paramAt
    rw [ha]
  have hold : (theta ['p']).getD 0 0 = paramAt run' 1 ['p'] 0 := by
    unfold paramAt
    rw [hb]
  rw [hgoal, hold]
  have hg : ∀ n, gradAt exGradient run' n ['p'] 0 = if n = 0 then 1 else -1 / 100 := fun n =>
    exGradient_at run' n (run_length _ _ _ _ exGradient_shape _ (fun _ => [0]) method n (by simp))
  have g0 := hg 0
  have g1 := hg 1
  rw [if_pos rfl] at g0
  rw [if_neg one_ne_zero] at g1
  have momentum_case : ∀ d0 d1 : ℝ, d0 ≤ -8 / 10 → d1 ≤ 1 / 50 →
      paramAt run' 2 ['p'] 0 = paramAt run' 1 ['p'] 0 + 9 / 10 * (9 / 10 * (9 / 10 * 0 + 1 * d0) + alpha * d1) + alpha * d1 →
      paramAt run' 2 ['p'] 0 < paramAt run' 1 ['p'] 0 := by
    intro d0 d1 e0 e1 e
    rw [e]
    nlinarith
  rcases h with rfl | rfl | rfl
  · obtain ⟨D, hD, hst⟩ := C48_nesterov Real.sqrt exOptOptions [['p']] exGradient lr (fun _ => [0]) exGradient_shape
    obtain ⟨_, s2, s3⟩ := (hst ['p'] (by simp)).2 0 (by simp)
    have d0 := limited_one (hD 0)
    have d1 := limited_one (hD 1)
    rw [← hrun', g0] at d0
    rw [← hrun', g1] at d1
    refine momentum_case (D 0 ['p'] 0) (D 1 ['p'] 0) ?_ ?_ ?_
    · rw [d0]
      exact limited_first (by norm_num) (by norm_num)
    · rw [d1]
      exact limited_second (by norm_num) (by norm_num)
    · rw [(s3 1).2, (s3 1).1, (s3 0).1, s2, l0, l1]
      rfl
  · obtain ⟨D, hD, _, hst⟩ := C48_adam Real.sqrt exOptOptions [['p']] exGradient lr (fun _ => [0]) exGradient_shape
    obtain ⟨_, s3⟩ := (hst ['p'] (by simp)).2 0 (by simp)
    have d1 := limited_one (hD 1)
    rw [← hrun', decayingMean_succ, decayingMean_succ, decayingMean_zero, g0, g1] at d1
    have hneg : D 1 ['p'] 0 < 0 := by
      rw [d1]
      refine limited_neg (div_neg_of_neg_of_pos (by norm_num [exOptOptions]) (add_pos_of_nonneg_of_pos (Real.sqrt_nonneg _) exOptOptions_inRange.epsilon))
    rw [(s3 1).2.2, l1]
    have hs : 0 < alpha * Real.sqrt (1 - exOptOptions.gammaSqr ^ (1 + 1)) / (1 - exOptOptions.gamma ^ (1 + 1)) :=
      div_pos (mul_pos h1 (Real.sqrt_pos.mpr (by norm_num [exOptOptions]))) (by norm_num [exOptOptions])
    nlinarith
  · obtain ⟨D, hD, hst⟩ := C48_rmsprop_nesterov_partial Real.sqrt exOptOptions [['p']] exGradient lr (fun _ => [0]) exGradient_shape
    obtain ⟨_, s2, s3⟩ := (hst ['p'] (by simp)).2 0 (by simp)
    have d0 := limited_one (hD 0)
    have d1 := limited_one (hD 1)
    rw [← hrun', g0] at d0
    rw [← hrun', g1] at d1
    refine momentum_case (D 0 ['p'] 0) (D 1 ['p'] 0) ?_ ?_ ?_
    · rw [d0]
      have a1 : 1 ≤ Real.sqrt (exOptOptions.gamma + (1 - exOptOptions.gamma) * 1 ^ 2 + exOptOptions.epsilon) :=
        Real.le_sqrt_of_sq_le (by norm_num [exOptOptions])
      have a2 : Real.sqrt (exOptOptions.gamma + (1 - exOptOptions.gamma) * 1 ^ 2 + exOptOptions.epsilon) ≤ 10 / 9 :=
        Real.sqrt_le_iff.mpr (by norm_num [exOptOptions])
      refine limited_first ?_ ?_
      · rw [le_div_iff₀ (by linarith)]; linarith
      · rw [div_le_iff₀ (by linarith)]; linarith
    · rw [d1]
      have a1 : 1 / 2 ≤ Real.sqrt (exOptOptions.gamma + (1 - exOptOptions.gamma) * (-1 / 100) ^ 2 + exOptOptions.epsilon) :=
        Real.le_sqrt_of_sq_le (by norm_num [exOptOptions])
      refine limited_second (div_nonneg (by norm_num) (Real.sqrt_nonneg _)) ?_
      rw [div_le_iff₀ (by linarith)]; linarith
    · rw [(s3 1).2.2, (s3 1).2.1, (s3 0).2.1, s2, l0, l1]
      rfl

/-! ## Example -/

/-- A case that meets the hypotheses of `C114_decrease`. -/
example : exOptOptions.InRange ∧ IsSqrt Real.sqrt ∧ GradShape [['p']] exGradient ∧ OptMethod.adadelta.Direct ∧
    (∀ theta theta' : Str → List ℝ, (∀ p ∈ [['p']], theta p = theta' p) → exCost 0 theta = exCost 0 theta') ∧
    ∀ theta : Str → List ℝ, (theta ['p']).length = 1 → IsGradient [['p']] (fun _ => 1) (exCost 0) theta (exGradient 0 theta) :=
  ⟨exOptOptions_inRange, fun x hx => ⟨Real.sqrt_nonneg x, Real.sq_sqrt hx⟩, exGradient_shape, trivial,
    fun theta theta' h => by unfold exCost; rw [h ['p'] (by simp)], fun theta h => exCost_gradient 0 theta h⟩

end TheanoLM
