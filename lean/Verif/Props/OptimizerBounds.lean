import Verif.Props.Descent
import Mathlib.Algebra.Order.BigOperators.Ring.Finset
import Mathlib.Algebra.Order.Field.GeomSum
/-!
# C118 and C119: what the momentum is, and how far one update can move a parameter
-/
namespace TheanoLM

section
variable {S : Type} [Field S] [LinearOrder S]
variable (sqrt : S → S) (o : OptOptions S) (paths : List Str) (grad : Nat → (Str → List S) → Str → List S) (lr : Nat → S)
  (net : Str → List S)

/-- **C118** (Nesterov momentum).  There are positions `theta` and velocities `v` that follow the method as it was published: a step is
first taken in the direction of the velocity, the gradient is computed there, the velocity is updated using this gradient, and the
updated velocity is added to the position.  The parameters of the network are always the points where the gradient is computed. -/
theorem C118_nesterov (hs : GradShape paths grad) :
    let run := optRun .nesterov sqrt o paths grad lr (initialOptState .nesterov paths net)
    let len := fun p => (net p).length
    ∃ theta v D : Nat → Str → Nat → S,
      (∀ n, Limited sqrt o.epsilon o.maxNorm paths len (fun p i => -gradAt grad run n p i) (D n)) ∧
      ∀ p ∈ paths, ∀ i < len p,
        theta 0 p i = (net p).getD i 0 ∧ v 0 p i = 0 ∧
        ∀ n, paramAt run n p i = theta n p i + o.momentum * v n p i ∧
          v (n + 1) p i = o.momentum * v n p i + lr n * D n p i ∧
          theta (n + 1) p i = theta n p i + v (n + 1) p i := by
  intro run len
  obtain ⟨D, h1, h2⟩ := C48_nesterov sqrt o paths grad lr net hs
  refine ⟨fun n p i => paramAt run n p i - o.momentum * auxAt "_velocity".toList run n p i,
    auxAt "_velocity".toList run, D, h1, fun p hp i hi => ?_⟩
  obtain ⟨h3, h4, h5⟩ := (h2 p hp).2 i hi
  refine ⟨?_, h4, fun n => ⟨by ring, (h5 n).1, ?_⟩⟩
  · show paramAt run 0 p i - o.momentum * auxAt "_velocity".toList run 0 p i = _
    rw [show auxAt "_velocity".toList run 0 p i = 0 from h4, mul_zero, sub_zero]
    exact h3
  · show paramAt run (n + 1) p i - o.momentum * auxAt "_velocity".toList run (n + 1) p i = _
    rw [show paramAt run (n + 1) p i = _ from (h5 n).2, show auxAt "_velocity".toList run (n + 1) p i = _ from (h5 n).1]
    ring

/-- Nesterov momentum and RMSProp with momentum do not change the parameters that are not given to them. -/
theorem momentum_net_other {alpha : S} {st : OptState S} {deltas : List (Str × List S)} {ts : Option Nat} {p : Str} (hp : p ∉ paths) :
    (applyUpdates st ⟨momentumUpdates o paths deltas alpha st, ts⟩).vars (.net p) = st.vars (.net p) := by
  refine applyUpdates_not_mem fun t ht => ?_
  simp only [momentumUpdates, List.mem_flatMap, List.mem_cons, Prod.mk.injEq, OptVar.net.injEq, reduceCtorEq, false_and,
    List.not_mem_nil, or_false, false_or] at ht
  obtain ⟨q, hq, rfl, _⟩ := ht
  exact hp hq

theorem sgd_net_other {g : Str → List S} {alpha : S} {st : OptState S} {p : Str} (hp : p ∉ paths) :
    (applyUpdates st (sgdUpdates sqrt o paths g alpha st)).vars (.net p) = st.vars (.net p) := by
  refine applyUpdates_not_mem fun t ht => ?_
  simp only [sgdUpdates, List.mem_map, Prod.mk.injEq, OptVar.net.injEq] at ht
  obtain ⟨q, hq, rfl, _⟩ := ht
  exact hp hq

omit [LinearOrder S] in
theorem zero_momentum_zip (alpha : S) : ∀ (x v d : List S), v.length = x.length → d.length = x.length →
    List.zipWith (· + ·) (List.zipWith (fun x v => x + (0 : S) * v) x (List.zipWith (fun v d => (0 : S) * v + alpha * d) v d))
      (d.map (alpha * ·)) = List.zipWith (fun x d => x + alpha * d) x d
  | [], _, _, _, _ => by simp
  | x :: xs, [], _, h, _ => by simp at h
  | x :: xs, _, [], _, h => by simp at h
  | x :: xs, v :: vs, d :: ds, h1, h2 => by
    have := zero_momentum_zip alpha xs vs ds (by simpa using h1) (by simpa using h2)
    simp only [List.zipWith_cons_cons, List.map_cons, zero_mul, add_zero, List.cons.injEq] at this ⊢
    exact ⟨trivial, this⟩

/-- **C118** (no momentum): when the momentum is zero, the Nesterov momentum method gives exactly the same parameters as stochastic
gradient descent. -/
theorem C118_zero_momentum (h0 : o.momentum = 0) (hs : GradShape paths grad) (n : Nat) (p : Str) :
    (optRun .nesterov sqrt o paths grad lr (initialOptState .nesterov paths net) n).vars (.net p) =
    (optRun .sgd sqrt o paths grad lr (initialOptState .sgd paths net) n).vars (.net p) := by
  suffices h : (∀ p, (optRun .nesterov sqrt o paths grad lr (initialOptState .nesterov paths net) n).vars (.net p) =
      (optRun .sgd sqrt o paths grad lr (initialOptState .sgd paths net) n).vars (.net p)) ∧
      ∀ p ∈ paths, ((optRun .nesterov sqrt o paths grad lr (initialOptState .nesterov paths net) n).vars
        (.opt (p ++ sfxVelocity))).length = (net p).length from h.1 p
  have hlen : ∀ n, ∀ q ∈ paths, ((optRun .nesterov sqrt o paths grad lr (initialOptState .nesterov paths net) n).vars
      (.net q)).length = (net q).length := fun n q hq => by
    obtain ⟨_, _, h⟩ := C48_nesterov sqrt o paths grad lr net hs
    exact (h q hq).1 n
  induction n with
  | zero =>
    refine ⟨fun p => rfl, fun p hp => ?_⟩
    show ((initialOptState OptMethod.nesterov paths net).vars (.opt (p ++ sfxVelocity))).length = _
    rw [initial_opt (x := 0) hp (by simp [optVariables])
      (by intro q t y ht he; simp only [optVariables, List.mem_singleton, Prod.mk.injEq] at ht
          obtain ⟨rfl, rfl⟩ := ht; exact ⟨List.append_cancel_right he, rfl⟩)]
    simp
  | succ n ih =>
    obtain ⟨ih1, ih2⟩ := ih
    have hlen := hlen n
    have hfun : (fun p => (optRun .nesterov sqrt o paths grad lr (initialOptState .nesterov paths net) n).vars (.net p)) =
        fun p => (optRun .sgd sqrt o paths grad lr (initialOptState .sgd paths net) n).vars (.net p) := funext ih1
    simp only [optRun]
    generalize optRun .nesterov sqrt o paths grad lr (initialOptState .nesterov paths net) n = st1 at ih1 ih2 hlen hfun ⊢
    generalize optRun .sgd sqrt o paths grad lr (initialOptState .sgd paths net) n = st2 at ih1 hfun ⊢
    rw [hfun]
    have hg : ∀ p ∈ paths, (grad n (fun p => st2.vars (.net p)) p).length = (net p).length := fun p hp => by
      rw [hs n _ p hp, ← ih1 p, hlen p hp]
    have hd : ∀ p ∈ paths, deltaOf (normalizeDeltas sqrt o
        (paths.map fun q => (q, (grad n (fun q => st2.vars (.net q)) q).map (- ·)))) p =
        limitedTensor sqrt o paths (fun q => (grad n (fun q => st2.vars (.net q)) q).map (- ·)) p :=
      fun p hp => deltaOf_normalize sqrt o _ hp
    simp only [getParamUpdates, nesterovUpdates]
    refine ⟨fun p => ?_, fun p hp => ?_⟩
    · by_cases hp : p ∈ paths
      · rw [momentum_net hp, sgd_net hp, hd p hp, h0, zero_momentum_zip, ih1 p]
        · rw [ih2 p hp, hlen p hp]
        · rw [limitedTensor_length, List.length_map, hg p hp, hlen p hp]
      · rw [momentum_net_other o paths hp, sgd_net_other sqrt o paths hp, ih1 p]
    · rw [momentum_velocity hp, hd p hp, List.length_zipWith, limitedTensor_length, List.length_map, hg p hp, ih2 p hp, min_self]

end

/-! ## The size of an update -/

section
variable {o : OptOptions ℝ} {paths : List Str} {len : Str → Nat}

/-- Limiting the norm does not increase the elements. -/
theorem limited_abs_le (ho : o.InRange) {raw D : Str → Nat → ℝ} (h : Limited Real.sqrt o.epsilon o.maxNorm paths len raw D)
    {p : Str} (hp : p ∈ paths) {i : Nat} (hi : i < len p) : |D p i| ≤ |raw p i| := by
  have := h p hp i hi
  cases hm : o.maxNorm with
  | none => rw [hm] at this; rw [this]
  | some m =>
    rw [hm] at this
    rw [this, abs_mul]
    have hN : 0 ≤ totalNorm Real.sqrt paths len raw := Real.sqrt_nonneg _
    have hm' := ho.maxNorm m hm
    have he := ho.epsilon
    have hpos : 0 < o.epsilon + totalNorm Real.sqrt paths len raw := by linarith
    refine mul_le_of_le_one_right (abs_nonneg _) ?_
    rw [max_eq_left hN, abs_of_nonneg (div_nonneg (le_min hN hm'.le) hpos.le), div_le_one hpos]
    exact (min_le_left _ _).trans (by linarith)

/-- A number divided by the square root of something that is not less than `b` times its square. -/
theorem abs_div_sqrt_le {g m b : ℝ} (hb : 0 < b) (hm : 0 < m) (h : b * g ^ 2 ≤ m) : |-g / Real.sqrt m| ≤ 1 / Real.sqrt b := by
  have hs := Real.sqrt_pos.mpr hm
  have hb' := Real.sqrt_pos.mpr hb
  rw [abs_div, abs_neg, abs_of_pos hs, div_le_div_iff₀ hs hb', one_mul]
  have := Real.sqrt_le_sqrt h
  rwa [Real.sqrt_mul hb.le, Real.sqrt_sq_eq_abs, mul_comm] at this

/-- **C119** (AdaGrad): an update moves every element of the parameters at most by the learning rate, whatever the gradients are. -/
theorem C119_adagrad (ho : o.InRange) (grad : Nat → (Str → List ℝ) → Str → List ℝ) (hs : GradShape paths grad) (lr : Nat → ℝ)
    (hlr : ∀ n, 0 ≤ lr n) (net : Str → List ℝ) :
    let run := optRun .adagrad Real.sqrt o paths grad lr (initialOptState .adagrad paths net)
    ∀ p ∈ paths, ∀ i < (net p).length, ∀ n, |paramAt run (n + 1) p i - paramAt run n p i| ≤ lr n := by
  intro run p hp i hi n
  obtain ⟨D, h1, h2⟩ := C48_adagrad Real.sqrt o paths grad lr net hs
  have h3 := (((h2 p hp).2 i hi).2 n).2
  change paramAt run (n + 1) p i = paramAt run n p i + lr n * D n p i at h3
  rw [h3, add_sub_cancel_left, abs_mul, abs_of_nonneg (hlr n)]
  refine mul_le_of_le_one_right (hlr n) ((limited_abs_le ho (h1 n) hp hi).trans ?_)
  have h4 := abs_div_sqrt_le (g := gradAt grad run n p i) (b := 1)
    (m := (∑ k ∈ Finset.range (n + 1), gradAt grad run k p i ^ 2) + o.epsilon) one_pos ?_ ?_
  · rwa [Real.sqrt_one, div_one] at h4
  · exact add_pos_of_nonneg_of_pos (Finset.sum_nonneg fun _ _ => sq_nonneg _) ho.epsilon
  · rw [Finset.sum_range_succ, one_mul]
    have : 0 ≤ ∑ k ∈ Finset.range n, gradAt grad run k p i ^ 2 := Finset.sum_nonneg fun _ _ => sq_nonneg _
    have := ho.epsilon
    linarith

/-- **C119** (RMSProp): an update moves every element of the parameters at most by the learning rate divided by the square root of
`1 - gamma`. -/
theorem C119_rmsprop (ho : o.InRange) (grad : Nat → (Str → List ℝ) → Str → List ℝ) (hs : GradShape paths grad) (lr : Nat → ℝ)
    (hlr : ∀ n, 0 ≤ lr n) (net : Str → List ℝ) :
    let run := optRun .rmspropSgd Real.sqrt o paths grad lr (initialOptState .rmspropSgd paths net)
    ∀ p ∈ paths, ∀ i < (net p).length, ∀ n, |paramAt run (n + 1) p i - paramAt run n p i| ≤ lr n / Real.sqrt (1 - o.gamma) := by
  intro run p hp i hi n
  obtain ⟨D, h1, h2⟩ := C48_rmsprop_sgd Real.sqrt o paths grad lr net hs
  have h3 := (((h2 p hp).2 i hi).2 n).2
  change paramAt run (n + 1) p i = paramAt run n p i + lr n * D n p i at h3
  have hg := ho.gamma
  have hms : ∀ n, 0 ≤ decayingMean o.gamma 1 (fun k => gradAt grad run k p i ^ 2) n := fun n =>
    decayingMean_nonneg hg.1 hg.2 zero_le_one (fun _ => sq_nonneg _) n
  rw [h3, add_sub_cancel_left, abs_mul, abs_of_nonneg (hlr n), div_eq_mul_one_div]
  refine mul_le_mul_of_nonneg_left ((limited_abs_le ho (h1 n) hp hi).trans ?_) (hlr n)
  refine abs_div_sqrt_le (sub_pos.mpr hg.2) (add_pos_of_nonneg_of_pos (hms (n + 1)) ho.epsilon) ?_
  rw [decayingMean_succ]
  have := mul_nonneg hg.1 (hms n)
  have := ho.epsilon
  show _ ≤ _ + (1 - o.gamma) * gradAt grad run n p i ^ 2 + _
  linarith

/-- **C119** (RMSProp with momentum): with learning rates not greater than `limit` and a momentum less than one, an update moves every
element of the parameters at most by `limit` divided by the square root of `1 - gamma` and by `1 - momentum`. -/
theorem C119_rmsprop_nesterov (ho : o.InRange) (hmu : o.momentum < 1) (grad : Nat → (Str → List ℝ) → Str → List ℝ)
    (hs : GradShape paths grad) (lr : Nat → ℝ) {limit : ℝ} (hlr : ∀ n, 0 ≤ lr n ∧ lr n ≤ limit) (net : Str → List ℝ) :
    let run := optRun .rmspropNesterov Real.sqrt o paths grad lr (initialOptState .rmspropNesterov paths net)
    ∀ p ∈ paths, ∀ i < (net p).length, ∀ n,
      |paramAt run (n + 1) p i - paramAt run n p i| ≤ limit / (Real.sqrt (1 - o.gamma) * (1 - o.momentum)) := by
  intro run p hp i hi n
  obtain ⟨D, h1, h2⟩ := C48_rmsprop_nesterov_partial Real.sqrt o paths grad lr net hs
  obtain ⟨_, h4, h5⟩ := (h2 p hp).2 i hi
  have hg := ho.gamma
  have hmu0 := ho.momentum
  have he := ho.epsilon
  have hb := Real.sqrt_pos.mpr (sub_pos.mpr hg.2)
  set c := limit / Real.sqrt (1 - o.gamma) with hc
  have hD : ∀ n, |lr n * D n p i| ≤ c := by
    intro n
    rw [abs_mul, abs_of_nonneg (hlr n).1, hc, div_eq_mul_one_div]
    refine mul_le_mul (hlr n).2 ((limited_abs_le ho (h1 n) hp hi).trans ?_) (abs_nonneg _) ((hlr n).1.trans (hlr n).2)
    have h6 : 0 ≤ (1 - o.gamma) * gradAt grad run n p i ^ 2 := mul_nonneg (sub_nonneg.mpr hg.2.le) (sq_nonneg _)
    exact abs_div_sqrt_le (sub_pos.mpr hg.2) (by show 0 < _ + (1 - o.gamma) * gradAt grad run n p i ^ 2 + _; linarith)
      (by show _ ≤ _ + (1 - o.gamma) * gradAt grad run n p i ^ 2 + _; linarith)
  have hmu1 : 0 < 1 - o.momentum := sub_pos.mpr hmu
  have hv : ∀ n, |auxAt "_velocity".toList run n p i| ≤ c / (1 - o.momentum) := by
    intro n
    induction n with
    | zero =>
      rw [show auxAt "_velocity".toList run 0 p i = 0 from h4, abs_zero]
      exact div_nonneg ((abs_nonneg _).trans (hD 0)) hmu1.le
    | succ n ih =>
      rw [show auxAt "_velocity".toList run (n + 1) p i = _ from (h5 n).2.1]
      refine (abs_add_le _ _).trans ?_
      rw [abs_mul, abs_of_nonneg hmu0]
      calc _ ≤ o.momentum * (c / (1 - o.momentum)) + c := add_le_add (mul_le_mul_of_nonneg_left ih hmu0) (hD n)
        _ = _ := by field_simp; ring
  rw [show paramAt run (n + 1) p i = _ from (h5 n).2.2]
  change |paramAt run n p i + o.momentum * auxAt "_velocity".toList run (n + 1) p i + lr n * D n p i - paramAt run n p i| ≤ _
  rw [show paramAt run n p i + o.momentum * auxAt "_velocity".toList run (n + 1) p i + lr n * D n p i - paramAt run n p i =
    o.momentum * auxAt "_velocity".toList run (n + 1) p i + lr n * D n p i by ring]
  refine (abs_add_le _ _).trans ?_
  rw [abs_mul, abs_of_nonneg hmu0]
  calc _ ≤ o.momentum * (c / (1 - o.momentum)) + c := add_le_add (mul_le_mul_of_nonneg_left (hv (n + 1)) hmu0) (hD n)
    _ = _ := by rw [hc]; field_simp; ring

/-- The decaying mean of a sequence is bounded by the root of the decaying mean of its squares, if the latter decays slower. -/
theorem decayingMean_sq_le {a b : ℝ} (hb1 : b < 1) (hab : a ^ 2 < b) (x : Nat → ℝ) (n : Nat) :
    decayingMean a 0 x n ^ 2 * ((1 - b) * (1 - a ^ 2 / b)) ≤ (1 - a) ^ 2 * decayingMean b 0 (fun k => x k ^ 2) n := by
  have hb : 0 < b := lt_of_le_of_lt (sq_nonneg a) hab
  unfold decayingMean
  simp only [mul_zero, zero_add, mul_pow]
  have hr : a ^ 2 / b < 1 := (div_lt_one hb).mpr hab
  have hr0 : 0 ≤ a ^ 2 / b := by positivity
  have hcs := Finset.sum_sq_le_sum_mul_sum_of_sq_le_mul (Finset.range n) (r := fun k => a ^ (n - 1 - k) * x k)
    (f := fun k => (a ^ 2 / b) ^ (n - 1 - k)) (g := fun k => b ^ (n - 1 - k) * x k ^ 2) (fun k _ => by positivity)
    (fun k _ => by positivity) (fun k _ => le_of_eq (by
      show (a ^ (n - 1 - k) * x k) ^ 2 = (a ^ 2 / b) ^ (n - 1 - k) * (b ^ (n - 1 - k) * x k ^ 2)
      rw [← mul_assoc, ← mul_pow (a ^ 2 / b), div_mul_cancel₀ _ hb.ne', mul_pow, ← pow_mul, ← pow_mul, mul_comm 2]))
  have hgeom : (1 - a ^ 2 / b) * ∑ k ∈ Finset.range n, (a ^ 2 / b) ^ (n - 1 - k) ≤ 1 := by
    rw [Finset.sum_range_reflect (fun k => (a ^ 2 / b) ^ k), mul_neg_geom_sum]
    have := pow_nonneg hr0 n
    linarith
  have hg0 : 0 ≤ ∑ k ∈ Finset.range n, b ^ (n - 1 - k) * x k ^ 2 := Finset.sum_nonneg fun k _ => by positivity
  have h1b : 0 < 1 - b := by linarith
  have h1r : 0 < 1 - a ^ 2 / b := by linarith
  calc (1 - a) ^ 2 * (∑ k ∈ Finset.range n, a ^ (n - 1 - k) * x k) ^ 2 * ((1 - b) * (1 - a ^ 2 / b))
      ≤ (1 - a) ^ 2 * ((∑ k ∈ Finset.range n, (a ^ 2 / b) ^ (n - 1 - k)) * ∑ k ∈ Finset.range n, b ^ (n - 1 - k) * x k ^ 2) *
        ((1 - b) * (1 - a ^ 2 / b)) := by gcongr
    _ = (1 - a) ^ 2 * ((1 - b) * (((1 - a ^ 2 / b) * ∑ k ∈ Finset.range n, (a ^ 2 / b) ^ (n - 1 - k)) *
        ∑ k ∈ Finset.range n, b ^ (n - 1 - k) * x k ^ 2)) := by ring
    _ ≤ (1 - a) ^ 2 * ((1 - b) * (1 * ∑ k ∈ Finset.range n, b ^ (n - 1 - k) * x k ^ 2)) := by gcongr
    _ = _ := by ring

/-- **C119** (Adam): if squared gradients are averaged over a longer time than gradients (`gamma ^ 2 < gammaSqr`), an update moves every
element of the parameters at most by the learning rate times a number that depends only on the decay rates. -/
theorem C119_adam (ho : o.InRange) (hg2 : o.gamma ^ 2 < o.gammaSqr) (grad : Nat → (Str → List ℝ) → Str → List ℝ)
    (hs : GradShape paths grad) (lr : Nat → ℝ) (hlr : ∀ n, 0 ≤ lr n) (net : Str → List ℝ) :
    let run := optRun .adam Real.sqrt o paths grad lr (initialOptState .adam paths net)
    ∀ p ∈ paths, ∀ i < (net p).length, ∀ n,
      |paramAt run (n + 1) p i - paramAt run n p i| ≤ lr n / Real.sqrt ((1 - o.gammaSqr) * (1 - o.gamma ^ 2 / o.gammaSqr)) := by
  intro run p hp i hi n
  obtain ⟨D, h1, _, h2⟩ := C48_adam Real.sqrt o paths grad lr net hs
  have h3 := (((h2 p hp).2 i hi).2 n).2.2
  have hg := ho.gamma
  have hs2 := ho.gammaSqr
  have he := ho.epsilon
  have hb : 0 < o.gammaSqr := lt_of_le_of_lt (sq_nonneg _) hg2
  have hr : o.gamma ^ 2 / o.gammaSqr < 1 := (div_lt_one hb).mpr hg2
  set q := (1 - o.gammaSqr) * (1 - o.gamma ^ 2 / o.gammaSqr) with hq
  have hq0 : 0 < q := mul_pos (by linarith) (by linarith)
  have hq' := Real.sqrt_pos.mpr hq0
  set M := decayingMean o.gamma 0 (fun k => gradAt grad run k p i) (n + 1) with hM
  set V := decayingMean o.gammaSqr 0 (fun k => gradAt grad run k p i ^ 2) (n + 1) with hV
  have hV0 : 0 ≤ V := decayingMean_nonneg hs2.1 hs2.2 le_rfl (fun _ => sq_nonneg _) (n + 1)
  have hMV : |M| * Real.sqrt q ≤ (1 - o.gamma) * Real.sqrt V := by
    have h5 := Real.sqrt_le_sqrt (decayingMean_sq_le hs2.2 hg2 (fun k => gradAt grad run k p i) (n + 1))
    rw [← hq, ← hM, ← hV, Real.sqrt_mul (sq_nonneg _), Real.sqrt_mul (sq_nonneg _), Real.sqrt_sq_eq_abs,
      Real.sqrt_sq (by linarith)] at h5
    exact h5
  have hD : |D n p i| ≤ (1 - o.gamma) / Real.sqrt q := by
    refine (limited_abs_le ho (h1 n) hp hi).trans ?_
    show |-M / (Real.sqrt V + o.epsilon)| ≤ _
    have h6 := Real.sqrt_nonneg V
    rw [abs_div, abs_neg, abs_of_pos (show 0 < Real.sqrt V + o.epsilon by linarith), div_le_div_iff₀ (by linarith) hq']
    refine hMV.trans (mul_le_mul_of_nonneg_left (by linarith) (by linarith))
  have hpow : o.gamma ^ (n + 1) ≤ o.gamma := by
    rw [pow_succ]
    exact mul_le_of_le_one_left hg.1 (pow_le_one₀ hg.1 hg.2.le)
  have hsq : Real.sqrt (1 - o.gammaSqr ^ (n + 1)) ≤ 1 := by
    rw [← Real.sqrt_one]
    refine Real.sqrt_le_sqrt ?_
    have := pow_nonneg hs2.1 (n + 1)
    rw [Real.sqrt_one]
    linarith
  have h1g : 0 < 1 - o.gamma := by linarith
  rw [show paramAt run (n + 1) p i = _ from h3]
  change |paramAt run n p i + lr n * Real.sqrt (1 - o.gammaSqr ^ (n + 1)) / (1 - o.gamma ^ (n + 1)) * D n p i - paramAt run n p i| ≤ _
  rw [add_sub_cancel_left, abs_mul, abs_div, abs_mul, abs_of_nonneg (hlr n), abs_of_nonneg (Real.sqrt_nonneg _),
    abs_of_pos (show 0 < 1 - o.gamma ^ (n + 1) by linarith)]
  calc lr n * Real.sqrt (1 - o.gammaSqr ^ (n + 1)) / (1 - o.gamma ^ (n + 1)) * |D n p i|
      ≤ lr n * 1 / (1 - o.gamma) * ((1 - o.gamma) / Real.sqrt q) := by
        have := hlr n
        gcongr
    _ = lr n / Real.sqrt q := by field_simp

end

/-! ## Examples -/

/-- The default options of Adam and a cost: the hypotheses of the theorems are met. -/
example : exOptOptions.InRange ∧ exOptOptions.momentum < 1 ∧ exOptOptions.gamma ^ 2 < exOptOptions.gammaSqr ∧
    GradShape [['p']] exGradient :=
  ⟨exOptOptions_inRange, by norm_num [exOptOptions], by norm_num [exOptOptions], exGradient_shape⟩

/-- The gradient is always 3. -/
noncomputable def exConstantGradient : Nat → (Str → List ℝ) → Str → List ℝ := fun _ theta p => (theta p).map fun _ => 3

noncomputable def exNoMomentum : OptOptions ℝ where
  epsilon := 1
  maxNorm := none
  gamma := 1 / 2
  gammaSqr := 1 / 2
  momentum := 0

/-- The hypotheses of `C118_zero_momentum` are met, and the parameters change. -/
example : exNoMomentum.momentum = 0 ∧ GradShape [['p']] exConstantGradient ∧
    (optRun .sgd Real.sqrt exNoMomentum [['p']] exConstantGradient (fun _ => 1) (initialOptState .sgd [['p']] fun _ => [0]) 1).vars
      (.net ['p']) = [-3] := by
  refine ⟨rfl, fun _ _ _ _ => List.length_map _, ?_⟩
  simp [optRun, initialOptState, getParamUpdates, sgdUpdates, applyUpdates, normalizeDeltas, deltaOf, exNoMomentum, exConstantGradient]

/-- C118 is violated by RMSProp: also with zero momentum, the momentum version gives other parameters after two updates, because it does
not update the mean of the squared gradients. -/
theorem C118_violated_rmsprop :
    (optRun .rmspropNesterov Real.sqrt exNoMomentum [['p']] exConstantGradient (fun _ => 1)
      (initialOptState .rmspropNesterov [['p']] fun _ => [0]) 2).vars (.net ['p']) ≠
    (optRun .rmspropSgd Real.sqrt exNoMomentum [['p']] exConstantGradient (fun _ => 1)
      (initialOptState .rmspropSgd [['p']] fun _ => [0]) 2).vars (.net ['p']) := by
  have hs : GradShape [['p']] exConstantGradient := fun _ _ _ _ => List.length_map _
  have key := C48_rmsprop_nesterov_partial Real.sqrt exNoMomentum [['p']] exConstantGradient (fun _ => 1) (fun _ => [0]) hs
  have key' := C48_rmsprop_sgd Real.sqrt exNoMomentum [['p']] exConstantGradient (fun _ => 1) (fun _ => [0]) hs
  dsimp only at key key'
  generalize optRun .rmspropNesterov Real.sqrt exNoMomentum [['p']] exConstantGradient (fun _ => 1)
      (initialOptState .rmspropNesterov [['p']] fun _ => [0]) = run at key ⊢
  generalize optRun .rmspropSgd Real.sqrt exNoMomentum [['p']] exConstantGradient (fun _ => 1)
      (initialOptState .rmspropSgd [['p']] fun _ => [0]) = run' at key' ⊢
  obtain ⟨D, h1, h2⟩ := key
  obtain ⟨D', h1', h2'⟩ := key'
  obtain ⟨hl, h3⟩ := h2 ['p'] (by simp)
  obtain ⟨hl', h3'⟩ := h2' ['p'] (by simp)
  obtain ⟨h4, h5, h6⟩ := h3 0 (by simp)
  obtain ⟨h4', h6'⟩ := h3' 0 (by simp)
  intro he
  have hg : ∀ (run : Nat → OptState ℝ) n, ((run n).vars (.net ['p'])).length = 1 → gradAt exConstantGradient run n ['p'] 0 = 3 := by
    intro run n h
    unfold gradAt exConstantGradient
    obtain ⟨a, ha⟩ := List.length_eq_one_iff.mp h
    simp [ha]
  have hD : ∀ n, D n ['p'] 0 = -3 / Real.sqrt 6 := by
    intro n
    have := h1 n ['p'] (by simp) 0 (by simp)
    simp only [exNoMomentum] at this
    rw [this, hg _ n (hl n)]
    norm_num
  have hD0 : D' 0 ['p'] 0 = -3 / Real.sqrt 6 := by
    have := h1' 0 ['p'] (by simp) 0 (by simp)
    simp only [exNoMomentum] at this
    rw [this, hg _ 0 (hl' 0), decayingMean_succ, decayingMean_zero]
    simp only [hg _ 0 (hl' 0)]
    norm_num
  have hD1 : D' 1 ['p'] 0 = -3 / Real.sqrt 8 := by
    have := h1' 1 ['p'] (by simp) 0 (by simp)
    simp only [exNoMomentum] at this
    rw [this, hg _ 1 (hl' 1), decayingMean_succ, decayingMean_succ, decayingMean_zero]
    simp only [hg _ 0 (hl' 0), hg _ 1 (hl' 1)]
    norm_num
  have e1 := (h6 1).2.2
  have e0 := (h6 0).2.2
  have e1' := (h6' 1).2
  have e0' := (h6' 0).2
  have hm : exNoMomentum.momentum = 0 := rfl
  rw [hm, hD] at e1 e0
  rw [hD1] at e1'
  rw [hD0] at e0'
  simp only [zero_add, zero_mul, add_zero, one_mul, Nat.reduceAdd] at e0 e1 e0' e1'
  rw [e0, h4] at e1
  rw [e0', h4'] at e1'
  have heq : paramAt run 2 ['p'] 0 = paramAt run' 2 ['p'] 0 := by
    unfold paramAt
    rw [he]
  rw [e1, e1'] at heq
  have h7 : -3 / Real.sqrt 6 = -3 / Real.sqrt 8 := add_left_cancel heq
  have h6p : Real.sqrt 6 ≠ 0 := (Real.sqrt_pos.mpr (by norm_num)).ne'
  have h8p : Real.sqrt 8 ≠ 0 := (Real.sqrt_pos.mpr (by norm_num)).ne'
  rw [div_eq_div_iff h6p h8p] at h7
  have h8 : Real.sqrt 8 = Real.sqrt 6 := mul_left_cancel₀ (by norm_num) h7
  rw [Real.sqrt_inj (by norm_num) (by norm_num)] at h8
  norm_num at h8

end TheanoLM
