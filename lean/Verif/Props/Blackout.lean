import Verif.Props.BlackoutSpec
import Verif.Props.NoiseContrastive
/-!
# What BlackOut estimates: C132
-/
namespace TheanoLM

section
variable {u : ℝ → Bool} {epsilon : ℝ}

/-- The cost is a number when no logarithm is taken of zero. -/
theorem blackout_eq (target : NoiseClass ℝ) (sample : List (NoiseClass ℝ)) (h : ∀ c ∈ target :: sample, 0 < c.prior)
    (h1 : 0 < share (target :: sample) target + epsilon) (h2 : ∀ c ∈ sample, 0 < 1 - share (target :: sample) c + epsilon) :
    blackoutLogprob (realFun u) epsilon target sample =
      .fin (Real.log (share (target :: sample) target + epsilon) +
        (sample.map fun c => Real.log (1 - share (target :: sample) c + epsilon)).sum) := by
  unfold blackoutLogprob
  simp only
  have hD := shares_pos (List.cons_ne_nil _ _) h
  have hsum : (weightedProb (realFun u) target).add (Flt.sum (sample.map (weightedProb (realFun u)))) =
      .fin ((target :: sample).map fun d => Real.exp d.logprob / d.prior).sum := by
    have : sample.map (weightedProb (realFun u)) = (sample.map fun d => Real.exp d.logprob / d.prior).map Flt.fin := by
      rw [List.map_map]
      apply List.map_congr_left
      intro c hc
      exact weightedProb_fin (h c (List.mem_cons_of_mem _ hc))
    rw [this, sum_fin, weightedProb_fin (h target (by simp))]
    rfl
  rw [hsum]
  have hdiv : ∀ c ∈ target :: sample, (weightedProb (realFun u) c).div
      (.fin ((target :: sample).map fun d => Real.exp d.logprob / d.prior).sum) = .fin (share (target :: sample) c) := by
    intro c hc
    rw [weightedProb_fin (h c hc)]
    show (if _ = (0 : ℝ) then _ else _) = _
    rw [if_neg hD.ne']
    rfl
  have hs : (List.map (fun c => Flt.log (realFun u) (c.add (.fin epsilon))) (sample.map fun c => (Flt.fin 1).sub
      ((weightedProb (realFun u) c).div (.fin ((target :: sample).map fun d => Real.exp d.logprob / d.prior).sum)))) =
      (sample.map fun c => Real.log (1 - share (target :: sample) c + epsilon)).map Flt.fin := by
    rw [List.map_map, List.map_map]
    apply List.map_congr_left
    intro c hc
    show Flt.log _ (((Flt.fin 1).sub _).add _) = Flt.fin _
    rw [hdiv c (List.mem_cons_of_mem _ hc)]
    have hle := h2 c hc
    show Flt.log _ (.fin (1 + -share (target :: sample) c + epsilon)) = _
    rw [log_pos (by linarith), ← sub_eq_add_neg]
  rw [hs, sum_fin, hdiv target (by simp)]
  show (Flt.log _ (.fin (share (target :: sample) target + epsilon))).add _ = _
  rw [log_pos h1]
  rfl

/-- The share of the class in position `l`, when the weights of the classes are `w`. -/
noncomputable def tupleShare {n m : Nat} (w : Fin n → ℝ) (X : Fin m → Fin n) (l : Fin m) : ℝ := w (X l) / ∑ i, w (X i)

theorem tupleShare_pos {n m : Nat} {w : Fin n → ℝ} (hw : ∀ c, 0 < w c) (X : Fin m → Fin n) (l : Fin m) : 0 < tupleShare w X l :=
  div_pos (hw _) (Finset.sum_pos (fun _ _ => hw _) ⟨l, Finset.mem_univ _⟩)

theorem tupleShare_lt {n k : Nat} {w : Fin n → ℝ} (hw : ∀ c, 0 < w c) (hk : 0 < k) (X : Fin (k + 1) → Fin n) (l : Fin (k + 1)) :
    tupleShare w X l < 1 := by
  unfold tupleShare
  rw [div_lt_one (Finset.sum_pos (fun i _ => hw _) ⟨l, Finset.mem_univ _⟩)]
  obtain ⟨j, hj⟩ : ∃ j : Fin (k + 1), j ≠ l := by
    have : Nontrivial (Fin (k + 1)) := Fin.nontrivial_iff_two_le.mpr (by omega)
    exact exists_ne l
  exact Finset.single_lt_sum hj (Finset.mem_univ _) (Finset.mem_univ _) (hw _) (fun i _ _ => (hw _).le)

/-- The log probability when the target is in position `m`. -/
noncomputable def tupleLog {n k : Nat} (epsilon : ℝ) (w : Fin n → ℝ) (X : Fin (k + 1) → Fin n) (m : Fin (k + 1)) : ℝ :=
  Real.log (tupleShare w X m + epsilon) + (∑ l, Real.log (1 - tupleShare w X l + epsilon) - Real.log (1 - tupleShare w X m + epsilon))

theorem share_ofFn {n k : Nat} (q s : Fin n → ℝ) (c : Fin n) (x : Fin k → Fin n) (l : Fin (k + 1)) :
    share (⟨q c, s c⟩ :: List.ofFn fun i => ⟨q (x i), s (x i)⟩)
      ⟨q ((Fin.cons c x : Fin (k + 1) → Fin n) l), s ((Fin.cons c x : Fin (k + 1) → Fin n) l)⟩ =
      tupleShare (fun d => Real.exp (s d) / q d) (Fin.cons c x : Fin (k + 1) → Fin n) l := by
  unfold share tupleShare
  congr 1
  rw [Fin.sum_univ_succ, List.map_cons, List.sum_cons, List.map_ofFn, List.sum_ofFn]
  simp

theorem blackout_tuple {n k : Nat} (he : 0 ≤ epsilon) (hk : 0 < k) {q s : Fin n → ℝ} (hq : ∀ c, 0 < q c) (c : Fin n)
    (x : Fin k → Fin n) : blackoutLogprob (realFun u) epsilon ⟨q c, s c⟩ (List.ofFn fun i => ⟨q (x i), s (x i)⟩) =
      .fin (tupleLog epsilon (fun d => Real.exp (s d) / q d) (Fin.cons c x : Fin (k + 1) → Fin n) 0) := by
  have hw : ∀ d, 0 < Real.exp (s d) / q d := fun d => div_pos (Real.exp_pos _) (hq d)
  have h0 := share_ofFn q s c x 0
  have hS := fun i : Fin k => share_ofFn q s c x i.succ
  simp only [Fin.cons_zero, Fin.cons_succ] at h0 hS
  rw [blackout_eq]
  · congr 1
    unfold tupleLog
    rw [h0, Fin.sum_univ_succ (f := fun l => Real.log (1 - tupleShare _ _ l + epsilon)), add_sub_cancel_left, List.map_ofFn, List.sum_ofFn]
    congr 1
    refine Finset.sum_congr rfl fun i _ => ?_
    simp only [Function.comp]
    rw [hS]
  · intro d hd
    rcases List.mem_cons.mp hd with rfl | hd
    · exact hq c
    · obtain ⟨i, rfl⟩ := (List.mem_ofFn' _ _).mp hd
      exact hq _
  · rw [h0]
    have := tupleShare_pos hw (Fin.cons c x : Fin (k + 1) → Fin n) 0
    linarith
  · intro d hd
    obtain ⟨i, rfl⟩ := (List.mem_ofFn' _ _).mp hd
    dsimp only
    rw [hS]
    have := tupleShare_lt hw hk (Fin.cons c x : Fin (k + 1) → Fin n) i.succ
    linarith

/-- The target and the noise sample together. -/
theorem sum_tuples {n k : Nat} {p q : Fin n → ℝ} (hq : ∀ c, 0 < q c) (F : (Fin (k + 1) → Fin n) → ℝ) :
    ∑ c, p c * ∑ x : Fin k → Fin n, (∏ i, q (x i)) * -F (Fin.cons c x) =
      -∑ X : Fin (k + 1) → Fin n, (∏ i, q (X i)) * (p (X 0) / q (X 0) * F X) := by
  rw [← Equiv.sum_comp (Fin.consEquiv fun _ : Fin (k + 1) => Fin n), Fintype.sum_prod_type, ← Finset.sum_neg_distrib]
  refine Finset.sum_congr rfl fun c _ => ?_
  rw [Finset.mul_sum, ← Finset.sum_neg_distrib]
  refine Finset.sum_congr rfl fun x _ => ?_
  have := hq c
  simp only [Fin.consEquiv_apply, Fin.prod_univ_succ, Fin.cons_zero, Fin.cons_succ]
  field_simp
  rfl

/-- The position of the target makes no difference. -/
theorem tuple_symm {n k : Nat} (q r w : Fin n → ℝ) (m : Fin (k + 1)) :
    ∑ X : Fin (k + 1) → Fin n, (∏ i, q (X i)) * (r (X 0) * tupleLog epsilon w X 0) =
      ∑ X : Fin (k + 1) → Fin n, (∏ i, q (X i)) * (r (X m) * tupleLog epsilon w X m) := by
  rw [← Equiv.sum_comp (Equiv.arrowCongr (Equiv.swap 0 m) (Equiv.refl (Fin n)))]
  refine Finset.sum_congr rfl fun X _ => ?_
  have hX : ∀ l, (Equiv.arrowCongr (Equiv.swap 0 m) (Equiv.refl (Fin n))) X l = X (Equiv.swap 0 m l) := fun l => by
    simp [Equiv.arrowCongr]
  have hs : ∀ l, tupleShare w ((Equiv.arrowCongr (Equiv.swap 0 m) (Equiv.refl (Fin n))) X) l = tupleShare w X (Equiv.swap 0 m l) := by
    intro l
    unfold tupleShare
    simp only [hX]
    rw [Equiv.sum_comp (Equiv.swap 0 m) fun i => w (X i)]
  unfold tupleLog
  simp only [hs, hX]
  rw [Equiv.prod_comp (Equiv.swap 0 m) fun i => q (X i),
    Equiv.sum_comp (Equiv.swap 0 m) fun l => Real.log (1 - tupleShare w X l + epsilon), Equiv.swap_apply_left]

/-- What one tuple adds to the expected log probability. -/
noncomputable def tupleGain {n k : Nat} (epsilon : ℝ) (r w : Fin n → ℝ) (X : Fin (k + 1) → Fin n) : ℝ :=
  ∑ m, (r (X m) * Real.log (tupleShare w X m + epsilon) + (∑ l, r (X l) - r (X m)) * Real.log (1 - tupleShare w X m + epsilon))

theorem tuple_gain {n k : Nat} (r w : Fin n → ℝ) (X : Fin (k + 1) → Fin n) :
    ∑ m, r (X m) * tupleLog epsilon w X m = tupleGain epsilon r w X := by
  unfold tupleGain tupleLog
  have h : ∀ m, r (X m) * (Real.log (tupleShare w X m + epsilon) +
      (∑ l, Real.log (1 - tupleShare w X l + epsilon) - Real.log (1 - tupleShare w X m + epsilon))) =
      (r (X m) * Real.log (tupleShare w X m + epsilon) - r (X m) * Real.log (1 - tupleShare w X m + epsilon)) +
        r (X m) * ∑ l, Real.log (1 - tupleShare w X l + epsilon) := fun m => by ring
  have h' : ∀ m, r (X m) * Real.log (tupleShare w X m + epsilon) + (∑ l, r (X l) - r (X m)) * Real.log (1 - tupleShare w X m + epsilon) =
      (r (X m) * Real.log (tupleShare w X m + epsilon) - r (X m) * Real.log (1 - tupleShare w X m + epsilon)) +
        (∑ l, r (X l)) * Real.log (1 - tupleShare w X m + epsilon) := fun m => by ring
  simp_rw [h, h']
  rw [Finset.sum_add_distrib, Finset.sum_add_distrib, ← Finset.sum_mul, ← Finset.mul_sum]

theorem expectedBlackout_iff {n k : Nat} (he : 0 ≤ epsilon) (hk : 0 < k) {p q : Fin n → ℝ} (hq : ∀ c, 0 < q c) (s : Fin n → ℝ) (e : ℝ) :
    ExpectedBlackoutCost u epsilon n k p q s e ↔ (k + 1) * e =
      -∑ X : Fin (k + 1) → Fin n, (∏ i, q (X i)) * tupleGain epsilon (fun c => p c / q c) (fun d => Real.exp (s d) / q d) X := by
  have hkey : ∀ e : ℝ, e = ∑ c, p c * ∑ x : Fin k → Fin n, (∏ i, q (x i)) *
      -tupleLog epsilon (fun d => Real.exp (s d) / q d) (Fin.cons c x : Fin (k + 1) → Fin n) 0 ↔ (k + 1) * e =
      -∑ X : Fin (k + 1) → Fin n, (∏ i, q (X i)) * tupleGain epsilon (fun c => p c / q c) (fun d => Real.exp (s d) / q d) X := by
    intro e
    rw [sum_tuples hq fun X => tupleLog epsilon (fun d => Real.exp (s d) / q d) X 0]
    have hsum : ∑ X : Fin (k + 1) → Fin n, (∏ i, q (X i)) * tupleGain epsilon (fun c => p c / q c) (fun d => Real.exp (s d) / q d) X =
        (k + 1) * ∑ X : Fin (k + 1) → Fin n, (∏ i, q (X i)) *
          (p (X 0) / q (X 0) * tupleLog epsilon (fun d => Real.exp (s d) / q d) X 0) := by
      have h1 : ∀ X : Fin (k + 1) → Fin n, (∏ i, q (X i)) * tupleGain epsilon (fun c => p c / q c) (fun d => Real.exp (s d) / q d) X =
          ∑ m, (∏ i, q (X i)) * (p (X m) / q (X m) * tupleLog epsilon (fun d => Real.exp (s d) / q d) X m) := fun X => by
        rw [← tuple_gain, Finset.mul_sum]
      simp_rw [h1]
      rw [Finset.sum_comm, Finset.sum_congr rfl fun m _ =>
        (tuple_symm (epsilon := epsilon) q (fun c => p c / q c) (fun d => Real.exp (s d) / q d) m).symm]
      rw [Finset.sum_const, Finset.card_univ, Fintype.card_fin, nsmul_eq_mul]
      push_cast
      rfl
    rw [hsum]
    have : (0 : ℝ) < k + 1 := by positivity
    constructor
    · rintro rfl; ring
    · intro h
      have := mul_left_cancel₀ this.ne' (h.trans (neg_mul_eq_mul_neg _ _))
      exact this
  rw [← hkey]
  constructor
  · rintro ⟨J, h1, rfl⟩
    refine Finset.sum_congr rfl fun c _ => ?_
    congr 1
    refine Finset.sum_congr rfl fun x _ => ?_
    have := h1 c x
    rw [blackout_tuple he hk hq c x] at this
    rw [Flt.fin.inj this]
  · intro h
    exact ⟨_, fun c x => blackout_tuple he hk hq c x, h⟩

/-- Shares that are proportional to `r` have the largest gain. -/
theorem tupleGain_le {n k : Nat} (hk : 0 < k) {r w : Fin n → ℝ} (hr : ∀ c, 0 < r c) (hw : ∀ c, 0 < w c) (X : Fin (k + 1) → Fin n) :
    tupleGain 0 r w X ≤ tupleGain 0 r r X ∧ (tupleGain 0 r w X = tupleGain 0 r r X → ∀ m, tupleShare w X m = tupleShare r X m) := by
  have hR : ∀ m, 0 < ∑ l, r (X l) - r (X m) := by
    intro m
    have h1 := tupleShare_lt hr hk X m
    unfold tupleShare at h1
    rw [div_lt_one (Finset.sum_pos (fun _ _ => hr _) ⟨m, Finset.mem_univ _⟩)] at h1
    linarith
  have key : ∀ m, _ ∧ _ := fun m => binary_entropy_le (hr (X m)) (hR m) (tupleShare_pos hw X m) (tupleShare_lt hw hk X m)
  have e1 : ∀ m, r (X m) / (r (X m) + (∑ l, r (X l) - r (X m))) = tupleShare r X m := fun m => by
    unfold tupleShare
    rw [add_sub_cancel]
  have e2 : ∀ m, (∑ l, r (X l) - r (X m)) / (r (X m) + (∑ l, r (X l) - r (X m))) = 1 - tupleShare r X m := fun m => by
    unfold tupleShare
    have := Finset.sum_pos (s := Finset.univ) (f := fun l => r (X l)) (fun _ _ => hr _) ⟨m, Finset.mem_univ _⟩
    rw [add_sub_cancel, sub_div, div_self this.ne']
  simp only [e1, e2] at key
  unfold tupleGain
  simp only [add_zero]
  refine ⟨Finset.sum_le_sum fun m _ => (key m).1, fun heq m => ?_⟩
  exact (key m).2 ((Finset.sum_eq_sum_iff_of_le fun m _ => (key m).1).mp heq m (Finset.mem_univ m))

/-- C132 (partial: without the numerical stability term, see `C132_violated`).  If the noise classes are sampled independently from the
distribution that the cost function uses, the expected cost is always a number, and the networks that minimize it are exactly those whose
outputs are the true probabilities of the classes, even though the cost does not normalize them. -/
theorem C132_partial {n k : Nat} (hk : 0 < k) {p q : Fin n → ℝ} (hp : ∀ c, 0 < p c) (hp1 : ∑ c, p c = 1) (hq : ∀ c, 0 < q c)
    (s : Fin n → ℝ) : (∃ e, ExpectedBlackoutCost u 0 n k p q s e) ∧
      (MinimizesBlackout u 0 n k p q s ↔ ∀ c, softmaxOf s c = p c) := by
  have hk1 : (0 : ℝ) < k + 1 := by positivity
  have hr : ∀ c, 0 < p c / q c := fun c => div_pos (hp c) (hq c)
  have hw : ∀ (s : Fin n → ℝ) c, 0 < Real.exp (s c) / q c := fun s c => div_pos (Real.exp_pos _) (hq c)
  have hQ : ∀ X : Fin (k + 1) → Fin n, 0 < ∏ i, q (X i) := fun X => Finset.prod_pos fun i _ => hq _
  have hex : ∀ s, ∃ e, ExpectedBlackoutCost u 0 n k p q s e := fun s =>
    ⟨_, (expectedBlackout_iff le_rfl hk hq s _).mpr (mul_div_cancel₀ _ hk1.ne')⟩
  have hbest : ∀ s : Fin n → ℝ, ∑ X : Fin (k + 1) → Fin n, (∏ i, q (X i)) * tupleGain 0 (fun c => p c / q c) (fun d => Real.exp (s d) / q d) X ≤
      ∑ X : Fin (k + 1) → Fin n, (∏ i, q (X i)) * tupleGain 0 (fun c => p c / q c) (fun c => p c / q c) X := fun s =>
    Finset.sum_le_sum fun X _ => mul_le_mul_of_nonneg_left (tupleGain_le hk hr (hw s) X).1 (hQ X).le
  refine ⟨hex s, ?_, ?_⟩
  · rintro ⟨e, h1, h2⟩
    obtain ⟨e', h'⟩ := hex fun c => Real.log (p c)
    have hle := h2 _ _ h'
    rw [expectedBlackout_iff le_rfl hk hq] at h1 h'
    have hlog : (fun d => Real.exp (Real.log (p d)) / q d) = fun c => p c / q c := by
      funext d
      rw [Real.exp_log (hp d)]
    rw [hlog] at h'
    have heq := le_antisymm (hbest s) (by
      have := mul_le_mul_of_nonneg_left hle hk1.le
      rw [h1, h'] at this
      linarith)
    have hall := (Finset.sum_eq_sum_iff_of_le fun X _ =>
      mul_le_mul_of_nonneg_left (tupleGain_le hk hr (hw s) X).1 (hQ X).le).mp heq
    have hprop : ∀ c d, Real.exp (s c) * p d = p c * Real.exp (s d) := by
      intro c d
      let X : Fin (k + 1) → Fin n := Fin.cons c fun _ => d
      have hX := (tupleGain_le hk hr (hw s) X).2 (mul_left_cancel₀ (hQ X).ne' (hall X (Finset.mem_univ _))) 0
      unfold tupleShare at hX
      simp only [X, Fin.sum_univ_succ, Fin.cons_zero, Fin.cons_succ, Finset.sum_const, Finset.card_univ, Fintype.card_fin,
        nsmul_eq_mul] at hX
      have hk' : (0 : ℝ) < k := Nat.cast_pos.mpr hk
      have a1 := hw s c
      have a2 := hw s d
      have a3 := hr c
      have a4 := hr d
      rw [div_eq_div_iff (by positivity) (by positivity)] at hX
      have h3 : k * (Real.exp (s c) / q c * (p d / q d)) = k * (p c / q c * (Real.exp (s d) / q d)) := by linarith
      have h4 := mul_left_cancel₀ hk'.ne' h3
      have a5 := hq c
      have a6 := hq d
      field_simp at h4
      linarith
    intro c
    have hsum : ∑ d, Real.exp (s c) * p d = ∑ d, p c * Real.exp (s d) := Finset.sum_congr rfl fun d _ => hprop c d
    rw [← Finset.mul_sum, ← Finset.mul_sum, hp1, mul_one] at hsum
    unfold softmaxOf
    rw [div_eq_iff (Finset.sum_pos (fun _ _ => Real.exp_pos _) ⟨c, Finset.mem_univ _⟩).ne']
    exact hsum
  · intro h
    obtain ⟨e, h1⟩ := hex s
    refine ⟨e, h1, fun s' e' h' => ?_⟩
    rw [expectedBlackout_iff le_rfl hk hq] at h1 h'
    have hgain : ∀ X : Fin (k + 1) → Fin n, tupleGain 0 (fun c => p c / q c) (fun d => Real.exp (s d) / q d) X =
        tupleGain 0 (fun c => p c / q c) (fun c => p c / q c) X := by
      intro X
      have hZ : 0 < ∑ d, Real.exp (s d) := Finset.sum_pos (fun _ _ => Real.exp_pos _) ⟨X 0, Finset.mem_univ _⟩
      have hexp : ∀ c, Real.exp (s c) / q c = (∑ d, Real.exp (s d)) * (p c / q c) := fun c => by
        rw [← h c, softmaxOf]
        field_simp
      have hsh : ∀ m, tupleShare (fun d => Real.exp (s d) / q d) X m = tupleShare (fun c => p c / q c) X m := fun m => by
        unfold tupleShare
        simp only [hexp]
        rw [← Finset.mul_sum, mul_div_mul_left _ _ hZ.ne']
      unfold tupleGain
      simp only [hsh]
    simp only [hgain] at h1
    have := hbest s'
    refine le_of_mul_le_mul_left ?_ hk1
    rw [h1, h']
    linarith

end

/-! ## Examples -/

/-- The hypotheses of `C132_partial` are met with three noise classes. -/
example (u : ℝ → Bool) : ∃ s : Fin 2 → ℝ, MinimizesBlackout u 0 2 3 ![1 / 4, 3 / 4] ![1 / 2, 1 / 2] s ∧ softmaxOf s 0 = 1 / 4 := by
  have hp : ∀ c, (0 : ℝ) < ![1 / 4, 3 / 4] c := fun c => by fin_cases c <;> norm_num
  have hq : ∀ c, (0 : ℝ) < ![1 / 2, 1 / 2] c := fun c => by fin_cases c <;> norm_num
  have hp1 : ∑ c, (![1 / 4, 3 / 4] : Fin 2 → ℝ) c = 1 := by norm_num [Fin.sum_univ_two]
  have hs : ∀ c, softmaxOf (fun c => Real.log ((![1 / 4, 3 / 4] : Fin 2 → ℝ) c)) c = (![1 / 4, 3 / 4] : Fin 2 → ℝ) c := by
    intro c
    unfold softmaxOf
    simp only [Real.exp_log (hp _)]
    rw [hp1, div_one]
  exact ⟨_, (C132_partial (by norm_num) hp hp1 hq _).2.mpr hs, hs 0⟩

theorem exBlackout_iff {u : ℝ → Bool} {epsilon : ℝ} (he : 0 < epsilon) : ∃ C : ℝ, ∀ (s : Fin 2 → ℝ) (e : ℝ),
    ExpectedBlackoutCost u epsilon 2 1 ![2 / 3, 1 / 3] ![1 / 2, 1 / 2] s e ↔
      e = C - (2 / 3 * Real.log (softmaxOf s 0 + epsilon) + 1 / 3 * Real.log (1 - softmaxOf s 0 + epsilon)) := by
  have hq : ∀ c, (0 : ℝ) < ![1 / 2, 1 / 2] c := fun c => by fin_cases c <;> norm_num
  refine ⟨-Real.log (1 / 2 + epsilon), fun s e => ?_⟩
  rw [expectedBlackout_iff he.le one_pos hq, ← (finTwoArrowEquiv (Fin 2)).symm.sum_comp, Fintype.sum_prod_type]
  have h0 := Real.exp_pos (s 0)
  have h1 := Real.exp_pos (s 1)
  have e0 : Real.exp (s 0) * 2 / (Real.exp (s 0) * 2 + Real.exp (s 1) * 2) = softmaxOf s 0 := by
    unfold softmaxOf
    rw [Fin.sum_univ_two]
    field_simp
  have e1 : Real.exp (s 1) * 2 / (Real.exp (s 0) * 2 + Real.exp (s 1) * 2) = 1 - softmaxOf s 0 := by
    rw [← e0]
    field_simp
    ring
  have e0' : Real.exp (s 0) * 2 / (Real.exp (s 1) * 2 + Real.exp (s 0) * 2) = softmaxOf s 0 := by rw [add_comm, e0]
  have e1' : Real.exp (s 1) * 2 / (Real.exp (s 1) * 2 + Real.exp (s 0) * 2) = 1 - softmaxOf s 0 := by rw [add_comm, e1]
  have d0 : Real.exp (s 0) * 2 / (Real.exp (s 0) * 2 + Real.exp (s 0) * 2) = 1 / 2 := by
    field_simp
    norm_num
  have d1 : Real.exp (s 1) * 2 / (Real.exp (s 1) * 2 + Real.exp (s 1) * 2) = 1 / 2 := by
    field_simp
    norm_num
  simp only [tupleGain, tupleShare, Fin.sum_univ_two, Fin.prod_univ_two, finTwoArrowEquiv_symm_apply, Matrix.cons_val_zero,
    Matrix.cons_val_one, div_div_eq_mul_div, div_one, e0, e1, e0', e1', d0, d1, Nat.reduceAdd]
  rw [show (1 : ℝ) - 1 / 2 = 1 / 2 by norm_num, sub_sub_cancel]
  push_cast
  constructor
  · intro h; linarith
  · rintro rfl; ring

/-- C132 is violated with a positive numerical stability term: the network that minimizes the cost overestimates the probability of the
more frequent class. -/
theorem C132_violated (u : ℝ → Bool) (epsilon : ℝ) (he : 0 < epsilon) (he1 : epsilon < 1) :
    (∃ s, MinimizesBlackout u epsilon 2 1 ![2 / 3, 1 / 3] ![1 / 2, 1 / 2] s) ∧
    ∀ s, MinimizesBlackout u epsilon 2 1 ![2 / 3, 1 / 3] ![1 / 2, 1 / 2] s → softmaxOf s 0 = 2 / 3 + epsilon / 3 := by
  obtain ⟨C, hC⟩ := exBlackout_iff (u := u) he
  have hsm : ∀ s : Fin 2 → ℝ, 0 < softmaxOf s 0 ∧ softmaxOf s 0 < 1 := by
    intro s
    have h0 := Real.exp_pos (s 0)
    have h1 := Real.exp_pos (s 1)
    unfold softmaxOf
    rw [Fin.sum_univ_two]
    exact ⟨by positivity, by rw [div_lt_one (by positivity)]; linarith⟩
  have hopt : ∀ h : ℝ, 0 < h → h < 1 →
      2 / 3 * Real.log (h + epsilon) + 1 / 3 * Real.log (1 - h + epsilon) ≤
        2 / 3 * Real.log (2 / 3 + epsilon / 3 + epsilon) + 1 / 3 * Real.log (1 - (2 / 3 + epsilon / 3) + epsilon) ∧
      (2 / 3 * Real.log (h + epsilon) + 1 / 3 * Real.log (1 - h + epsilon) =
        2 / 3 * Real.log (2 / 3 + epsilon / 3 + epsilon) + 1 / 3 * Real.log (1 - (2 / 3 + epsilon / 3) + epsilon) →
          h = 2 / 3 + epsilon / 3) := by
    intro h hh0 hh1
    have hN : 0 < 1 + 2 * epsilon := by linarith
    obtain ⟨b1, b2⟩ := binary_entropy_le (a := 2 / 3) (b := 1 / 3) (h := (h + epsilon) / (1 + 2 * epsilon)) (by norm_num) (by norm_num)
      (by positivity) (by rw [div_lt_one hN]; linarith)
    have c1 : 1 - (h + epsilon) / (1 + 2 * epsilon) = (1 - h + epsilon) / (1 + 2 * epsilon) := by
      field_simp
      ring
    have c2 : 2 / 3 + epsilon / 3 + epsilon = 2 / 3 * (1 + 2 * epsilon) := by ring
    have c3 : 1 - (2 / 3 + epsilon / 3) + epsilon = 1 / 3 * (1 + 2 * epsilon) := by ring
    have d1 : (2 / 3 : ℝ) / (2 / 3 + 1 / 3) = 2 / 3 := by norm_num
    have d2 : (1 / 3 : ℝ) / (2 / 3 + 1 / 3) = 1 / 3 := by norm_num
    rw [c1, d1, d2, Real.log_div (by positivity) hN.ne', Real.log_div (by linarith) hN.ne'] at b1 b2
    rw [c2, c3, Real.log_mul (by norm_num) hN.ne', Real.log_mul (by norm_num) hN.ne']
    refine ⟨by linarith, fun heq => ?_⟩
    have := b2 (by linarith)
    rw [div_eq_iff hN.ne'] at this
    linarith
  have hex : ∃ s : Fin 2 → ℝ, softmaxOf s 0 = 2 / 3 + epsilon / 3 := by
    refine ⟨![Real.log (2 / 3 + epsilon / 3), Real.log (1 / 3 - epsilon / 3)], ?_⟩
    unfold softmaxOf
    rw [Fin.sum_univ_two]
    simp only [Matrix.cons_val_zero, Matrix.cons_val_one]
    rw [Real.exp_log (by linarith), Real.exp_log (by linarith)]
    rw [show (2 / 3 + epsilon / 3 + (1 / 3 - epsilon / 3)) = 1 by ring, div_one]
  obtain ⟨s0, hs0⟩ := hex
  refine ⟨⟨s0, _, (hC s0 _).mpr rfl, fun s' e' h' => ?_⟩, ?_⟩
  · rw [(hC s' e').mp h', hs0]
    have := (hopt _ (hsm s').1 (hsm s').2).1
    linarith
  · rintro s ⟨e, h1, h2⟩
    have h3 := h2 s0 _ ((hC s0 _).mpr rfl)
    rw [(hC s e).mp h1, hs0] at h3
    obtain ⟨b1, b2⟩ := hopt _ (hsm s).1 (hsm s).2
    exact b2 (by linarith)

end TheanoLM
