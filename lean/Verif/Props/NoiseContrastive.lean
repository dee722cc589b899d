import Verif.Props.NoiseContrastiveSpec
import Verif.Model.NoiseSampling
import Verif.Props.Cost
/-!
# What noise-contrastive estimation estimates: C117
-/
namespace TheanoLM

/-- The binary cross entropy has a unique minimum. -/
theorem binary_entropy_le {a b h : ℝ} (ha : 0 < a) (hb : 0 < b) (h0 : 0 < h) (h1 : h < 1) :
    a * Real.log h + b * Real.log (1 - h) ≤ a * Real.log (a / (a + b)) + b * Real.log (b / (a + b)) ∧
    (a * Real.log h + b * Real.log (1 - h) = a * Real.log (a / (a + b)) + b * Real.log (b / (a + b)) → h = a / (a + b)) := by
  have hab : 0 < a + b := by linarith
  have e1 : Real.log h = Real.log (h * (a + b) / a) + Real.log (a / (a + b)) := by
    rw [← Real.log_mul (by positivity) (by positivity)]
    congr 1
    field_simp
  have h1' : 0 < 1 - h := by linarith
  have e2 : Real.log (1 - h) = Real.log ((1 - h) * (a + b) / b) + Real.log (b / (a + b)) := by
    rw [← Real.log_mul (by positivity) (by positivity)]
    congr 1
    field_simp
  have l1 := Real.log_le_sub_one_of_pos (x := h * (a + b) / a) (by positivity)
  have l2 := Real.log_le_sub_one_of_pos (x := (1 - h) * (a + b) / b) (by positivity)
  have m1 : a * Real.log (h * (a + b) / a) ≤ h * (a + b) - a := by
    calc _ ≤ a * (h * (a + b) / a - 1) := by gcongr
      _ = _ := by field_simp
  have m2 : b * Real.log ((1 - h) * (a + b) / b) ≤ (1 - h) * (a + b) - b := by
    calc _ ≤ b * ((1 - h) * (a + b) / b - 1) := by gcongr
      _ = _ := by field_simp
  rw [e1, e2]
  refine ⟨by linarith, fun heq => ?_⟩
  by_contra hne
  have hne' : h * (a + b) / a ≠ 1 := by
    intro e
    apply hne
    field_simp at e
    field_simp
    exact e
  have l3 := Real.log_lt_sub_one_of_pos (x := h * (a + b) / a) (by positivity) hne'
  have m3 : a * Real.log (h * (a + b) / a) < h * (a + b) - a := by
    calc _ < a * (h * (a + b) / a - 1) := by gcongr
      _ = _ := by field_simp
  linarith

section
variable {u : ℝ → Bool} {epsilon : ℝ} {n k : Nat} {p q : Nat → ℝ} {outcomes : List (ℝ × List Nat)}

theorem notNoise_bounds {x y : ℝ} (hx : 0 < x) (hy : 0 < y) : 0 < notNoise x y ∧ notNoise x y < 1 := by
  unfold notNoise
  exact ⟨by positivity, by rw [div_lt_one (by positivity)]; linarith⟩

/-- The sum over a sample of classes is the sum over all classes, weighted by the numbers of occurrences. -/
theorem sum_count (f : Nat → ℝ) (l : List Nat) (h : ∀ c ∈ l, c < n) : (l.map f).sum = ∑ c ∈ Finset.range n, l.count c * f c := by
  induction l with
  | nil => simp
  | cons a l ih =>
    rw [List.map_cons, List.sum_cons, ih fun c hc => h c (List.mem_cons_of_mem _ hc)]
    have : ∑ c ∈ Finset.range n, ((a :: l).count c : ℝ) * f c = ∑ c ∈ Finset.range n, ((if a = c then f c else 0) + l.count c * f c) := by
      refine Finset.sum_congr rfl fun c _ => ?_
      rw [List.count_cons]
      by_cases hac : a = c
      · subst hac
        rw [if_pos rfl]
        simp
        ring
      · rw [if_neg hac]
        simp [hac]
    rw [this, Finset.sum_add_distrib, Finset.sum_ite_eq]
    rw [if_pos (Finset.mem_range.mpr (h a List.mem_cons_self))]

theorem sum_expectedCount (hd : NoiseDraw n k outcomes) (f : Nat → ℝ) :
    (outcomes.map fun o => o.1 * (o.2.map f).sum).sum = ∑ c ∈ Finset.range n, expectedCount outcomes c * f c := by
  have hc := hd.classes
  clear hd
  induction outcomes with
  | nil => simp [expectedCount]
  | cons o os ih =>
    rw [List.map_cons, List.sum_cons, ih fun o ho => hc o (List.mem_cons_of_mem _ ho),
      sum_count f o.2 (hc o List.mem_cons_self), Finset.mul_sum, ← Finset.sum_add_distrib]
    refine Finset.sum_congr rfl fun c _ => ?_
    unfold expectedCount
    rw [List.map_cons, List.sum_cons]
    ring

/-- The part of the expected cost that is due to one class. -/
noncomputable def classCost (epsilon : ℝ) (p q π s : Nat → ℝ) (c : Nat) : ℝ :=
  -(p c * Real.log (notNoise (Real.exp (s c)) (q c + epsilon)) + π c * Real.log (1 - notNoise (Real.exp (s c)) (q c + epsilon)))

theorem expectedNceCost_iff (hd : NoiseDraw n k outcomes) (hp1 : ∑ c ∈ Finset.range n, p c = 1) (hq : ∀ c < n, 0 < q c + epsilon)
    (s : Nat → ℝ) (e : ℝ) : ExpectedNceCost u epsilon n p q outcomes s e ↔
      e = ∑ c ∈ Finset.range n, classCost epsilon p q (expectedCount outcomes) s c := by
  have hL : ∀ c < n, ∀ o ∈ outcomes, nceLogprob (realFun u) epsilon ⟨q c, s c⟩ (o.2.map fun d => ⟨q d, s d⟩) =
      .fin (Real.log (notNoise (Real.exp (s c)) (q c + epsilon)) +
        (o.2.map fun d => Real.log (1 - notNoise (Real.exp (s d)) (q d + epsilon))).sum) := by
    intro c hc o ho
    rw [C78_nce, List.map_map]
    · rfl
    · intro d hd'
      rcases List.mem_cons.mp hd' with rfl | hd'
      · exact hq c hc
      · obtain ⟨x, hx, rfl⟩ := List.mem_map.mp hd'
        exact hq x (hd.classes o ho x hx)
  have key : ∑ c ∈ Finset.range n, p c * (outcomes.map fun o => o.1 * -(Real.log (notNoise (Real.exp (s c)) (q c + epsilon)) +
        (o.2.map fun d => Real.log (1 - notNoise (Real.exp (s d)) (q d + epsilon))).sum)).sum =
      ∑ c ∈ Finset.range n, classCost epsilon p q (expectedCount outcomes) s c := by
    have h1 : ∀ c, (outcomes.map fun o => o.1 * -(Real.log (notNoise (Real.exp (s c)) (q c + epsilon)) +
        (o.2.map fun d => Real.log (1 - notNoise (Real.exp (s d)) (q d + epsilon))).sum)).sum =
        -Real.log (notNoise (Real.exp (s c)) (q c + epsilon)) +
          -∑ d ∈ Finset.range n, expectedCount outcomes d * Real.log (1 - notNoise (Real.exp (s d)) (q d + epsilon)) := by
      intro c
      rw [← sum_expectedCount hd]
      have : ∀ (a : ℝ) (g : List Nat → ℝ) (os : List (ℝ × List Nat)), (os.map fun o => o.1 * -(a + g o.2)).sum =
          -(a * (os.map Prod.fst).sum) + -(os.map fun o => o.1 * g o.2).sum := by
        intro a g os
        induction os with
        | nil => simp
        | cons o os ih => simp only [List.map_cons, List.sum_cons, ih]; ring
      rw [this _ (fun l => (l.map fun d => Real.log (1 - notNoise (Real.exp (s d)) (q d + epsilon))).sum), hd.total, mul_one]
    simp_rw [h1, mul_add]
    rw [Finset.sum_add_distrib, ← Finset.sum_mul, hp1, one_mul, ← Finset.sum_neg_distrib, ← Finset.sum_add_distrib]
    refine Finset.sum_congr rfl fun c _ => ?_
    unfold classCost
    ring
  constructor
  · rintro ⟨L, h1, rfl⟩
    rw [← key]
    refine Finset.sum_congr rfl fun c hc => ?_
    congr 1
    congr 1
    refine List.map_congr_left fun o ho => ?_
    have := h1 c (Finset.mem_range.mp hc) o ho
    rw [hL c (Finset.mem_range.mp hc) o ho] at this
    rw [Flt.fin.inj this]
  · intro he
    exact ⟨fun c l => Real.log (notNoise (Real.exp (s c)) (q c + epsilon)) +
      (l.map fun d => Real.log (1 - notNoise (Real.exp (s d)) (q d + epsilon))).sum, hL, by rw [he, ← key]⟩

/-- The unnormalized log probabilities that have the smallest expected cost. -/
noncomputable def nceOptimum (epsilon : ℝ) (p q : Nat → ℝ) (outcomes : List (ℝ × List Nat)) (c : Nat) : ℝ :=
  Real.log (p c * (q c + epsilon) / expectedCount outcomes c)

theorem classCost_le (hp : 0 < p n) (hq : 0 < q n + epsilon) {π s s' : Nat → ℝ} (hπ : 0 < π n)
    (hs' : s' n = Real.log (p n * (q n + epsilon) / π n)) :
    classCost epsilon p q π s' n ≤ classCost epsilon p q π s n ∧
    (classCost epsilon p q π s n = classCost epsilon p q π s' n → s n = s' n) := by
  obtain ⟨b1, b2⟩ := notNoise_bounds (Real.exp_pos (s n)) hq
  obtain ⟨h1, h2⟩ := binary_entropy_le hp hπ b1 b2
  have e : notNoise (Real.exp (s' n)) (q n + epsilon) = p n / (p n + π n) := by
    rw [hs', Real.exp_log (by positivity), notNoise]
    field_simp
  have e' : 1 - p n / (p n + π n) = π n / (p n + π n) := by
    field_simp
    ring
  unfold classCost
  rw [e, e']
  refine ⟨by linarith, fun heq => ?_⟩
  have h3 := h2 (by linarith)
  rw [← Real.exp_eq_exp, hs', Real.exp_log (by positivity)]
  have hx := Real.exp_pos (s n)
  unfold notNoise at h3
  field_simp at h3 ⊢
  linarith

/-- C117, what is estimated.  The expected cost is always a number, and only one choice of the unnormalized log probabilities has the
smallest expected cost: a class gets the unnormalized probability `p * (q + epsilon) / m`, where `p` is its true probability, `q` its
probability in the noise distribution, and `m` the expected number of its occurrences in a noise sample. -/
theorem C117_optimum (hd : NoiseDraw n k outcomes) (hp : ∀ c < n, 0 < p c) (hp1 : ∑ c ∈ Finset.range n, p c = 1)
    (hq : ∀ c < n, 0 < q c + epsilon) (hm : ∀ c < n, 0 < expectedCount outcomes c) (s : Nat → ℝ) :
    (∃ e, ExpectedNceCost u epsilon n p q outcomes s e) ∧
    (MinimizesNce u epsilon n p q outcomes s ↔ ∀ c < n, Real.exp (s c) = p c * (q c + epsilon) / expectedCount outcomes c) := by
  have hbest : ∀ s, ∑ c ∈ Finset.range n, classCost epsilon p q (expectedCount outcomes) (nceOptimum epsilon p q outcomes) c ≤
      ∑ c ∈ Finset.range n, classCost epsilon p q (expectedCount outcomes) s c := fun s =>
    Finset.sum_le_sum fun c hc => (classCost_le (hp c (Finset.mem_range.mp hc)) (hq c (Finset.mem_range.mp hc))
      (hm c (Finset.mem_range.mp hc)) rfl).1
  refine ⟨⟨_, (expectedNceCost_iff hd hp1 hq s _).mpr rfl⟩, ?_⟩
  constructor
  · rintro ⟨e, h1, h2⟩
    have he := (expectedNceCost_iff hd hp1 hq s e).mp h1
    have h3 := h2 (nceOptimum epsilon p q outcomes) _ ((expectedNceCost_iff hd hp1 hq _ _).mpr rfl)
    have heq := le_antisymm (he ▸ h3) (hbest s)
    have hall := (Finset.sum_eq_sum_iff_of_le fun c hc => (classCost_le (s := s) (hp c (Finset.mem_range.mp hc))
      (hq c (Finset.mem_range.mp hc)) (hm c (Finset.mem_range.mp hc)) (s' := nceOptimum epsilon p q outcomes) rfl).1).mp heq.symm
    intro c hc
    have := (classCost_le (s := s) (hp c hc) (hq c hc) (hm c hc) (s' := nceOptimum epsilon p q outcomes) rfl).2
      (hall c (Finset.mem_range.mpr hc)).symm
    have h4 := hp c hc
    have h5 := hq c hc
    have h6 := hm c hc
    rw [this, nceOptimum, Real.exp_log (by positivity)]
  · intro h
    refine ⟨_, (expectedNceCost_iff hd hp1 hq s _).mpr rfl, fun s' e' h' => ?_⟩
    rw [(expectedNceCost_iff hd hp1 hq s' e').mp h']
    refine Finset.sum_le_sum fun c hc => (classCost_le (hp c (Finset.mem_range.mp hc)) (hq c (Finset.mem_range.mp hc))
      (hm c (Finset.mem_range.mp hc)) ?_).1
    rw [← h c (Finset.mem_range.mp hc), Real.log_exp]

/-- C117 (partial: the numerical stability term `epsilon` has to be zero, or the noise distribution uniform; see `C117_error` for the
effect of `epsilon`, and `C117_violated_replacement` for unigram noise).  If the noise samples have the distribution that the cost
function uses, a network that minimizes the expected cost gives exactly the true probabilities of the classes after normalization, even
though the cost does not normalize them. -/
theorem C117_partial (hd : NoiseDraw n k outcomes) (hk : 0 < k) (hp : ∀ c < n, 0 < p c) (hp1 : ∑ c ∈ Finset.range n, p c = 1)
    (he : 0 ≤ epsilon) (hq : ∀ c < n, 0 < q c) (hm : ∀ c < n, expectedCount outcomes c = k * q c)
    (hu : epsilon = 0 ∨ ∀ c < n, ∀ d < n, q c = q d) (s : Nat → ℝ) (hs : MinimizesNce u epsilon n p q outcomes s) :
    ∀ c < n, predicted n s c = p c := by
  have hk' : (0 : ℝ) < k := Nat.cast_pos.mpr hk
  have hq' : ∀ c < n, 0 < q c + epsilon := fun c hc => by have := hq c hc; linarith
  have hs' := (C117_optimum (u := u) hd hp hp1 hq' (fun c hc => by rw [hm c hc]; have := hq c hc; positivity) s).2.mp hs
  intro c hc
  have hr : ∀ d < n, Real.exp (s d) = (q c + epsilon) / (k * q c) * p d := by
    intro d hd'
    rw [hs' d hd', hm d hd']
    have h1 := hq c hc
    have h2 := hq d hd'
    rcases hu with rfl | hu
    · field_simp
      ring
    · rw [hu d hd' c hc]
      ring
  unfold predicted
  rw [Finset.sum_congr rfl fun d hd' => hr d (Finset.mem_range.mp hd'), ← Finset.mul_sum, hp1, mul_one, hr c hc]
  have h1 := hq c hc
  have h2 := hq' c hc
  field_simp

/-- C117, uniform noise: whatever the number of samples and `epsilon` are. -/
theorem C117_uniform (hd : NoiseDraw n k outcomes) (hk : 0 < k) (hp : ∀ c < n, 0 < p c) (hp1 : ∑ c ∈ Finset.range n, p c = 1)
    (he : 0 ≤ epsilon) (hq : ∀ c < n, noiseProb (realFun u) (.uniform n) c = .ok (q c))
    (hm : ∀ c < n, expectedCount outcomes c = k * q c) (s : Nat → ℝ) (hs : MinimizesNce u epsilon n p q outcomes s) :
    ∀ c < n, predicted n s c = p c := by
  have hq' : ∀ c < n, q c = 1 / n := fun c hc => by
    have := hq c hc
    unfold noiseProb uniformProb at this
    exact (Except.ok.inj this).symm
  refine C117_partial hd hk hp hp1 he (fun c hc => ?_) hm (.inr fun c hc d hd' => by rw [hq' c hc, hq' d hd']) s hs
  rw [hq' c hc]
  have : (0 : ℝ) < n := Nat.cast_pos.mpr (by omega)
  positivity

/-- C117, the error that `epsilon` causes.  If no class has a smaller probability than `b` in the noise distribution, the probabilities
that the network gives differ from the true probabilities at most by the factor `1 + epsilon / b`. -/
theorem C117_error (hd : NoiseDraw n k outcomes) (hk : 0 < k) (hp : ∀ c < n, 0 < p c) (hp1 : ∑ c ∈ Finset.range n, p c = 1)
    (he : 0 ≤ epsilon) {b : ℝ} (hb : 0 < b) (hq : ∀ c < n, b ≤ q c) (hm : ∀ c < n, expectedCount outcomes c = k * q c)
    (s : Nat → ℝ) (hs : MinimizesNce u epsilon n p q outcomes s) :
    ∀ c < n, predicted n s c ≤ p c * (1 + epsilon / b) ∧ p c ≤ predicted n s c * (1 + epsilon / b) := by
  have hk' : (0 : ℝ) < k := Nat.cast_pos.mpr hk
  have hq0 : ∀ c < n, 0 < q c := fun c hc => lt_of_lt_of_le hb (hq c hc)
  have hq' : ∀ c < n, 0 < q c + epsilon := fun c hc => by have := hq0 c hc; linarith
  have hs' := (C117_optimum (u := u) hd hp hp1 hq' (fun c hc => by rw [hm c hc]; have := hq0 c hc; positivity) s).2.mp hs
  have hr : ∀ d < n, Real.exp (s d) = (p d * (1 + epsilon / q d)) / k := by
    intro d hd'
    rw [hs' d hd', hm d hd']
    have h2 := hq0 d hd'
    field_simp
  have hpred : ∀ c < n, predicted n s c = p c * (1 + epsilon / q c) / ∑ d ∈ Finset.range n, p d * (1 + epsilon / q d) := by
    intro c hc
    unfold predicted
    rw [Finset.sum_congr rfl fun d hd' => hr d (Finset.mem_range.mp hd'), ← Finset.sum_div, hr c hc]
    rw [div_div_div_cancel_right₀ hk'.ne']
  have hle : ∀ c < n, 1 ≤ 1 + epsilon / q c ∧ 1 + epsilon / q c ≤ 1 + epsilon / b := by
    intro c hc
    have h1 := hq0 c hc
    refine ⟨by have : 0 ≤ epsilon / q c := by positivity
               linarith, ?_⟩
    have := hq c hc
    gcongr
  have hsum : 1 ≤ ∑ d ∈ Finset.range n, p d * (1 + epsilon / q d) := by
    refine hp1.symm.le.trans (Finset.sum_le_sum fun d hd' => ?_)
    exact le_mul_of_one_le_right (hp d (Finset.mem_range.mp hd')).le (hle d (Finset.mem_range.mp hd')).1
  have hsum' : ∑ d ∈ Finset.range n, p d * (1 + epsilon / q d) ≤ 1 + epsilon / b := by
    calc _ ≤ ∑ d ∈ Finset.range n, p d * (1 + epsilon / b) := Finset.sum_le_sum fun d hd' =>
          mul_le_mul_of_nonneg_left (hle d (Finset.mem_range.mp hd')).2 (hp d (Finset.mem_range.mp hd')).le
      _ = _ := by rw [← Finset.sum_mul, hp1, one_mul]
  intro c hc
  rw [hpred c hc]
  have h1 := hp c hc
  have h2 := hle c hc
  have hpos : 0 < ∑ d ∈ Finset.range n, p d * (1 + epsilon / q d) := by linarith
  constructor
  · rw [div_le_iff₀ hpos]
    calc p c * (1 + epsilon / q c) ≤ p c * (1 + epsilon / b) := mul_le_mul_of_nonneg_left h2.2 h1.le
      _ ≤ _ := le_mul_of_one_le_right (by have : 0 ≤ epsilon / b := by positivity
                                          positivity) hsum
  · rw [div_mul_eq_mul_div, le_div_iff₀ hpos]
    calc p c * ∑ d ∈ Finset.range n, p d * (1 + epsilon / q d) ≤ p c * (1 + epsilon / b) := by gcongr
      _ ≤ p c * (1 + epsilon / q c) * (1 + epsilon / b) := by
        have : 0 ≤ epsilon / b := by positivity
        have h3 : p c ≤ p c * (1 + epsilon / q c) := le_mul_of_one_le_right h1.le h2.1
        gcongr

end

/-! ## Examples -/

/-- One noise class, which has the probabilities 1/4 and 3/4. -/
noncomputable def exNoise : List (ℝ × List Nat) := [(1 / 4, [0]), (3 / 4, [1])]
noncomputable def exNoiseProb (c : Nat) : ℝ := if c = 0 then 1 / 4 else 3 / 4

theorem exNoise_draw : NoiseDraw 2 1 exNoise := by
  constructor
  · intro o ho; simp only [exNoise, List.mem_cons, List.not_mem_nil, or_false] at ho; rcases ho with rfl | rfl <;> norm_num
  · norm_num [exNoise]
  · intro o ho; simp only [exNoise, List.mem_cons, List.not_mem_nil, or_false] at ho; rcases ho with rfl | rfl <;> rfl
  · intro o ho; simp only [exNoise, List.mem_cons, List.not_mem_nil, or_false] at ho; rcases ho with rfl | rfl <;> simp

theorem exNoise_count : ∀ c < 2, expectedCount exNoise c = (1 : Nat) * exNoiseProb c := by
  intro c hc
  interval_cases c <;> simp [expectedCount, exNoise, exNoiseProb]

/-- There is a network that minimizes the cost, and it gives the right probabilities. -/
example (u : ℝ → Bool) : ∃ s, MinimizesNce u 0 2 (fun _ => 1 / 2) exNoiseProb exNoise s ∧ ∀ c < 2, predicted 2 s c = 1 / 2 := by
  have hq : ∀ c < 2, 0 < exNoiseProb c := fun c _ => by unfold exNoiseProb; split <;> norm_num
  have h := (C117_optimum (u := u) (epsilon := 0) (p := fun _ => 1 / 2) exNoise_draw (fun _ _ => by norm_num) (by norm_num)
    (fun c hc => by have := hq c hc; linarith) (fun c hc => by rw [exNoise_count c hc]; have := hq c hc; positivity)
    (nceOptimum 0 (fun _ => 1 / 2) exNoiseProb exNoise)).2.mpr ?_
  · exact ⟨_, h, C117_partial exNoise_draw (by norm_num) (fun _ _ => by norm_num) (by norm_num) le_rfl hq exNoise_count (.inl rfl) _ h⟩
  · intro c hc
    unfold nceOptimum
    have := hq c hc
    rw [exNoise_count c hc, Real.exp_log (by positivity)]

/-- C117 is violated: with a positive `epsilon`, the probabilities are wrong, unless the noise distribution is uniform. -/
theorem C117_violated (u : ℝ → Bool) (epsilon : ℝ) (he : 0 < epsilon) :
    (∃ s, MinimizesNce u epsilon 2 (fun _ => 1 / 2) exNoiseProb exNoise s) ∧
    ∀ s, MinimizesNce u epsilon 2 (fun _ => 1 / 2) exNoiseProb exNoise s → predicted 2 s 1 < 1 / 2 ∧ 1 / 2 < predicted 2 s 0 := by
  have hq : ∀ c < 2, 0 < exNoiseProb c := fun c _ => by unfold exNoiseProb; split <;> norm_num
  have h := C117_optimum (u := u) (epsilon := epsilon) (p := fun _ => 1 / 2) exNoise_draw (fun _ _ => by norm_num) (by norm_num)
    (fun c hc => by have := hq c hc; linarith) (fun c hc => by rw [exNoise_count c hc]; have := hq c hc; positivity)
  refine ⟨⟨nceOptimum epsilon (fun _ => 1 / 2) exNoiseProb exNoise, (h _).2.mpr fun c hc => ?_⟩, fun s hs => ?_⟩
  · unfold nceOptimum
    have := hq c hc
    rw [exNoise_count c hc, Real.exp_log (by positivity)]
  · have hs' := (h s).2.mp hs
    have h0 := hs' 0 (by norm_num)
    have h1 := hs' 1 (by norm_num)
    rw [exNoise_count _ (by norm_num)] at h0 h1
    norm_num [exNoiseProb] at h0 h1
    unfold predicted
    rw [Finset.sum_range_succ, Finset.sum_range_one, h0, h1]
    constructor
    · rw [div_lt_iff₀ (by positivity)]; linarith
    · rw [lt_div_iff₀ (by positivity)]; linarith

/-- The hypotheses of `C117_error` are met with any `epsilon`. -/
example (u : ℝ → Bool) : ∃ s, MinimizesNce u 1 2 (fun _ => 1 / 2) exNoiseProb exNoise s ∧ ∀ c < 2, predicted 2 s c ≤ 1 / 2 * (1 + 1 / (1 / 4)) := by
  obtain ⟨s, hs⟩ := (C117_violated u 1 one_pos).1
  exact ⟨s, hs, fun c hc => (C117_error exNoise_draw (by norm_num) (fun _ _ => by norm_num) (by norm_num) zero_le_one
    (b := 1 / 4) (by norm_num) (fun c _ => by unfold exNoiseProb; split <;> norm_num) exNoise_count s hs c hc).1⟩

/-- One noise class out of two, which have equal probabilities. -/
noncomputable def exUniformNoise : List (ℝ × List Nat) := [(1 / 2, [0]), (1 / 2, [1])]

/-- The hypotheses of `C117_uniform` are met, and a network minimizes the cost. -/
example (u : ℝ → Bool) : NoiseDraw 2 1 exUniformNoise ∧ (∀ c < 2, noiseProb (realFun u) (.uniform 2) c = .ok (1 / 2)) ∧
    (∀ c < 2, expectedCount exUniformNoise c = (1 : Nat) * (1 / 2)) ∧
    ∃ s, MinimizesNce u 1 2 (fun c => if c = 0 then 1 / 3 else 2 / 3) (fun _ => 1 / 2) exUniformNoise s := by
  have hd : NoiseDraw 2 1 exUniformNoise := by
    constructor
    · intro o ho; simp only [exUniformNoise, List.mem_cons, List.not_mem_nil, or_false] at ho; rcases ho with rfl | rfl <;> norm_num
    · norm_num [exUniformNoise]
    · intro o ho; simp only [exUniformNoise, List.mem_cons, List.not_mem_nil, or_false] at ho; rcases ho with rfl | rfl <;> rfl
    · intro o ho; simp only [exUniformNoise, List.mem_cons, List.not_mem_nil, or_false] at ho; rcases ho with rfl | rfl <;> simp
  have hm : ∀ c < 2, expectedCount exUniformNoise c = (1 : Nat) * (1 / 2) := by
    intro c hc
    interval_cases c <;> simp [expectedCount, exUniformNoise]
  refine ⟨hd, fun c _ => by simp [noiseProb, uniformProb], hm,
    nceOptimum 1 (fun c => if c = 0 then 1 / 3 else 2 / 3) (fun _ => 1 / 2) exUniformNoise, (C117_optimum hd ?_ ?_ ?_ ?_ _).2.mpr ?_⟩
  · intro c _; split <;> norm_num
  · rw [Finset.sum_range_succ, Finset.sum_range_one]; norm_num
  · intro c _; norm_num
  · intro c hc; rw [hm c hc]; norm_num
  · intro c hc
    unfold nceOptimum
    rw [hm c hc, Real.exp_log]
    dsimp only
    split <;> norm_num

/-- Two noise classes that are sampled without replacement from the probabilities 1/2, 1/4, and 1/4. -/
noncomputable def exDistinct : List (ℝ × List Nat) := distinctOutcomes [1 / 2, 1 / 4, 1 / 4] 2
noncomputable def exDistinctProb (c : Nat) : ℝ := if c = 0 then 1 / 2 else 1 / 4

theorem exDistinct_eq : exDistinct = [(1 / 4, [0, 1]), (1 / 4, [0, 2]), (1 / 6, [1, 0]), (1 / 12, [1, 2]), (1 / 6, [2, 0]), (1 / 12, [2, 1])] := by
  norm_num [exDistinct, distinctOutcomes, List.range_succ, List.filter_cons]

theorem exDistinct_draw : NoiseDraw 3 2 exDistinct := by
  rw [exDistinct_eq]
  constructor
  · intro o ho; simp only [List.mem_cons, List.not_mem_nil, or_false] at ho; rcases ho with rfl | rfl | rfl | rfl | rfl | rfl <;> norm_num
  · norm_num
  · intro o ho; simp only [List.mem_cons, List.not_mem_nil, or_false] at ho; rcases ho with rfl | rfl | rfl | rfl | rfl | rfl <;> rfl
  · intro o ho; simp only [List.mem_cons, List.not_mem_nil, or_false] at ho; rcases ho with rfl | rfl | rfl | rfl | rfl | rfl <;> simp

theorem exDistinct_count : ∀ c < 3, expectedCount exDistinct c = if c = 0 then 5 / 6 else 7 / 12 := by
  intro c hc
  rw [exDistinct_eq]
  interval_cases c <;> norm_num [expectedCount, List.count_cons]

/-- C117 is violated also without `epsilon`: noise classes are sampled from the unigram distribution without replacement, so a frequent
class is not sampled as often as the cost function assumes, and its probability is overestimated. -/
theorem C117_violated_replacement (u : ℝ → Bool) :
    (∃ s, MinimizesNce u 0 3 (fun _ => 1 / 3) exDistinctProb exDistinct s) ∧
    ∀ s, MinimizesNce u 0 3 (fun _ => 1 / 3) exDistinctProb exDistinct s → predicted 3 s 0 = 7 / 17 := by
  have h := C117_optimum (u := u) (epsilon := 0) (p := fun _ => 1 / 3) (q := exDistinctProb) exDistinct_draw (fun _ _ => by norm_num)
    (by norm_num) (fun c hc => by unfold exDistinctProb; split <;> norm_num)
    (fun c hc => by rw [exDistinct_count c hc]; split <;> norm_num)
  refine ⟨⟨nceOptimum 0 (fun _ => 1 / 3) exDistinctProb exDistinct, (h _).2.mpr fun c hc => ?_⟩, fun s hs => ?_⟩
  · unfold nceOptimum
    rw [exDistinct_count c hc, Real.exp_log]
    unfold exDistinctProb
    split <;> norm_num
  · have hs' := (h s).2.mp hs
    have h0 := hs' 0 (by norm_num)
    have h1 := hs' 1 (by norm_num)
    have h2 := hs' 2 (by norm_num)
    rw [exDistinct_count _ (by norm_num)] at h0 h1 h2
    norm_num [exDistinctProb] at h0 h1 h2
    unfold predicted
    rw [Finset.sum_range_succ, Finset.sum_range_succ, Finset.sum_range_one, h0, h1, h2]
    norm_num

end TheanoLM
