import Verif.Lemmas.TrainerWindow
import Verif.Props.Trainer
/-!
# Properties C42 and C65: validation
-/
set_option linter.unusedSectionVars false

namespace TheanoLM

section
variable {S X I J B : Type} [Field S] [LinearOrder S]

/-! ## Specification -/

/-- The update is one of the points where a validation is scheduled (see C40). -/
def ValidationPoint (env : TrainEnv S X I J B) (u : Nat) : Prop := ∃ k, 1 ≤ k ∧ EventAt env.updatesPerEpoch env.frequency k u

/-- The `k`:th update from `t0`, which is update number `u`, is validated: the samples are the perplexities after the last
`env.samples` updates, their statistic is recorded as the cost of the validation, and if the model is saved, it is the model
from the center of the samples. -/
def ValidatedAt (env : TrainEnv S X I J B) (t0 : Trainer S X I J) (k u : Nat) : Prop :=
  ∃ ys news, (stateAfter env t0 k).log = news ++ .validated u ys (env.statistic.statisticFunction ys) ::
      (stateAfter env t0 (k - 1)).log ∧
    ys.length = env.samples ∧
    (∀ i < env.samples, ∃ x p, paramsAfter env t0 (k - env.samples + 1 + i) = some x ∧ ys[i]? = some p ∧
      env.perplexity x = .ok p) ∧
    (news = [] ∨ (∃ old new, news = [.annealed old new]) ∨
      ∃ f, news = [.saved f] ∧ paramsAfter env t0 (k - env.samples / 2) = some f.params ∧ f.update = u - env.samples / 2)

/-! ## C42 -/

theorem window_count {env : TrainEnv S X I J B} {t0 : Trainer S X I J} {m k c : Nat} (hc : WInv env t0 m k c)
    (hn : 0 < env.updatesPerEpoch) (hs : 1 ≤ env.samples)
    (hev : isScheduled (m + (k + 1)) env.updatesPerEpoch env.frequency 0 = true) :
    c + 1 ≤ env.samples ∧ (c + 1 = env.samples ↔ env.samples ≤ k + 1 ∧ ∀ i, k + 1 - env.samples < i → i < k + 1 →
      isScheduled (m + i) env.updatesPerEpoch env.frequency 0 = false) := by
  have hle := hc.le
  have h1 : c + 1 ≤ env.samples := by
    by_contra hne
    obtain ⟨h1, h2⟩ := hc.window (k + 1 - env.samples) (by omega) (by omega)
    obtain ⟨j, hj, hj'⟩ := (C41_lookahead _ _ hn _ _).mp h1
    have h3 := (hc.window (k + 1 - env.samples + j) (by omega) (by omega)).2
    rw [← Nat.add_assoc] at h3
    rw [h3] at hj'; cases hj'
  refine ⟨h1, ?_⟩
  constructor
  · intro h2
    refine ⟨by omega, ?_⟩
    intro i h3 h4
    exact (hc.window i (by omega) (by omega)).2
  · rintro ⟨h2, h3⟩
    by_contra hne
    rcases hc.first with h | h | h
    · omega
    · have : isScheduled (m + (k - c)) env.updatesPerEpoch env.frequency (env.samples - 1) = true :=
        (C41_lookahead _ _ hn _ _).mpr ⟨c + 1, by omega, by
          have : m + (k - c) + (c + 1) = m + (k + 1) := by omega
          rw [this]; exact hev⟩
      rw [this] at h; cases h
    · have := h3 (k - c) (by omega) (by omega)
      rw [this] at h; cases h

theorem center_index {env : TrainEnv S X I J B} {t0 : Trainer S X I J} {m k c : Nat} (hc : WInv env t0 m k c)
    (hn : 0 < env.updatesPerEpoch) (hs : 1 ≤ env.samples)
    (hev : isScheduled (m + (k + 1)) env.updatesPerEpoch env.frequency 0 = true) (hcs : c + 1 = env.samples) (i : Nat)
    (h1 : k - c < i)
    (h3 : isScheduled (m + i) env.updatesPerEpoch env.frequency (env.samples / 2) = true)
    (h4 : ∀ j, k - c < j → j < i → isScheduled (m + j) env.updatesPerEpoch env.frequency (env.samples / 2) = false) :
    i = k + 1 - env.samples / 2 := by
  have hle := hc.le
  have h5 : isScheduled (m + (k + 1 - env.samples / 2)) env.updatesPerEpoch env.frequency (env.samples / 2) = true :=
    (C41_lookahead _ _ hn _ _).mpr ⟨env.samples / 2, le_refl _, by
      have : m + (k + 1 - env.samples / 2) + env.samples / 2 = m + (k + 1) := by omega
      rw [this]; exact hev⟩
  rcases Nat.lt_trichotomy i (k + 1 - env.samples / 2) with hlt | heq | hgt
  · obtain ⟨j, hj, hj'⟩ := (C41_lookahead _ _ hn _ _).mp h3
    have h6 := (hc.window (i + j) (by omega) (by omega)).2
    rw [← Nat.add_assoc] at h6
    rw [h6] at hj'; cases hj'
  · exact heq
  · have := h4 _ (by omega) hgt
    rw [this] at h5; cases h5

/-- What happens at a scheduled update. -/
theorem validation_at {env : TrainEnv S X I J B} {t0 : Trainer S X I J} {K m : Nat} (h : Uninterrupted env t0 m K)
    (h0 : TInv env t0) (hl : t0.localPerplexities = []) (hv : t0.validationState = none)
    (hn : 0 < env.updatesPerEpoch) (hs : 1 ≤ env.samples) (k : Nat) (hk : k < K)
    (hev : isScheduled (m + (k + 1)) env.updatesPerEpoch env.frequency 0 = true) :
    (env.samples ≤ k + 1 ∧ (∀ i, k + 1 - env.samples < i → i < k + 1 →
      isScheduled (m + i) env.updatesPerEpoch env.frequency 0 = false) → ValidatedAt env t0 (k + 1) (m + (k + 1))) ∧
    (¬ (env.samples ≤ k + 1 ∧ ∀ i, k + 1 - env.samples < i → i < k + 1 →
      isScheduled (m + i) env.updatesPerEpoch env.frequency 0 = false) →
      (stateAfter env t0 (k + 1)).log = (stateAfter env t0 k).log) := by
  obtain ⟨c, hc⟩ := uninterrupted_window h h0 hl hv hn k hk
  obtain ⟨b, it, t', hnx, hpa, hr, hlog, -⟩ := uninterrupted_step h h0 k hk
  obtain ⟨hc1, hc2⟩ := window_count hc hn hs hev
  rw [← hc2]
  have hu : (stateAfter env t0 k).update = m + k := h.update k hk
  have huu : ((stateAfter env t0 k).updated env b it).update = m + (k + 1) := by
    simp only [Trainer.updated, hu]; omega
  have hnow : ∀ w, isScheduled (m + (k + 1)) env.updatesPerEpoch env.frequency w = true :=
    fun w => (C41_lookahead _ _ hn _ _).mpr ⟨0, by omega, hev⟩
  have hlen : ∀ x : S, (((stateAfter env t0 k).updated env b it).localPerplexities ++ [x]).length = c + 1 := by
    intro x
    rw [List.length_append, List.length_singleton]
    simp only [Trainer.updated, hc.length]
  rw [hlog]
  cases hr with
  | idle hid =>
    rcases hid with hid | hid
    · rw [h.validation] at hid; cases hid
    · rw [huu, hnow] at hid; cases hid
  | sample x _ h1 h2 hx => rw [huu, hnow] at h2; cases h2
  | late x _ h1 h2 h3 hx => rw [huu, hev] at h3; cases h3
  | ignored x _ h1 h3 hx hlt =>
    rw [hlen] at hlt
    exact ⟨fun h => (by omega), fun _ => rfl⟩
  | validation x t' _ h1 h3 hx hge hr =>
    rw [hlen] at hge
    refine ⟨fun hcs => ?_, fun hne => absurd (by omega) hne⟩
    have hle := hc.le
    have hcenter := hc.centerState hu b it hpa (hnow _)
    obtain ⟨i, hi1, hi2, hi3, hi4, hi5, hi6⟩ := hcenter
    have hi := center_index hc hn hs hev hcs i hi1 hi3 hi4
    subst hi
    have hsamples : ∀ i < env.samples, ∃ y p, paramsAfter env t0 (k + 1 - env.samples + 1 + i) = some y ∧
        (((stateAfter env t0 k).updated env b it).localPerplexities ++ [x])[i]? = some p ∧ env.perplexity y = .ok p := by
      intro i hi
      have hsub : k + 1 - env.samples = k - c := by omega
      rw [hsub]
      by_cases hic : i < c
      · rw [List.getElem?_append_left (by simp only [Trainer.updated, hc.length]; exact hic)]
        have hg : (stateAfter env t0 k).localPerplexities[i]? =
            some ((stateAfter env t0 k).localPerplexities[i]'(by rw [hc.length]; exact hic)) :=
          List.getElem?_eq_getElem _
        obtain ⟨y, hy1, hy2⟩ := hc.samples i _ hg
        exact ⟨y, _, hy1, hg, hy2⟩
      · have : i = c := by omega
        subst this
        rw [List.getElem?_append_right (by simp only [Trainer.updated, hc.length]; exact le_refl _)]
        have h2 : k - i + 1 + i = k + 1 := by omega
        rw [h2]
        refine ⟨_, x, hpa, ?_, hx⟩
        simp only [Trainer.updated, hc.length, Nat.sub_self, List.getElem?_cons_zero]
    refine ⟨((stateAfter env t0 k).updated env b it).localPerplexities ++ [x], ?_⟩
    rw [hlog, hlen]
    have hcen : (m + (k + 1)) - env.samples / 2 = m + (k + 1 - env.samples / 2) := by omega
    rw [← huu] at hcen ⊢
    cases hr with
    | improved _ => exact ⟨[.saved _], rfl, hcs, hsamples, Or.inr (Or.inr ⟨_, rfl, hi5, hi6.trans hcen.symm⟩)⟩
    | waiting _ _ => exact ⟨[], rfl, hcs, hsamples, Or.inl rfl⟩
    | annealed f _ _ _ _ => exact ⟨[.annealed _ _], rfl, hcs, hsamples, Or.inr (Or.inl ⟨_, _, rfl⟩)⟩

theorem validationPoint_iff (env : TrainEnv S X I J B) (hf : env.frequency ≤ env.updatesPerEpoch)
    (hn : 0 < env.updatesPerEpoch) (u : Nat) (hu : 1 ≤ u) :
    isScheduled u env.updatesPerEpoch env.frequency 0 = true ↔ ValidationPoint env u := C40_times _ _ hf hn u hu

/-- C42: In an epoch from whose beginning (or from update `m` of which) training is not interrupted, each scheduled validation
point is validated using the configured number of samples, if there have been that many updates, and if there has not been
another validation point among those updates.  Otherwise it is not validated.

The property says that every scheduled point is validated.  This does not hold if validation points are closer to each other
than the number of samples, see `C42_violated`, or if the perplexities are left over from an earlier epoch that was shorter than
the estimated number of updates, see `C42_stale_samples`. -/
theorem C42_from_partial (env : TrainEnv S X I J B) (t0 : Trainer S X I J) (hr : TrainReachable env t0) (m K : Nat)
    (h : Uninterrupted env t0 m K) (hl : t0.localPerplexities = []) (hv : t0.validationState = none)
    (hf : env.frequency ≤ env.updatesPerEpoch) (hn : 0 < env.updatesPerEpoch) (hs : 1 ≤ env.samples)
    (k : Nat) (hk1 : 1 ≤ k) (hk : k ≤ K) (hev : ValidationPoint env (m + k)) :
    (env.samples ≤ k ∧ (∀ i, k - env.samples < i → i < k → ¬ ValidationPoint env (m + i)) →
      ValidatedAt env t0 k (m + k)) ∧
    (¬ (env.samples ≤ k ∧ ∀ i, k - env.samples < i → i < k → ¬ ValidationPoint env (m + i)) →
      (stateAfter env t0 k).log = (stateAfter env t0 (k - 1)).log) := by
  obtain ⟨k, rfl⟩ : ∃ j, k = j + 1 := ⟨k - 1, by omega⟩
  have hiff : (env.samples ≤ k + 1 ∧ ∀ i, k + 1 - env.samples < i → i < k + 1 → ¬ ValidationPoint env (m + i)) ↔
      (env.samples ≤ k + 1 ∧ ∀ i, k + 1 - env.samples < i → i < k + 1 →
        isScheduled (m + i) env.updatesPerEpoch env.frequency 0 = false) := by
    refine and_congr Iff.rfl (forall_congr' fun i => imp_congr_right fun h1 => imp_congr_right fun _ => ?_)
    rw [← validationPoint_iff env hf hn (m + i) (by omega)]
    simp
  rw [hiff]
  exact validation_at h (reachable_inv hr) hl hv hn hs k (by omega)
    ((validationPoint_iff env hf hn _ (by omega)).mpr hev)

theorem eventAt_gap {n f k k' u v : Nat} (hu : EventAt n f k u) (hv : EventAt n f k' v) (huv : u < v) (s : Nat)
    (hs : f * s ≤ n) : u + s ≤ v := by
  have h1 := hv.2 u huv
  have h2 := hu.1
  have hkk : k < k' := by
    by_contra hne
    have : k' * n ≤ k * n := Nat.mul_le_mul_right n (by omega)
    omega
  by_contra hne
  -- (v - 1) f < k' n ... and u is the first update at or after k n
  have h3 := hu.2
  have h4 := hv.1
  have h5 : (k + 1) * n ≤ k' * n := Nat.mul_le_mul_right n (by omega)
  have h6 : (k + 1) * n = k * n + n := by ring
  rcases Nat.eq_zero_or_pos u with rfl | hpos
  · have : v * f ≤ (s - 1) * f := Nat.mul_le_mul_right f (by omega)
    rcases Nat.eq_zero_or_pos s with rfl | hs0
    · omega
    · obtain ⟨s', rfl⟩ : ∃ s', s = s' + 1 := ⟨s - 1, by omega⟩
      simp only [Nat.add_sub_cancel] at this
      have e : f * (s' + 1) = s' * f + f := by ring
      rcases Nat.eq_zero_or_pos f with rfl | hf0
      · simp at h1 
        omega
      · omega
  · have h7 := h3 (u - 1) (by omega)
    obtain ⟨u', rfl⟩ : ∃ u', u = u' + 1 := ⟨u - 1, by omega⟩
    simp only [Nat.add_sub_cancel] at h7
    have h8 : v * f ≤ (u' + s) * f := Nat.mul_le_mul_right f (by omega)
    have e : (u' + s) * f = u' * f + f * s := by ring
    omega

/-- C42: If the samples of different validation points do not overlap, each scheduled validation point of an epoch in which
training is not interrupted is validated, using the configured number of samples. -/
theorem C42_partial (env : TrainEnv S X I J B) (t0 : Trainer S X I J) (hr : TrainReachable env t0) (K : Nat)
    (h : Uninterrupted env t0 0 K) (hl : t0.localPerplexities = []) (hv : t0.validationState = none)
    (hs : 1 ≤ env.samples) (hfs : env.frequency * env.samples ≤ env.updatesPerEpoch) (hn : 0 < env.updatesPerEpoch)
    (u : Nat) (hu1 : 1 ≤ u) (hu : u ≤ K) (hev : ValidationPoint env u) : ValidatedAt env t0 u u := by
  have hf : env.frequency ≤ env.updatesPerEpoch :=
    le_trans (Nat.le_mul_of_pos_right _ (by omega)) hfs
  have key := (C42_from_partial env t0 hr 0 K h hl hv hf hn hs u hu1 hu (by rwa [Nat.zero_add])).1
  rw [Nat.zero_add] at key
  refine key ⟨?_, ?_⟩
  · obtain ⟨k, hk, he⟩ := hev
    have h0 : EventAt env.updatesPerEpoch env.frequency 0 0 := ⟨by simp, fun v hv => (by omega)⟩
    have := eventAt_gap h0 he (by omega) env.samples hfs
    omega
  · rintro i h1 h2 ⟨k', hk', he'⟩
    rw [Nat.zero_add] at he'
    obtain ⟨k, hk, he⟩ := hev
    have := eventAt_gap he' he h2 env.samples hfs
    omega

end

/-! ## C65 -/

section
variable {S X I J B : Type} [Field S] [LinearOrder S]

/-- C65: Whatever statistics function is given, the cost of each validation is the median of its samples.  The full property says
that it is the given statistics function of its samples, which does not hold, see `C65_violated`. -/
theorem C65_partial (env : TrainEnv S X I J B) (n : Option Nat) (f : Option (List S → S))
    (henv : env.statistic = (setValidation StatisticConfig.initial n f).2) (t : Trainer S X I J) (h : TrainReachable env t)
    (u : Nat) (ys : List S) (c : S) (hl : .validated u ys c ∈ t.log) : c = median ys := by
  obtain ⟨l1, l2, hl⟩ := List.append_of_mem hl
  have := ((history_split (reachable_inv h).history l1 _ l2 hl).validated u ys c rfl).2.1
  rw [this, henv]
  cases f <;> rfl

/-- C65: The number of samples that is given is used. -/
theorem C65_samples (n : Option Nat) (f : Option (List S → S)) :
    (setValidation StatisticConfig.initial n f).1 = n.getD 7 := by cases n <;> rfl

omit [Field S] in
/-- The elements in increasing order. -/
theorem insertionSort_increasing (l : List S) : ∃ l' : List S, l'.Perm l ∧ l'.Pairwise (· ≤ ·) ∧
    l.insertionSort (· ≤ ·) = l' :=
  ⟨_, List.perm_insertionSort _ l, List.pairwise_insertionSort _ l, rfl⟩

/-- The median is the middle one of the elements in increasing order, or the mean of the two elements in the middle. -/
theorem C65_median (l : List S) (hl : l ≠ []) : ∃ l' : List S, l'.Perm l ∧ l'.Pairwise (· ≤ ·) ∧
    (l.length % 2 = 1 → l'[l.length / 2]? = some (median l)) ∧
    (l.length % 2 = 0 → ∃ a b, l'[l.length / 2 - 1]? = some a ∧ l'[l.length / 2]? = some b ∧ median l = (a + b) / 2) := by
  obtain ⟨l', h1, h2, h3⟩ := insertionSort_increasing l
  have hlen : l'.length = l.length := h1.length_eq
  have hpos := List.length_pos_iff.mpr hl
  refine ⟨l', h1, h2, ?_, ?_⟩
  · intro hodd
    simp only [median, h3, hodd, if_true]
    rw [List.getD_eq_getElem?_getD, List.getElem?_eq_getElem (by omega)]
    rfl
  · intro heven
    refine ⟨l'[l.length / 2 - 1], l'[l.length / 2], List.getElem?_eq_getElem _, List.getElem?_eq_getElem _, ?_⟩
    have hne : ¬ l.length % 2 = 1 := by omega
    simp only [median, h3, hne, if_false]
    rw [List.getD_eq_getElem?_getD, List.getD_eq_getElem?_getD, List.getElem?_eq_getElem (by omega),
      List.getElem?_eq_getElem (by omega)]
    rfl

end

/-- C65 does not hold: the statistics function that is given is not used. -/
theorem C65_violated : ∃ (f : List ℚ → ℚ) (ys : List ℚ),
    (setValidation StatisticConfig.initial none (some f)).2.statisticFunction ys ≠ f ys :=
  ⟨fun ys => ys.foldl max 0, [1, 5, 2], by decide +kernel⟩

/-! ## Examples -/

example : median [(3 : ℚ), 1, 2] = 2 ∧ median [(4 : ℚ), 1, 2, 3] = 5 / 2 := by decide +kernel

/-- An epoch contains the given number of mini-batches, but is estimated to contain nine, and there are two validations per
epoch. -/
def exampleValidationEnv (samples length : Nat) : TrainEnv ℚ Nat Nat Nat Unit :=
  { exampleTrainEnv (fun x => .ok (100 - x)) true 0 100 .epochCount with
    next := fun i => if i = 0 then (none, length) else (some (), i - 1)
    samples := samples, frequency := 2, updatesPerEpoch := 9 }

/-- The beginning of the first epoch. -/
def exampleEpoch (samples length : Nat) : Trainer ℚ Nat Nat Nat :=
  (Trainer.fresh (exampleValidationEnv samples length) 0 1 length []).step (exampleValidationEnv samples length)

theorem exampleEpoch_reachable (samples length : Nat) :
    TrainReachable (exampleValidationEnv samples length) (exampleEpoch samples length) := .step _ (.start 0 1 length _ rfl)

theorem exampleEpoch_uninterrupted (samples : Nat) (hs : samples = 3 ∨ samples = 7) :
    Uninterrupted (exampleValidationEnv samples 9) (exampleEpoch samples 9) 0 9 := by
  rcases hs with rfl | rfl
  · exact ⟨rfl, by decide +kernel, by decide +kernel, by decide +kernel,
      fun k hk e => (by
        have h : ∀ k, k ≤ 9 → (stateAfter (exampleValidationEnv 3 9) (exampleEpoch 3 9) k).phase = .batches := by
          decide +kernel
        rw [h k hk]; intro h; cases h)⟩
  · exact ⟨rfl, by decide +kernel, by decide +kernel, by decide +kernel,
      fun k hk e => (by
        have h : ∀ k, k ≤ 9 → (stateAfter (exampleValidationEnv 7 9) (exampleEpoch 7 9) k).phase = .batches := by
          decide +kernel
        rw [h k hk]; intro h; cases h)⟩

/-- With three samples both points are validated. -/
example : (stateAfter (exampleValidationEnv 3 9) (exampleEpoch 3 9) 9).log =
    [.saved ⟨8, 1, 1, 1, 8, [96, 92]⟩, .validated 9 [93, 92, 91] 92, .saved ⟨4, 1, 5, 1, 4, [96]⟩,
      .validated 5 [97, 96, 95] 96, .epochStarted 1, .initialized] := by decide +kernel

example : ∀ u, 1 ≤ u → u ≤ 9 → ValidationPoint (exampleValidationEnv 3 9) u →
    ValidatedAt (exampleValidationEnv 3 9) (exampleEpoch 3 9) u u :=
  fun u h1 h2 h3 => C42_partial _ _ (exampleEpoch_reachable 3 9) 9 (exampleEpoch_uninterrupted 3 (Or.inl rfl)) rfl rfl
    (by decide) (by decide) (by decide) u h1 h2 h3

/-- C42 does not hold when the samples of the validation points overlap.  With two validations per epoch of nine updates and the
default seven samples, updates 5 and 9 are scheduled, but none is ever validated: there are only five samples at the former and
four at the latter. -/
theorem C42_violated : Uninterrupted (exampleValidationEnv 7 9) (exampleEpoch 7 9) 0 9 ∧
    ValidationPoint (exampleValidationEnv 7 9) 5 ∧ ValidationPoint (exampleValidationEnv 7 9) 9 ∧
    (stateAfter (exampleValidationEnv 7 9) (exampleEpoch 7 9) 9).log = [.epochStarted 1, .initialized] := by
  refine ⟨exampleEpoch_uninterrupted 7 (Or.inr rfl), ⟨1, le_refl _, ?_⟩, ⟨2, by omega, ?_⟩, by decide +kernel⟩
  · refine ⟨by decide, fun v hv => ?_⟩
    show v * 2 < 1 * 9
    omega
  · refine ⟨by decide, fun v hv => ?_⟩
    show v * 2 < 2 * 9
    omega

/-- C42 does not hold for an epoch after an epoch that contains less mini-batches than estimated (as is the case, if the training
data is sampled): the cost of the first validation in the second epoch is computed from the perplexities of five updates, two of
which were made in the first epoch, and the saved model is also from the first epoch. -/
theorem C42_stale_samples : (stateAfter (exampleValidationEnv 3 8) (exampleEpoch 3 8) 15).log =
    [.saved ⟨8, 1, 0, 1, 8, [96, 89]⟩, .validated 5 [93, 92, 89, 88, 87] 89, .epochStarted 2,
      .saved ⟨4, 1, 4, 1, 4, [96]⟩, .validated 5 [97, 96, 95] 96, .epochStarted 1, .initialized] := by decide +kernel

end TheanoLM
