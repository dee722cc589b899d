import Verif.Lemmas.TrainerStop
import Verif.Props.Schedule
/-!
# Lemmas about the samples of a validation
-/
set_option linter.unusedSectionVars false

namespace TheanoLM

section
variable {S X I J B : Type} [Field S] [LinearOrder S]

/-- An update of an uninterrupted epoch: what the next update does. -/
theorem uninterrupted_step {env : TrainEnv S X I J B} {t0 : Trainer S X I J} {K m : Nat} (h : Uninterrupted env t0 m K)
    (h0 : TInv env t0) (k : Nat) (hk : k < K) :
    ∃ b it t', env.next (stateAfter env t0 k).iter = (some b, it) ∧
      paramsAfter env t0 (k + 1) = some ((stateAfter env t0 k).updated env b it).params ∧
      ValidateResult env ((stateAfter env t0 k).updated env b it) t' ∧
      (stateAfter env t0 (k + 1)).log = t'.log ∧
      ((stateAfter env t0 (k + 1)).phase = .batches → ∃ s, stateAfter env t0 (k + 1) = { t' with stopper := s }) := by
  have hinv : TInv env (stateAfter env t0 k) := by
    unfold stateAfter
    clear hk
    induction k with
    | zero => exact h0
    | succ k ih => rw [Function.iterate_succ_apply']; exact step_inv env _ ih
  have hph := h.phase k hk
  have hstep : stateAfter env t0 (k + 1) = (stateAfter env t0 k).batchStep env := by
    unfold stateAfter at hph ⊢
    rw [Function.iterate_succ_apply']
    simp only [Trainer.step, hph]
  have hnf := h.notFailed (k + 1) (by omega)
  have hb := batchStep_result env (stateAfter env t0 k) hinv
  rw [← hstep] at hb
  generalize stateAfter env t0 (k + 1) = t1 at hb hnf ⊢
  have hpa : ∀ b it, env.next (stateAfter env t0 k).iter = (some b, it) →
      paramsAfter env t0 (k + 1) = some ((stateAfter env t0 k).updated env b it).params := by
    intro b it hn
    simp only [paramsAfter, hn, Trainer.updated]
  cases hb with
  | last it hl =>
    have := h.batch k hk
    rw [hl] at this
    exact absurd rfl this
  | failed b it e _ _ => exact absurd rfl (hnf e)
  | next b it t' s hn hr hst => exact ⟨b, it, t', hn, hpa b it hn, hr, rfl, fun _ => ⟨s, rfl⟩⟩
  | stop b it t' s hn hr hst =>
    have hi' := hr.inv (updated_inv hinv b it)
    have hi'' : TInv env { t' with stopper := s } :=
      ⟨hi'.file, hi'.noVal, hi'.noFile, hi'.withFile, hi'.history, hi'.phase⟩
    have he := endEpoch_result env { t' with stopper := s } hi''
    rw [h.validation] at he
    simp only [if_true] at he
    rw [he]
    exact ⟨b, it, t', hn, hpa b it hn, hr, rfl, fun h => (by cases h)⟩

/-- The samples that have been collected after `k` updates. -/
structure WInv (env : TrainEnv S X I J B) (t0 : Trainer S X I J) (m k c : Nat) : Prop where
  le : c ≤ k
  length : (stateAfter env t0 k).localPerplexities.length = c
  samples : ∀ i p, (stateAfter env t0 k).localPerplexities[i]? = some p →
    ∃ x, paramsAfter env t0 (k - c + 1 + i) = some x ∧ env.perplexity x = .ok p
  window : ∀ i, k - c < i → i ≤ k → isScheduled (m + i) env.updatesPerEpoch env.frequency (env.samples - 1) = true ∧
    isScheduled (m + i) env.updatesPerEpoch env.frequency 0 = false
  first : c = k ∨ isScheduled (m + (k - c)) env.updatesPerEpoch env.frequency (env.samples - 1) = false ∨
    isScheduled (m + (k - c)) env.updatesPerEpoch env.frequency 0 = true
  noCenter : (stateAfter env t0 k).validationState = none → ∀ i, k - c < i → i ≤ k →
    isScheduled (m + i) env.updatesPerEpoch env.frequency (env.samples / 2) = false
  center : ∀ v, (stateAfter env t0 k).validationState = some v → ∃ i, k - c < i ∧ i ≤ k ∧
    isScheduled (m + i) env.updatesPerEpoch env.frequency (env.samples / 2) = true ∧
    (∀ j, k - c < j → j < i → isScheduled (m + j) env.updatesPerEpoch env.frequency (env.samples / 2) = false) ∧
    paramsAfter env t0 i = some v.params ∧ v.update = m + i

/-- The center state when the next update is at or after the center. -/
theorem WInv.centerState {env : TrainEnv S X I J B} {t0 : Trainer S X I J} {m k c : Nat} (h : WInv env t0 m k c)
    (hu : (stateAfter env t0 k).update = m + k) (b : B) (it : I)
    (hp : paramsAfter env t0 (k + 1) = some ((stateAfter env t0 k).updated env b it).params)
    (hh : isScheduled (m + (k + 1)) env.updatesPerEpoch env.frequency (env.samples / 2) = true) :
    ∃ i, k - c < i ∧ i ≤ k + 1 ∧
    isScheduled (m + i) env.updatesPerEpoch env.frequency (env.samples / 2) = true ∧
    (∀ j, k - c < j → j < i → isScheduled (m + j) env.updatesPerEpoch env.frequency (env.samples / 2) = false) ∧
    paramsAfter env t0 i = some ((stateAfter env t0 k).validationState.getD
      (((stateAfter env t0 k).updated env b it).getState env)).params ∧
    ((stateAfter env t0 k).validationState.getD (((stateAfter env t0 k).updated env b it).getState env)).update = m + i := by
  cases hv : (stateAfter env t0 k).validationState with
  | none =>
    refine ⟨k + 1, by omega, le_refl _, hh, ?_, ?_, ?_⟩
    · intro j h1 h2; exact h.noCenter hv j h1 (by omega)
    · exact hp
    · simp only [Option.getD_none, Trainer.getState, Trainer.updated, hu]; omega
  | some v =>
    obtain ⟨i, h1, h2, h3, h4, h5, h6⟩ := h.center v hv
    exact ⟨i, h1, by omega, h3, h4, h5, h6⟩

theorem uninterrupted_window {env : TrainEnv S X I J B} {t0 : Trainer S X I J} {K m : Nat} (h : Uninterrupted env t0 m K)
    (h0 : TInv env t0) (hl : t0.localPerplexities = []) (hv : t0.validationState = none)
    (hn : 0 < env.updatesPerEpoch) (k : Nat) (hk : k < K) : ∃ c, WInv env t0 m k c := by
  induction k with
  | zero =>
    refine ⟨0, le_refl _, ?_, ?_, fun i h1 h2 => (by omega), Or.inl rfl, fun _ i h1 h2 => (by omega), ?_⟩
    · simp [stateAfter, hl]
    · intro i p hp; simp [stateAfter, hl] at hp
    · intro v hv'; simp [stateAfter, hv] at hv'
  | succ k ih =>
    obtain ⟨c, hc⟩ := ih (by omega)
    obtain ⟨b, it, t', hnx, hpa, hr, -, hbat⟩ := uninterrupted_step h h0 k (by omega)
    obtain ⟨s, hs⟩ := hbat (h.phase (k + 1) hk)
    have hu : (stateAfter env t0 k).update = m + k := h.update k (by omega)
    have huu : ((stateAfter env t0 k).updated env b it).update = m + (k + 1) := by
      simp only [Trainer.updated, hu]; omega
    -- the state when the buffers are empty
    have hempty : t'.localPerplexities = [] → t'.validationState = none →
        (isScheduled (m + (k + 1)) env.updatesPerEpoch env.frequency (env.samples - 1) = false ∨
          isScheduled (m + (k + 1)) env.updatesPerEpoch env.frequency 0 = true) → WInv env t0 m (k + 1) 0 := by
      intro h1 h2 h3
      refine ⟨by omega, by rw [hs]; simp [h1], ?_, fun i h4 h5 => (by omega), Or.inr h3, fun _ i h4 h5 => (by omega), ?_⟩
      · intro i p hp; rw [hs] at hp; simp [h1] at hp
      · intro v hv'; rw [hs] at hv'; simp [h2] at hv'
    -- the samples when one has been added
    have hsample : ∀ x, env.perplexity ((stateAfter env t0 k).updated env b it).params = .ok x →
        t'.localPerplexities = (stateAfter env t0 k).localPerplexities ++ [x] →
        ∀ i p, (stateAfter env t0 (k + 1)).localPerplexities[i]? = some p →
          ∃ y, paramsAfter env t0 (k + 1 - (c + 1) + 1 + i) = some y ∧ env.perplexity y = .ok p := by
      intro x hx hloc i p hp
      rw [hs] at hp
      simp only [hloc] at hp
      have hsub : k + 1 - (c + 1) = k - c := by omega
      rw [hsub]
      by_cases hi : i < c
      · rw [List.getElem?_append_left (by rw [hc.length]; exact hi)] at hp
        exact hc.samples i p hp
      · have hlt : i < ((stateAfter env t0 k).localPerplexities ++ [x]).length := (List.getElem?_eq_some_iff.mp hp).1
        rw [List.length_append, hc.length, List.length_singleton] at hlt
        have hic : i = c := by omega
        subst hic
        rw [List.getElem?_append_right (by rw [hc.length]), hc.length, Nat.sub_self] at hp
        simp only [List.getElem?_cons_zero, Option.some.injEq] at hp
        subst hp
        have : k - i + 1 + i = k + 1 := by have := hc.le; omega
        rw [this]
        exact ⟨_, hpa, hx⟩
    have hwin : isScheduled (m + (k + 1)) env.updatesPerEpoch env.frequency (env.samples - 1) = true →
        isScheduled (m + (k + 1)) env.updatesPerEpoch env.frequency 0 = false →
        ∀ i, k + 1 - (c + 1) < i → i ≤ k + 1 →
          isScheduled (m + i) env.updatesPerEpoch env.frequency (env.samples - 1) = true ∧
          isScheduled (m + i) env.updatesPerEpoch env.frequency 0 = false := by
      intro h1 h2 i h3 h4
      by_cases hi : i = k + 1
      · rw [hi]; exact ⟨h1, h2⟩
      · exact hc.window i (by omega) (by omega)
    have hfirst : c + 1 = k + 1 ∨
        isScheduled (m + (k + 1 - (c + 1))) env.updatesPerEpoch env.frequency (env.samples - 1) = false ∨
        isScheduled (m + (k + 1 - (c + 1))) env.updatesPerEpoch env.frequency 0 = true := by
      have hsub : k + 1 - (c + 1) = k - c := by omega
      rw [hsub]
      exact hc.first.imp (fun h => by omega) id
    -- an event is within `samples / 2` only if it is within `samples - 1`, unless it is now
    cases hr with
    | idle hid =>
      rcases hid with hid | hid
      · rw [h.validation] at hid; cases hid
      · rw [huu] at hid
        -- no samples have been collected
        have hc0 : c = 0 := by
          by_contra hne
          obtain ⟨h1, h2⟩ := hc.window k (by have := hc.le; omega) (le_refl _)
          obtain ⟨j, hj, hj'⟩ := (C41_lookahead _ _ hn (m + k) _).mp h1
          have hj0 : j ≠ 0 := by
            rintro rfl
            rw [Nat.add_zero, h2] at hj'; cases hj'
          have : isScheduled (m + (k + 1)) env.updatesPerEpoch env.frequency (env.samples - 1) = true :=
            (C41_lookahead _ _ hn _ _).mpr ⟨j - 1, by omega, by
              have : m + (k + 1) + (j - 1) = m + k + j := by omega
              rw [this]; exact hj'⟩
          rw [this] at hid; cases hid
        subst hc0
        have h1 : (stateAfter env t0 k).localPerplexities = [] := List.eq_nil_of_length_eq_zero hc.length
        have h2 : (stateAfter env t0 k).validationState = none := by
          cases hvs : (stateAfter env t0 k).validationState with
          | none => rfl
          | some v => obtain ⟨i, h3, h4, -⟩ := hc.center v hvs; omega
        exact ⟨0, hempty h1 h2 (Or.inl hid)⟩
    | sample x _ h1 h2 hx =>
      rw [huu] at h1 h2
      have h3 : isScheduled (m + (k + 1)) env.updatesPerEpoch env.frequency 0 = false := by
        by_contra hne
        have := (C41_lookahead _ _ hn (m + (k + 1)) (env.samples / 2)).mpr ⟨0, by omega, by simpa using hne⟩
        rw [this] at h2; cases h2
      refine ⟨c + 1, by have := hc.le; omega, ?_, hsample x hx rfl, hwin h1 h3, hfirst, ?_, ?_⟩
      · rw [hs]; simp [Trainer.updated, hc.length]
      · intro hvs i h4 h5
        by_cases hi : i = k + 1
        · rw [hi]; exact h2
        · refine hc.noCenter ?_ i (by omega) (by omega)
          rw [hs] at hvs; exact hvs
      · intro v hvs
        rw [hs] at hvs
        obtain ⟨i, h4, h5, h6⟩ := hc.center v hvs
        have hsub : k + 1 - (c + 1) = k - c := by omega
        rw [hsub]
        exact ⟨i, h4, by omega, h6⟩
    | late x _ h1 h2 h3 hx =>
      rw [huu] at h1 h2 h3
      refine ⟨c + 1, by have := hc.le; omega, ?_, hsample x hx rfl, hwin h1 h3, hfirst, ?_, ?_⟩
      · rw [hs]; simp [Trainer.updated, hc.length]
      · intro hvs; rw [hs] at hvs; cases hvs
      · intro v hvs
        rw [hs] at hvs
        cases hvs
        have hsub : k + 1 - (c + 1) = k - c := by omega
        rw [hsub]
        exact hc.centerState hu b it hpa h2
    | ignored x _ h1 h3 hx _ =>
      rw [huu] at h3
      exact ⟨0, hempty rfl rfl (Or.inr h3)⟩
    | validation x t' _ h1 h3 hx _ hr =>
      rw [huu] at h3
      refine ⟨0, hempty ?_ ?_ (Or.inr h3)⟩
      · cases hr <;> rfl
      · cases hr <;> rfl

end

end TheanoLM
