import Verif.Lemmas.TrainerResume
/-!
# The rest of the samples of a validation when training is continued
-/
set_option linter.unusedSectionVars false

namespace TheanoLM

section
variable {S X I J B : Type} [Field S] [LinearOrder S] {env : TrainEnv S X I J B} {R : I → I → Prop}

/-! ## Invariants -/

/-- The state at the center of the samples is of an earlier or the current update, and the epochs are not past the maximum. -/
structure CenterInv (env : TrainEnv S X I J B) (t : Trainer S X I J) : Prop where
  center : ∀ vs, t.validationState = some vs → vs.epoch < t.epoch ∨ (vs.epoch = t.epoch ∧ vs.update ≤ t.update)
  running : t.phase = .batches → (t.epoch : Int) ≤ env.maxEpochs
  file : ∀ f, t.file = some f → (f.epoch : Int) ≤ env.maxEpochs
  state : ∀ vs, t.validationState = some vs → (vs.epoch : Int) ≤ env.maxEpochs
  stopper : (annealings t.log = 0 ∨ env.criterion = .epochCount) → t.stopper = env.criterion.initial

theorem startNewMinibatch_initial (c : Criterion) (e : Nat) (cost : Option S) :
    ((c.initial : Stopper S).startNewMinibatch c e cost).2 = c.initial := by
  cases c with
  | epochCount => rfl
  | noImprovement n =>
    simp only [Criterion.initial, Stopper.startNewMinibatch]
    split <;> simp
  | annealingCount n m =>
    simp only [Criterion.initial, Stopper.startNewMinibatch]
    split <;> rfl

theorem go_initial {c : Criterion} {e : Nat} {cost : Option S} {s : Stopper S}
    (h : s.startNewMinibatch c e cost = (true, c.initial)) (cost' : Option S) :
    (c.initial : Stopper S).startNewMinibatch c e cost' = (true, c.initial) := by
  cases c with
  | epochCount => rfl
  | noImprovement n =>
    simp only [Criterion.initial, Stopper.startNewMinibatch]
    split <;> simp
  | annealingCount n m =>
    cases s with
    | epochCount => simp [Stopper.startNewMinibatch, Criterion.initial] at h
    | noImprovement o i => simp [Stopper.startNewMinibatch, Criterion.initial] at h
    | annealingCount left =>
      simp only [Criterion.initial, Stopper.startNewMinibatch] at h ⊢
      split at h
      · rename_i hle
        rw [if_pos hle]
      · rename_i hle
        rw [if_neg hle]
        simp only [Prod.mk.injEq, Stopper.annealingCount.injEq] at h
        rw [h.2] at h
        exact Prod.ext h.1 rfl

theorem ValidateResult.centerInv {t t' : Trainer S X I J} (h : ValidateResult env t t') (hc : CenterInv env t)
    (hp : t.phase = .batches) : CenterInv env t' := by
  have hnone : ∀ vs : TrainFile S X J, (none : Option (TrainFile S X J)) = some vs → ∀ p : Prop, p := fun vs h => by cases h
  have hd : ((t.validationState.getD (t.getState env)).epoch : Int) ≤ env.maxEpochs := by
    cases hv : t.validationState with
    | none => exact hc.running hp
    | some vs => exact hc.state vs hv
  cases h with
  | idle _ => exact hc
  | sample x => exact ⟨hc.center, hc.running, hc.file, hc.state, hc.stopper⟩
  | late x =>
    refine ⟨?_, hc.running, hc.file, ?_, hc.stopper⟩
    · intro vs h
      cases h
      cases hv : t.validationState with
      | none => exact .inr ⟨rfl, le_refl _⟩
      | some vs => exact hc.center vs hv
    · intro vs h
      cases h
      exact hd
  | ignored x => exact ⟨fun vs h => hnone vs h _, hc.running, hc.file, fun vs h => hnone vs h _, hc.stopper⟩
  | validation x t' hv _ _ _ _ hr =>
    cases hr with
    | improved _ =>
      refine ⟨fun vs h => hnone vs h _, hc.running, ?_, fun vs h => hnone vs h _, hc.stopper⟩
      intro f hf
      cases hf
      exact hd
    | waiting _ _ => exact ⟨fun vs h => hnone vs h _, hc.running, hc.file, fun vs h => hnone vs h _, hc.stopper⟩
    | annealed f _ _ _ hf =>
      refine ⟨fun vs h => hnone vs h _, fun _ => hc.file f hf, hc.file, fun vs h => hnone vs h _, ?_⟩
      rintro (h | h)
      · simp [annealings] at h
      · have := hc.stopper (.inr h)
        simp only [this, h]
        rfl

theorem endEpoch_centerInv {t : Trainer S X I J} (hi : TInv env t) (hc : CenterInv env t) (hp : t.phase = .batches) :
    CenterInv env (t.endEpoch env) := by
  rw [endEpoch_result env t hi]
  have hcen : ∀ vs, t.validationState = some vs → vs.epoch < t.epoch + 1 ∨ (vs.epoch = t.epoch + 1 ∧ vs.update ≤ 0) := by
    intro vs hv
    rcases hc.center vs hv with h | h <;> omega
  cases hv : env.hasValidation with
  | true => exact ⟨hcen, fun h => (by cases h), hc.file, hc.state, hc.stopper⟩
  | false =>
    refine ⟨hcen, fun h => (by cases h), ?_, hc.state, hc.stopper⟩
    intro f hf
    cases hf
    exact hc.running hp

theorem step_centerInv {t : Trainer S X I J} (hi : TInv env t) (hc : CenterInv env t) : CenterInv env (t.step env) := by
  unfold Trainer.step
  split
  · unfold Trainer.startEpoch
    split
    · exact ⟨hc.center, fun h => (by cases h), hc.file, hc.state, hc.stopper⟩
    · rename_i hle
      rw [hi.candidateCost]
      simp only
      have hs := fun (h : annealings t.log = 0 ∨ env.criterion = .epochCount) (go : Bool) (s : Stopper S)
          (he : t.stopper.startNewMinibatch env.criterion t.epoch (t.file.bind TrainFile.cost) = (go, s)) => by
        have := startNewMinibatch_initial env.criterion t.epoch (t.file.bind TrainFile.cost)
        rw [← hc.stopper h, he] at this
        exact this.trans (hc.stopper h)
      split
      · rename_i s he
        exact ⟨hc.center, fun _ => (by simp only; omega), hc.file, hc.state, fun h => hs h _ _ he⟩
      · rename_i s he
        exact ⟨hc.center, fun h => (by cases h), hc.file, hc.state, fun h => hs h _ _ he⟩
  · rename_i hp
    have hb := batchStep_result env t hi
    revert hb
    generalize t.batchStep env = t1
    intro hb
    have hup : ∀ b it, CenterInv env (t.updated env b it) := fun b it =>
      ⟨fun vs h => (by
        rcases hc.center vs h with h | ⟨h1, h2⟩
        · exact .inl h
        · exact .inr ⟨h1, Nat.le_succ_of_le h2⟩), hc.running, hc.file, hc.state, hc.stopper⟩
    have hstop : ∀ {t' : Trainer S X I J} {go : Bool} {s : Stopper S}, CenterInv env t' →
        t'.stopper.startNewMinibatch env.criterion t'.epoch (t'.file.bind TrainFile.cost) = (go, s) →
        CenterInv env { t' with stopper := s } := by
      intro t' go s h' he
      refine ⟨h'.center, h'.running, h'.file, h'.state, fun h => ?_⟩
      have := startNewMinibatch_initial env.criterion t'.epoch (t'.file.bind TrainFile.cost)
      rw [← h'.stopper h, he] at this
      exact this.trans (h'.stopper h)
    cases hb with
    | last it hl =>
      exact endEpoch_centerInv (t := { t with iter := it }) ⟨hi.file, hi.noVal, hi.noFile, hi.withFile, hi.history, hi.phase⟩
        ⟨hc.center, hc.running, hc.file, hc.state, hc.stopper⟩ hp
    | failed b it e _ _ =>
      have := hup b it
      exact ⟨this.center, fun h => (by cases h), this.file, this.state, this.stopper⟩
    | next b it t' s hn hr hst => exact hstop (hr.centerInv (hup b it) hp) hst
    | stop b it t' s hn hr hst =>
      have hi' := hr.inv (updated_inv hi b it)
      refine endEpoch_centerInv (t := { t' with stopper := s })
        ⟨hi'.file, hi'.noVal, hi'.noFile, hi'.withFile, hi'.history, hi'.phase⟩ (hstop (hr.centerInv (hup b it) hp) hst) ?_
      cases hr with
      | idle _ => exact hp
      | sample x => exact hp
      | late x => exact hp
      | ignored x => exact hp
      | validation x t' hv _ _ _ _ hr => cases hr <;> exact hp
  · exact hc
  · exact hc

theorem reachable_centerInv {t : Trainer S X I J} (h : TrainReachable env t) : CenterInv env t := by
  induction h with
  | start params lr iter t ht =>
    rw [initialize_none] at ht
    cases ht
    exact ⟨fun vs h => (by cases h), fun h => (by cases h), fun f h => (by cases h), fun vs h => (by cases h), fun _ => rfl⟩
  | step t hr ih => exact step_centerInv (reachable_inv hr) ih
  | restart t params lr iter t' _ ht ih =>
    cases hf : t.file with
    | none =>
      rw [hf, initialize_none] at ht
      cases ht
      exact ⟨fun vs h => (by cases h), fun h => (by cases h), fun f h => (by cases h), fun vs h => (by cases h), fun _ => rfl⟩
    | some f =>
      rw [hf, initialize_some] at ht
      cases ht
      refine ⟨fun vs h => (by cases h), fun h => (by cases h), ?_, fun vs h => (by cases h), fun _ => rfl⟩
      intro f' hf'
      cases hf'
      exact ih.file f hf

/-! ## The process that saved the model -/

theorem stateAfter_succ (env : TrainEnv S X I J B) (t : Trainer S X I J) (k : Nat) :
    stateAfter env t (k + 1) = (stateAfter env t k).step env := Function.iterate_succ_apply' _ _ _

theorem stateAfter_add (env : TrainEnv S X I J B) (t : Trainer S X I J) (k n : Nat) :
    stateAfter env t (k + n) = stateAfter env (stateAfter env t k) n := by
  unfold stateAfter
  rw [Nat.add_comm, Function.iterate_add_apply]

theorem stateAfter_inv {t : Trainer S X I J} (h : TInv env t) (k : Nat) : TInv env (stateAfter env t k) := by
  induction k with
  | zero => exact h
  | succ k ih => rw [stateAfter_succ]; exact step_inv env _ ih

theorem stateAfter_centerInv {t : Trainer S X I J} (h : TInv env t) (hc : CenterInv env t) (k : Nat) :
    CenterInv env (stateAfter env t k) := by
  induction k with
  | zero => exact hc
  | succ k ih => rw [stateAfter_succ]; exact step_centerInv (stateAfter_inv h k) ih

/-- After `k` updates, the center of the samples was the first update, and the validation has not ended. -/
structure Centered (env : TrainEnv S X I J B) (t0 : Trainer S X I J) (m k : Nat) : Prop where
  state : (stateAfter env t0 k).validationState = some ((stateAfter env t0 1).getState env)
  center : isScheduled (m + 1) env.updatesPerEpoch env.frequency (env.samples / 2) = true
  later : ∀ j, 1 ≤ j → j ≤ k → isScheduled (m + j) env.updatesPerEpoch env.frequency 0 = false

/-- The first update is not the center of the current samples. -/
def NotCentered (env : TrainEnv S X I J B) (t0 : Trainer S X I J) (m k : Nat) : Prop :=
  ∀ vs, (stateAfter env t0 k).validationState = some vs → ¬ (vs.epoch = t0.epoch ∧ vs.update = m + 1)

theorem scheduled_now_any {u n f : Nat} (hn : 0 < n) (h : isScheduled u n f 0 = true) (w : Nat) : isScheduled u n f w = true :=
  (C41_lookahead n f hn u w).mpr ⟨0, Nat.zero_le _, h⟩

theorem notCentered_step {t0 : Trainer S X I J} {m K : Nat} (h : Uninterrupted env t0 m (K + 1)) (h0 : TInv env t0) {k : Nat} (hk : k < K)
    (hk0 : 0 < k) (hc : NotCentered env t0 m k) : NotCentered env t0 m (k + 1) := by
  obtain ⟨b, it, t', hn, _, hr, _, hst⟩ := uninterrupted_step h h0 k (by omega)
  obtain ⟨s, hs⟩ := hst (h.phase (k + 1) (by omega))
  have hu := h.update k (by omega)
  unfold NotCentered at hc ⊢
  rw [hs]
  have hnone : ∀ vs : TrainFile S X J, (none : Option (TrainFile S X J)) = some vs → ∀ p : Prop, p := fun vs h => by cases h
  cases hr with
  | idle _ => exact hc
  | sample x => exact hc
  | late x =>
    intro vs hvs
    cases hvs
    show ¬ (((stateAfter env t0 k).validationState.getD (((stateAfter env t0 k).updated env b it).getState env)).epoch = t0.epoch ∧
      ((stateAfter env t0 k).validationState.getD (((stateAfter env t0 k).updated env b it).getState env)).update = m + 1)
    cases hv : (stateAfter env t0 k).validationState with
    | some vs => exact hc vs hv
    | none =>
      rintro ⟨_, h2⟩
      have h3 : (stateAfter env t0 k).update + 1 = m + 1 := h2
      omega
  | ignored x => exact fun vs h => hnone vs h _
  | validation x t' hv _ _ _ _ hr =>
    cases hr with
    | improved _ => exact fun vs h => hnone vs h _
    | waiting _ _ => exact fun vs h => hnone vs h _
    | annealed f _ _ _ hf => exact fun vs h => hnone vs h _

theorem centered_first {t0 : Trainer S X I J} {m K : Nat} (h : Uninterrupted env t0 m (K + 1)) (h0 : TInv env t0) (hc0 : CenterInv env t0)
    (hK : 0 < K) : Centered env t0 m 1 ∨ NotCentered env t0 m 1 := by
  obtain ⟨b, it, t', hn, _, hr, _, hst⟩ := uninterrupted_step h h0 0 (by omega)
  obtain ⟨s, hs⟩ := hst (h.phase 1 (by omega))
  have hu : t0.update = m := h.update 0 (by omega)
  have hs0 : stateAfter env t0 0 = t0 := rfl
  rw [hs0] at hr
  have hold : ∀ vs, t0.validationState = some vs → ¬ (vs.epoch = t0.epoch ∧ vs.update = m + 1) := by
    intro vs hv
    rcases hc0.center vs hv with h | h <;> omega
  have hnone : ∀ vs : TrainFile S X J, (none : Option (TrainFile S X J)) = some vs → ∀ p : Prop, p := fun vs h => by cases h
  have hup : (t0.updated env b it).update = m + 1 := by
    show t0.update + 1 = m + 1
    omega
  cases hr with
  | idle _ =>
    right
    unfold NotCentered
    rw [hs]
    exact hold
  | sample x =>
    right
    unfold NotCentered
    rw [hs]
    exact hold
  | late x hv h1 h2 h3 =>
    rw [hup] at h1 h2 h3
    cases hvs : t0.validationState with
    | none =>
      left
      refine ⟨?_, h2, ?_⟩
      · rw [hs]
        show some (t0.validationState.getD ((t0.updated env b it).getState env)) = _
        rw [hvs]
        rfl
      · intro j j1 j2
        have : j = 1 := by omega
        rw [this]
        exact h3
    | some vs =>
      right
      unfold NotCentered
      rw [hs]
      intro vs' hvs'
      cases hvs'
      show ¬ ((t0.validationState.getD ((t0.updated env b it).getState env)).epoch = t0.epoch ∧
        (t0.validationState.getD ((t0.updated env b it).getState env)).update = m + 1)
      rw [hvs]
      exact hold vs hvs
  | ignored x =>
    right
    unfold NotCentered
    rw [hs]
    exact fun vs h => hnone vs h _
  | validation x t' hv _ _ _ _ hr =>
    right
    unfold NotCentered
    rw [hs]
    cases hr with
    | improved _ => exact fun vs h => hnone vs h _
    | waiting _ _ => exact fun vs h => hnone vs h _
    | annealed f _ _ _ hf => exact fun vs h => hnone vs h _

theorem centered_step {t0 : Trainer S X I J} {m K : Nat} (hn0 : 0 < env.updatesPerEpoch) (h : Uninterrupted env t0 m (K + 1))
    (h0 : TInv env t0) {k : Nat} (hk : k < K) (hc : Centered env t0 m k) :
    Centered env t0 m (k + 1) ∨ NotCentered env t0 m (k + 1) := by
  obtain ⟨b, it, t', hn, _, hr, _, hst⟩ := uninterrupted_step h h0 k (by omega)
  obtain ⟨s, hs⟩ := hst (h.phase (k + 1) (by omega))
  have hu := h.update k (by omega)
  have hup : ((stateAfter env t0 k).updated env b it).update = m + (k + 1) := by
    show (stateAfter env t0 k).update + 1 = m + (k + 1)
    omega
  have hnone : ∀ vs : TrainFile S X J, (none : Option (TrainFile S X J)) = some vs → ∀ p : Prop, p := fun vs h => by cases h
  have hlater : isScheduled (m + (k + 1)) env.updatesPerEpoch env.frequency 0 = false →
      ∀ j, 1 ≤ j → j ≤ k + 1 → isScheduled (m + j) env.updatesPerEpoch env.frequency 0 = false := by
    intro hf j j1 j2
    rcases Nat.lt_or_ge k j with hlt | hle
    · have : j = k + 1 := by omega
      rw [this]
      exact hf
    · exact hc.later j j1 hle
  have hnow : ∀ w, isScheduled (m + (k + 1)) env.updatesPerEpoch env.frequency w = false →
      isScheduled (m + (k + 1)) env.updatesPerEpoch env.frequency 0 = false := by
    intro w hw
    cases hx : isScheduled (m + (k + 1)) env.updatesPerEpoch env.frequency 0 with
    | false => rfl
    | true =>
      have := scheduled_now_any hn0 hx w
      rw [hw] at this
      cases this
  cases hr with
  | idle hidle =>
    left
    refine ⟨?_, hc.center, hlater ?_⟩
    · rw [hs]
      exact hc.state
    · rcases hidle with hi | hi
      · rw [h.validation] at hi
        cases hi
      · rw [hup] at hi
        exact hnow _ hi
  | sample x _ _ h2 =>
    left
    rw [hup] at h2
    refine ⟨?_, hc.center, hlater (hnow _ h2)⟩
    rw [hs]
    exact hc.state
  | late x _ _ _ h3 =>
    left
    rw [hup] at h3
    refine ⟨?_, hc.center, hlater h3⟩
    rw [hs]
    show some ((stateAfter env t0 k).validationState.getD _) = _
    rw [hc.state]
    rfl
  | ignored x =>
    right
    unfold NotCentered
    rw [hs]
    exact fun vs h => hnone vs h _
  | validation x t' hv _ _ _ _ hr =>
    right
    unfold NotCentered
    rw [hs]
    cases hr with
    | improved _ => exact fun vs h => hnone vs h _
    | waiting _ _ => exact fun vs h => hnone vs h _
    | annealed f _ _ _ hf => exact fun vs h => hnone vs h _

/-- If the first update is not the center after some updates, it is not the center of the validation that ends after `K + 1` updates. -/
theorem notCentered_later {t0 : Trainer S X I J} {m K : Nat} (h : Uninterrupted env t0 m (K + 1)) (h0 : TInv env t0) {k : Nat}
    (hk : k ≤ K) (hk0 : 0 < k) (hc : NotCentered env t0 m k) : NotCentered env t0 m K := by
  obtain ⟨d, rfl⟩ := Nat.exists_eq_add_of_le hk
  have : ∀ e ≤ d, NotCentered env t0 m (k + e) := by
    intro e
    induction e with
    | zero => exact fun _ => hc
    | succ e ih =>
      intro he
      exact notCentered_step h h0 (k := k + e) (by omega) (by omega) (ih (by omega))
  exact this d (le_refl _)

theorem centered_all {t0 : Trainer S X I J} {m K : Nat} (hn0 : 0 < env.updatesPerEpoch) (h : Uninterrupted env t0 m (K + 1))
    (h0 : TInv env t0) (hc0 : CenterInv env t0) (hK : ¬ NotCentered env t0 m K) {k : Nat} (hk : k ≤ K) (hk0 : 0 < k) :
    Centered env t0 m k := by
  obtain ⟨k, rfl⟩ : ∃ j, k = j + 1 := ⟨k - 1, by omega⟩
  induction k with
  | zero =>
    rcases centered_first h h0 hc0 (by omega) with hc | hc
    · exact hc
    · exact absurd (notCentered_later h h0 hk (by omega) hc) hK
  | succ k ih =>
    rcases centered_step hn0 h h0 (k := k + 1) (by omega) (ih (by omega) (by omega)) with hc | hc
    · exact hc
    · exact absurd (notCentered_later h h0 hk (by omega) hc) hK

/-- What is known of the last update, at which the model was saved. -/
theorem saved_step {t0 : Trainer S X I J} {m K : Nat} (h : Uninterrupted env t0 m (K + 1)) (h0 : TInv env t0)
    (hp : (stateAfter env t0 (K + 1)).phase = .batches) {f : TrainFile S X J} {u : Nat} {sa : List S} {c : S}
    (hl : (stateAfter env t0 (K + 1)).log = .saved f :: .validated u sa c :: (stateAfter env t0 K).log) :
    ∃ b it x s, env.next (stateAfter env t0 K).iter = (some b, it) ∧
      isScheduled (m + K + 1) env.updatesPerEpoch env.frequency (env.samples - 1) = true ∧
      isScheduled (m + K + 1) env.updatesPerEpoch env.frequency 0 = true ∧
      env.perplexity (env.updateBatch (stateAfter env t0 K).params (stateAfter env t0 K).lr b) = .ok x ∧
      f = { ((stateAfter env t0 K).validationState.getD (((stateAfter env t0 K).updated env b it).getState env)) with
        costs := (stateAfter env t0 K).costs ++ [c] } ∧
      (∃ cost s', Stopper.startNewMinibatch env.criterion s' (stateAfter env t0 K).epoch cost = (true, s)) ∧
      stateAfter env t0 (K + 1) = { stateAfter env t0 K with
        params := env.updateBatch (stateAfter env t0 K).params (stateAfter env t0 K).lr b
        iter := it
        update := m + K + 1
        costs := (stateAfter env t0 K).costs ++ [c]
        candidateIndex := some (stateAfter env t0 K).costs.length
        file := some f
        stopper := s
        localPerplexities := []
        validationState := none
        log := .saved f :: .validated u sa c :: (stateAfter env t0 K).log } := by
  have hinv := stateAfter_inv h0 K
  have hph := h.phase K (by omega)
  have hu := h.update K (by omega)
  have hstep : stateAfter env t0 (K + 1) = (stateAfter env t0 K).batchStep env := by
    rw [stateAfter_succ]
    simp only [Trainer.step, hph]
  have hb := batchStep_result env (stateAfter env t0 K) hinv
  rw [← hstep] at hb
  generalize stateAfter env t0 (K + 1) = t1 at hb hp hl ⊢
  generalize stateAfter env t0 K = t at hb hl hinv hph hu ⊢
  cases hb with
  | last it hn =>
    rw [endEpoch_result env { t with iter := it } ⟨hinv.file, hinv.noVal, hinv.noFile, hinv.withFile, hinv.history, hinv.phase⟩] at hp
    split at hp <;> cases hp
  | failed b it e _ _ => cases hp
  | stop b it t' s hn hr hst =>
    have hi' := hr.inv (updated_inv hinv b it)
    rw [endEpoch_result env { t' with stopper := s } ⟨hi'.file, hi'.noVal, hi'.noFile, hi'.withFile, hi'.history, hi'.phase⟩] at hp
    split at hp <;> cases hp
  | next b it t' s hn hr hst =>
    have hup : (t.updated env b it).update = m + K + 1 := by
      show t.update + 1 = m + K + 1
      omega
    have hlen : ∀ (e e' : TrainEvent S X J) (l : List (TrainEvent S X J)), l ≠ e :: e' :: l := by
      intro e e' l h
      have := congrArg List.length h
      simp only [List.length_cons] at this
      omega
    cases hr with
    | idle _ => exact absurd hl (hlen _ _ _)
    | sample x => exact absurd hl (hlen _ _ _)
    | late x => exact absurd hl (hlen _ _ _)
    | ignored x => exact absurd hl (hlen _ _ _)
    | validation x t' hv h1 h2 hx hsamp hr =>
      rw [hup] at h1 h2
      cases hr with
      | waiting _ _ =>
        simp only at hl
        cases (List.cons.inj hl).1
      | annealed f _ _ _ hf =>
        simp only at hl
        cases (List.cons.inj hl).1
      | improved himp =>
        simp only at hl
        obtain ⟨l1, l2⟩ := List.cons.inj hl
        obtain ⟨l3, _⟩ := List.cons.inj l2
        cases l3
        cases l1
        refine ⟨b, it, x, s, hn, h1, h2, hx, rfl, ⟨_, _, hst⟩, ?_⟩
        simp only [Trainer.updated, hu]

end

end TheanoLM
