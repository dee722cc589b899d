import Verif.Lemmas.TrainerResumeWindow
/-!
# The process that continues training from a model file
-/
set_option linter.unusedSectionVars false

namespace TheanoLM

section
variable {S X I J B : Type} [Field S] [LinearOrder S] {env : TrainEnv S X I J B} {R : I → I → Prop}

/-- The process that saved the model has not ended the validation yet.  The process that was started from the model file has collected
fewer samples. -/
structure Resumed (env : TrainEnv S X I J B) (R : I → I → Prop) (f : TrainFile S X J) (t t' : Trainer S X I J) (k : Nat) : Prop where
  phase : t'.phase = .batches
  params : t'.params = t.params
  lr : t'.lr = t.lr
  epoch : t'.epoch = t.epoch
  sameEpoch : t.epoch = f.epoch
  update : t'.update = t.update
  iter : SameNext env R t.iter t'.iter
  costs : t'.costs = f.costs
  candidate : t'.candidateIndex = lastIndex f.costs
  file : t'.file = some f
  stopper : t'.stopper = env.criterion.initial
  samples : t'.localPerplexities.length + 1 ≤ k

theorem lastIndex_append (l : List S) (c : S) : lastIndex (l ++ [c]) = some l.length := by
  simp [lastIndex]

/-- Starting an epoch in the new process. -/
theorem restored_start {iter : I} {f : TrainFile S X J} {log : List (TrainEvent S X J)} (hi : TInv env (Trainer.restored env iter f log))
    (he : (f.epoch : Int) ≤ env.maxEpochs) {s' : Stopper S} {cost : Option S}
    (hgo : s'.startNewMinibatch env.criterion f.epoch cost = (true, env.criterion.initial)) :
    stateAfter env (Trainer.restored env iter f log) 1 =
      { Trainer.restored env iter f log with phase := .batches, log := .epochStarted f.epoch :: .initialized :: log } := by
  show (Trainer.restored env iter f log).step env = _
  have hp : (Trainer.restored env iter f log).phase = .epochStart := rfl
  unfold Trainer.step
  rw [hp]
  simp only
  unfold Trainer.startEpoch
  rw [if_neg (by show ¬ env.maxEpochs < (f.epoch : Int); omega), hi.candidateCost]
  simp only
  have hgo' := go_initial hgo (((Trainer.restored env iter f log).file).bind TrainFile.cost)
  have hst : (Trainer.restored env iter f log).stopper = env.criterion.initial := rfl
  have hep : (Trainer.restored env iter f log).epoch = f.epoch := rfl
  rw [hst, hep, hgo']
  rfl

/-- An update before the end of the validation. -/
theorem resumed_step (hR : SameIterators env R) {f : TrainFile S X J} {t0 : Trainer S X I J} {m K : Nat}
    (h : Uninterrupted env t0 m (K + 1)) (h0 : TInv env t0) {k : Nat} (hk : k < K)
    (hnow : isScheduled (m + (k + 1)) env.updatesPerEpoch env.frequency 0 = false)
    (hsoon : isScheduled (m + (k + 1)) env.updatesPerEpoch env.frequency (env.samples - 1) = true)
    {s' : Stopper S} {cost : Option S} (hgo : s'.startNewMinibatch env.criterion f.epoch cost = (true, env.criterion.initial))
    {t' : Trainer S X I J} (hi : TInv env t') (hr : Resumed env R f (stateAfter env t0 k) t' k) :
    Resumed env R f (stateAfter env t0 (k + 1)) (t'.step env) (k + 1) := by
  obtain ⟨b, it, t1, hn, _, hv, _, hst⟩ := uninterrupted_step h h0 k (by omega)
  obtain ⟨s, hs⟩ := hst (h.phase (k + 1) (by omega))
  have hu := h.update k (by omega)
  have hup : ((stateAfter env t0 k).updated env b it).update = m + (k + 1) := by
    show (stateAfter env t0 k).update + 1 = m + (k + 1)
    omega
  -- the process that saved the model
  have horig : (∃ x, env.perplexity ((stateAfter env t0 k).updated env b it).params = .ok x) ∧ ∃ l v,
      stateAfter env t0 (k + 1) = { (stateAfter env t0 k).updated env b it with localPerplexities := l, validationState := v, stopper := s } := by
    rw [hs]
    cases hv with
    | idle hidle =>
      rcases hidle with hi | hi
      · rw [h.validation] at hi
        cases hi
      · rw [hup, hsoon] at hi
        cases hi
    | sample x _ _ _ hx => exact ⟨⟨x, hx⟩, _, _, rfl⟩
    | late x _ _ _ _ hx => exact ⟨⟨x, hx⟩, _, _, rfl⟩
    | ignored x _ _ h3 =>
      rw [hup, hnow] at h3
      cases h3
    | validation x t' hv _ h3 _ _ hr =>
      rw [hup, hnow] at h3
      cases h3
  obtain ⟨⟨x, hx⟩, l, v, ho⟩ := horig
  -- the new process
  obtain ⟨n1, n2⟩ := hr.iter
  rw [hn] at n1 n2
  simp only at n1 n2
  have hb := batchStep_result env t' hi
  have hstep : t'.step env = t'.batchStep env := by
    simp only [Trainer.step, hr.phase]
  rw [hstep]
  revert hb
  generalize t'.batchStep env = w
  intro hb
  have hnext : ∀ b' it', env.next t'.iter = (some b', it') → b' = b ∧ R it it' := by
    intro b' it' he
    rw [he] at n1 n2
    exact ⟨(Option.some.inj n1).symm, n2⟩
  have hup' : ∀ it', (t'.updated env b it').update = m + (k + 1) := by
    intro it'
    show t'.update + 1 = _
    rw [hr.update]
    omega
  -- the result of the validation in the new process
  have hquiet : ∀ it' w, ValidateResult env (t'.updated env b it') w → ∃ l v, l.length ≤ t'.localPerplexities.length + 1 ∧
      w = { t'.updated env b it' with localPerplexities := l, validationState := v } := by
    intro it' w hw
    cases hw with
    | idle hidle => exact ⟨_, _, Nat.le_succ _, rfl⟩
    | sample x _ _ _ hx => exact ⟨_, _, by simp [Trainer.updated], rfl⟩
    | late x _ _ _ _ hx => exact ⟨_, _, by simp [Trainer.updated], rfl⟩
    | ignored x _ _ h3 =>
      rw [hup', hnow] at h3
      cases h3
    | validation x t' hv _ h3 _ _ hr =>
      rw [hup', hnow] at h3
      cases h3
  have hstop : ∀ cost', (t'.stopper).startNewMinibatch env.criterion t'.epoch cost' = (true, env.criterion.initial) := by
    intro cost'
    rw [hr.stopper, hr.epoch, hr.sameEpoch]
    exact go_initial hgo cost'
  cases hb with
  | last it' hl =>
    rw [hl] at n1
    cases n1
  | failed b' it' e hl hp =>
    obtain ⟨rfl, _⟩ := hnext b' it' hl
    have : (t'.updated env b' it').params = ((stateAfter env t0 k).updated env b' it).params := by
      show env.updateBatch t'.params t'.lr b' = env.updateBatch _ _ b'
      rw [hr.params, hr.lr]
    rw [this, hx] at hp
    cases hp
  | next b' it' w s1 hl hw hs1 =>
    obtain ⟨rfl, hit⟩ := hnext b' it' hl
    obtain ⟨l', v', hlen, rfl⟩ := hquiet it' w hw
    have he : s1 = env.criterion.initial := by
      have h2 := hstop ((t'.updated env b' it').file.bind TrainFile.cost)
      have h3 : (t'.stopper).startNewMinibatch env.criterion t'.epoch ((t'.updated env b' it').file.bind TrainFile.cost) = (true, s1) := hs1
      rw [h2] at h3
      exact (Prod.mk.inj h3).2.symm
    subst he
    rw [ho]
    refine ⟨hr.phase, ?_, hr.lr, hr.epoch, hr.sameEpoch, ?_, hR.next _ _ hit, hr.costs, hr.candidate, hr.file, rfl, ?_⟩
    · show env.updateBatch t'.params t'.lr b' = env.updateBatch _ _ b'
      rw [hr.params, hr.lr]
    · show t'.update + 1 = (stateAfter env t0 k).update + 1
      rw [hr.update]
    · have := hr.samples
      show l'.length + 1 ≤ k + 1
      omega
  | stop b' it' w s1 hl hw hs1 =>
    obtain ⟨rfl, hit⟩ := hnext b' it' hl
    obtain ⟨l', v', hlen, rfl⟩ := hquiet it' w hw
    have h2 := hstop ((t'.updated env b' it').file.bind TrainFile.cost)
    have h3 : (t'.stopper).startNewMinibatch env.criterion t'.epoch ((t'.updated env b' it').file.bind TrainFile.cost) = (false, s1) := hs1
    rw [h2] at h3
    cases (Prod.mk.inj h3).1

/-- The update at which the model is saved.  The new process does not have enough samples, and ignores them. -/
theorem resumed_last {f : TrainFile S X J} {t t1 : Trainer S X I J} {m K : Nat} {c : S} {b : B} {it : I} {x : S}
    {l : List (TrainEvent S X J)} (hval : env.hasValidation = true) (hn0 : 0 < env.updatesPerEpoch) (hu : t.update = m + K)
    (hp : t.phase = .batches)
    (hn : env.next t.iter = (some b, it))
    (hsoon : isScheduled (m + K + 1) env.updatesPerEpoch env.frequency (env.samples - 1) = true)
    (hnow : isScheduled (m + K + 1) env.updatesPerEpoch env.frequency 0 = true)
    (hx : env.perplexity (env.updateBatch t.params t.lr b) = .ok x) (hf : f.costs = t.costs ++ [c])
    {s' : Stopper S} {cost : Option S} (hgo : s'.startNewMinibatch env.criterion f.epoch cost = (true, env.criterion.initial))
    (h1 : t1 = { t with
        params := env.updateBatch t.params t.lr b
        iter := it
        update := m + K + 1
        costs := t.costs ++ [c]
        candidateIndex := some t.costs.length
        file := some f
        stopper := env.criterion.initial
        localPerplexities := []
        validationState := none
        log := l })
    {t' : Trainer S X I J} (hi : TInv env t') (hr : Resumed env R f t t' K) (hK : K < env.samples) :
    SameState R t1 (t'.step env) := by
  obtain ⟨n1, n2⟩ := hr.iter
  rw [hn] at n1 n2
  simp only at n1 n2
  have hb := batchStep_result env t' hi
  have hstep : t'.step env = t'.batchStep env := by
    simp only [Trainer.step, hr.phase]
  rw [hstep]
  revert hb
  generalize t'.batchStep env = w
  intro hb
  have hnext : ∀ b' it', env.next t'.iter = (some b', it') → b' = b ∧ R it it' := by
    intro b' it' he
    rw [he] at n1 n2
    exact ⟨(Option.some.inj n1).symm, n2⟩
  have hup' : ∀ it', (t'.updated env b it').update = m + K + 1 := by
    intro it'
    show t'.update + 1 = _
    rw [hr.update]
    omega
  have hignored : ∀ it' w, ValidateResult env (t'.updated env b it') w →
      w = { t'.updated env b it' with localPerplexities := [], validationState := none } := by
    intro it' w hw
    cases hw with
    | idle hidle =>
      rcases hidle with hi | hi
      · rw [hval] at hi
        cases hi
      · rw [hup', hsoon] at hi
        cases hi
    | sample x _ _ h2 hx =>
      rw [hup', scheduled_now_any hn0 hnow] at h2
      cases h2
    | late x _ _ _ h3 hx =>
      rw [hup', hnow] at h3
      cases h3
    | ignored x _ _ h3 => rfl
    | validation x t' hv _ h3 _ hs _ =>
      have h4 := hr.samples
      have h5 : env.samples ≤ t'.localPerplexities.length + 1 := by
        rw [List.length_append] at hs
        exact hs
      omega
  have hstop : ∀ cost', (t'.stopper).startNewMinibatch env.criterion t'.epoch cost' = (true, env.criterion.initial) := by
    intro cost'
    rw [hr.stopper, hr.epoch, hr.sameEpoch]
    exact go_initial hgo cost'
  cases hb with
  | last it' hl =>
    rw [hl] at n1
    cases n1
  | failed b' it' e hl hp =>
    obtain ⟨rfl, _⟩ := hnext b' it' hl
    have : (t'.updated env b' it').params = env.updateBatch t.params t.lr b' := by
      show env.updateBatch t'.params t'.lr b' = _
      rw [hr.params, hr.lr]
    rw [this, hx] at hp
    cases hp
  | next b' it' w s1 hl hw hs1 =>
    obtain ⟨rfl, hit⟩ := hnext b' it' hl
    have hweq := hignored it' w hw
    subst hweq
    have he : s1 = env.criterion.initial := by
      have h2 := hstop ((t'.updated env b' it').file.bind TrainFile.cost)
      have h3 : (t'.stopper).startNewMinibatch env.criterion t'.epoch ((t'.updated env b' it').file.bind TrainFile.cost) = (true, s1) := hs1
      rw [h2] at h3
      exact (Prod.mk.inj h3).2.symm
    subst he
    rw [h1]
    refine ⟨it', t'.log, hit, ?_⟩
    simp only [Trainer.updated, hr.params, hr.lr, hr.update, hr.epoch, hr.costs, hr.candidate, hr.file, hr.phase, hf, lastIndex_append, hu, hp]
  | stop b' it' w s1 hl hw hs1 =>
    obtain ⟨rfl, hit⟩ := hnext b' it' hl
    have hweq := hignored it' w hw
    subst hweq
    have h2 := hstop ((t'.updated env b' it').file.bind TrainFile.cost)
    have h3 : (t'.stopper).startNewMinibatch env.criterion t'.epoch ((t'.updated env b' it').file.bind TrainFile.cost) = (false, s1) := hs1
    rw [h2] at h3
    cases (Prod.mk.inj h3).1

theorem sameIterators_eq (env : TrainEnv S X I J B) : SameIterators env Eq :=
  ⟨fun i j h => by subst h; exact ⟨rfl, rfl⟩, fun i j h => by subst h; rfl, fun i j s h => by subst h; rfl⟩

theorem stateAfter_reachable {t : Trainer S X I J} (h : TrainReachable env t) (n : Nat) : TrainReachable env (stateAfter env t n) := by
  induction n with
  | zero => exact h
  | succ n ih => rw [stateAfter_succ]; exact .step _ ih

/-- After the update at which the model was saved, the processes are the same. -/
theorem resumed_agree (hR : SameIterators env R) {t0 t' : Trainer S X I J} (h0 : TrainReachable env t0) {m K : Nat}
    (h : Uninterrupted env t0 m (K + 1)) (hs0 : 0 < env.samples) (hn0 : 0 < env.updatesPerEpoch)
    (hp : (stateAfter env t0 (K + 1)).phase = .batches) {f : TrainFile S X J} {u : Nat} {sa : List S} {c : S}
    (hl : (stateAfter env t0 (K + 1)).log = .saved f :: .validated u sa c :: (stateAfter env t0 K).log)
    (hfe : f.epoch = t0.epoch) (hfu : f.update = m + 1)
    (hcrit : annealings (stateAfter env t0 (K + 1)).log = 0 ∨ env.criterion = .epochCount)
    {params : X} {lr : S} {iter : I} {log : List (TrainEvent S X J)} (hiter : SameNext env R (stateAfter env t0 1).iter (env.loadIter iter f.iter))
    (hinit : Trainer.initialize env params lr iter (some f) log = .ok t') :
    SameState (SameNext env R) (stateAfter env t0 (K + 1)) (stateAfter env t' (K + 1)) := by
  have hi0 := reachable_inv h0
  have hc0 := reachable_centerInv h0
  -- the log of the new process has no effect
  suffices hmain : SameState (SameNext env R) (stateAfter env t0 (K + 1))
      (stateAfter env (Trainer.restored env iter f (stateAfter env t0 (K + 1)).log) (K + 1)) by
    rw [initialize_some] at hinit
    cases hinit
    have hag : SameState Eq (Trainer.restored env iter f (stateAfter env t0 (K + 1)).log) (Trainer.restored env iter f log) :=
      ⟨_, .initialized :: log, rfl, rfl⟩
    obtain ⟨i1, l1, e1, e2⟩ := agree_steps (sameIterators_eq env) hag (K + 1)
    obtain ⟨i2, l2, r2, e3⟩ := hmain
    refine ⟨i2, l1, r2, ?_⟩
    have e4 := congrArg Trainer.iter e3
    rw [e2, ← e1, e4, e3]
  obtain ⟨b, it, x, s, hn, hsoon, hnow, hx, hf, ⟨cost, s', hgo⟩, h1⟩ := saved_step h hi0 hp hl
  have hcK := stateAfter_centerInv hi0 hc0 (K + 1)
  have hsi : s = env.criterion.initial := by
    have := hcK.stopper hcrit
    rw [h1] at this
    exact this
  subst hsi
  have hfile : (stateAfter env t0 (K + 1)).file = some f := by rw [h1]
  have hreach : TrainReachable env (Trainer.restored env iter f (stateAfter env t0 (K + 1)).log) := by
    refine .restart (stateAfter env t0 (K + 1)) params lr iter _ ?_ ?_
    · exact stateAfter_reachable h0 (K + 1)
    · rw [hfile]
      rfl
  have hiT := reachable_inv hreach
  have hfm := hcK.file f hfile
  have hfc : f.costs = (stateAfter env t0 K).costs ++ [c] := by rw [hf]
  rcases Nat.eq_zero_or_pos K with rfl | hK
  · -- the model is saved at the first update
    have hep : (stateAfter env t0 0).epoch = f.epoch := hfe.symm
    rw [hep] at hgo
    have hvs : (stateAfter env t0 0).validationState.getD (((stateAfter env t0 0).updated env b it).getState env) =
        ((stateAfter env t0 0).updated env b it).getState env := by
      cases hv : (stateAfter env t0 0).validationState with
      | none => rfl
      | some vs =>
        rw [hv] at hf
        have h2 : vs.epoch = t0.epoch := by
          have := congrArg TrainFile.epoch hf
          exact this.symm.trans hfe
        have h3 : vs.update = m + 1 := by
          have := congrArg TrainFile.update hf
          exact this.symm.trans hfu
        have h4 := h.update 0 (by omega)
        have h5 : t0.update = m := h4
        rcases hc0.center vs hv with h | h <;> omega
    rw [hvs] at hf
    rw [restored_start hiT hfm hgo]
    generalize (stateAfter env t0 (0 + 1)).log = lg
    have hu0 : (stateAfter env t0 0).update = m := h.update 0 (by omega)
    have hp0 := h.phase 0 (by omega)
    rw [h1] at hiter ⊢
    have q1 : f.params = env.updateBatch (stateAfter env t0 0).params (stateAfter env t0 0).lr b := by rw [hf]; rfl
    have q2 : f.lr = (stateAfter env t0 0).lr := by rw [hf]; rfl
    refine ⟨env.loadIter iter f.iter, .epochStarted f.epoch :: .initialized :: lg, hiter, ?_⟩
    simp only [Trainer.restored, hfu, hfc, lastIndex_append, hep, hp0, q1, q2]
  · -- the samples after the center
    have hnot : ¬ NotCentered env t0 m K := by
      intro hnc
      cases hv : (stateAfter env t0 K).validationState with
      | some vs =>
        rw [hv] at hf
        exact hnc vs hv ⟨(congrArg TrainFile.epoch hf).symm.trans hfe, (congrArg TrainFile.update hf).symm.trans hfu⟩
      | none =>
        rw [hv] at hf
        have h2 : (stateAfter env t0 K).update + 1 = m + 1 := (congrArg TrainFile.update hf).symm.trans hfu
        have h3 := h.update K (by omega)
        omega
    have hcent : ∀ k, k ≤ K → 0 < k → Centered env t0 m k := fun k h1 h2 => centered_all hn0 h hi0 hc0 hnot h1 h2
    have hcenK := hcent K (le_refl _) hK
    have hKs : K ≤ env.samples / 2 := by
      obtain ⟨j, hj, hj'⟩ := (C41_lookahead _ _ hn0 _ _).mp hcenK.center
      by_contra hlt
      have := hcenK.later (1 + j) (by omega) (by omega)
      rw [← Nat.add_assoc, hj'] at this
      cases this
    have hf1 : f = { (stateAfter env t0 1).getState env with costs := (stateAfter env t0 K).costs ++ [c] } := by
      rw [hcenK.state] at hf
      exact hf
    have he1 : (stateAfter env t0 1).epoch = f.epoch := by rw [hf1]; rfl
    -- the epoch does not change
    have hepoch : ∀ k, k < K → (stateAfter env t0 (k + 1)).epoch = f.epoch := by
      intro k
      induction k with
      | zero => exact fun _ => he1
      | succ k ih =>
        intro hk
        obtain ⟨b, it, t1, hn, _, hv, _, hst⟩ := uninterrupted_step h hi0 (k + 1) (by omega)
        obtain ⟨s, hs⟩ := hst (h.phase (k + 1 + 1) (by omega))
        have hu := h.update (k + 1) (by omega)
        have hnow := (hcent (k + 1 + 1) (by omega) (by omega)).later (k + 1 + 1) (by omega) (by omega)
        have hup : ((stateAfter env t0 (k + 1)).updated env b it).update = m + (k + 1 + 1) := by
          show (stateAfter env t0 (k + 1)).update + 1 = m + (k + 1 + 1)
          omega
        rw [hs, ← ih (by omega)]
        cases hv with
        | idle hidle => rfl
        | sample x _ _ _ hx => rfl
        | late x _ _ _ _ hx => rfl
        | ignored x _ _ h3 => rfl
        | validation x t' hv _ h3 _ _ hr =>
          rw [hup, hnow] at h3
          cases h3
    obtain ⟨K', rfl⟩ : ∃ j, K = j + 1 := ⟨K - 1, by omega⟩
    have hgo' : s'.startNewMinibatch env.criterion f.epoch cost = (true, env.criterion.initial) := by
      rw [← hepoch K' (by omega)]
      exact hgo
    have hres : ∀ k, k < K' + 1 → Resumed env R f (stateAfter env t0 (k + 1))
        (stateAfter env (Trainer.restored env iter f (stateAfter env t0 (K' + 1 + 1)).log) (k + 1)) (k + 1) := by
      intro k
      induction k with
      | zero =>
        intro _
        rw [restored_start hiT hfm hgo']
        refine ⟨rfl, ?_, ?_, he1.symm, he1, ?_, hiter, rfl, rfl, rfl, rfl, Nat.le_refl _⟩
        · show f.params = _
          rw [hf1]
          rfl
        · show f.lr = _
          rw [hf1]
          rfl
        · show f.update = _
          rw [hf1]
          rfl
      | succ k ih =>
        intro hk
        rw [stateAfter_succ env (Trainer.restored env iter f _)]
        refine resumed_step hR h hi0 (k := k + 1) (by omega) ?_ ?_ hgo' (stateAfter_inv hiT _) (ih (by omega))
        · exact (hcent (k + 1 + 1) (by omega) (by omega)).later (k + 1 + 1) (by omega) (by omega)
        · refine (C41_lookahead _ _ hn0 _ _).mpr ⟨K' + 1 - (k + 1), by omega, ?_⟩
          have : m + (k + 1 + 1) + (K' + 1 - (k + 1)) = m + (K' + 1) + 1 := by omega
          rw [this]
          exact hnow
    rw [stateAfter_succ env (Trainer.restored env iter f _)]
    refine SameState.sameNext hR ?_
    exact resumed_last h.validation hn0 (h.update _ (by omega)) (h.phase _ (by omega)) hn hsoon hnow hx hfc hgo' h1
      (stateAfter_inv hiT _) (hres K' (by omega)) (by omega)

/-- The processes go on in the same way. -/
theorem agree_after (hR : SameIterators env R) {t t' : Trainer S X I J} (h : SameState (SameNext env R) t t') (hp : t.phase = .batches)
    (n : Nat) : SameState (SameNext env R) (stateAfter env t n) (stateAfter env t' n) := by
  cases n with
  | zero => exact h
  | succ n =>
    have h1 : SameState R (t.step env) (t'.step env) := by
      have hp' : t'.phase = .batches := h.same.phase.trans hp
      simp only [Trainer.step, hp, hp']
      exact agree_batchStep_next hR h
    rw [Nat.add_comm, stateAfter_add, stateAfter_add]
    exact (agree_steps hR h1 n).sameNext hR

/-- The position of the training data in the model file is that of the center of the samples. -/
theorem saved_iter {t0 : Trainer S X I J} (h0 : TrainReachable env t0) {m K : Nat}
    (h : Uninterrupted env t0 m (K + 1)) (hn0 : 0 < env.updatesPerEpoch)
    (hp : (stateAfter env t0 (K + 1)).phase = .batches) {f : TrainFile S X J} {u : Nat} {sa : List S} {c : S}
    (hl : (stateAfter env t0 (K + 1)).log = .saved f :: .validated u sa c :: (stateAfter env t0 K).log)
    (hfe : f.epoch = t0.epoch) (hfu : f.update = m + 1) : f.iter = env.saveIter (stateAfter env t0 1).iter := by
  have hi0 := reachable_inv h0
  have hc0 := reachable_centerInv h0
  obtain ⟨b, it, x, s, hn, hsoon, hnow, hx, hf, ⟨cost, s', hgo⟩, h1⟩ := saved_step h hi0 hp hl
  rcases Nat.eq_zero_or_pos K with rfl | hK
  · cases hv : (stateAfter env t0 0).validationState with
    | none =>
      rw [hv] at hf
      rw [h1, hf]
      rfl
    | some vs =>
      rw [hv] at hf
      have h2 : vs.epoch = t0.epoch := (congrArg TrainFile.epoch hf).symm.trans hfe
      have h3 : vs.update = m + 1 := (congrArg TrainFile.update hf).symm.trans hfu
      have h4 : t0.update = m := h.update 0 (by omega)
      rcases hc0.center vs hv with h | h <;> omega
  · have hnot : ¬ NotCentered env t0 m K := by
      intro hnc
      cases hv : (stateAfter env t0 K).validationState with
      | some vs =>
        rw [hv] at hf
        exact hnc vs hv ⟨(congrArg TrainFile.epoch hf).symm.trans hfe, (congrArg TrainFile.update hf).symm.trans hfu⟩
      | none =>
        rw [hv] at hf
        have h2 : (stateAfter env t0 K).update + 1 = m + 1 := (congrArg TrainFile.update hf).symm.trans hfu
        have h3 := h.update K (by omega)
        omega
    rw [(centered_all hn0 h hi0 hc0 hnot (le_refl _) hK).state] at hf
    rw [hf]
    rfl

end

end TheanoLM
