import Verif.Lemmas.TrainerResumed
/-!
# Continuing training without validation
-/
set_option linter.unusedSectionVars false

namespace TheanoLM

section
variable {S X I J B : Type} [Field S] [LinearOrder S] {env : TrainEnv S X I J B} {R : I → I → Prop}

/-- The stopper does not stop training without validation. -/
def GoesOnAlways (c : Criterion) (s : Stopper S) : Prop := ∀ e, s.startNewMinibatch c e none = (true, s)

theorem goesOnAlways_initial {c : Criterion} (hc : ∀ a b, c = .annealingCount a b → 0 ≤ b) : GoesOnAlways c (c.initial : Stopper S) := by
  intro e
  cases c with
  | epochCount => rfl
  | noImprovement n =>
    simp only [Criterion.initial, Stopper.startNewMinibatch]
    split <;> simp
  | annealingCount a b =>
    have := hc a b rfl
    simp only [Criterion.initial, Stopper.startNewMinibatch]
    split
    · rfl
    · simp [this]

/-- The process `t'` is one epoch behind `t`. -/
structure OnePass (env : TrainEnv S X I J B) (R : I → I → Prop) (t t' : Trainer S X I J) : Prop where
  params : t'.params = t.params
  lr : t'.lr = t.lr
  phase : t'.phase = t.phase
  iter : R t.iter t'.iter
  epoch : t.epoch = t'.epoch + 1
  cand : t.candidateIndex = none
  cand' : t'.candidateIndex = none
  costs : t.costs = []
  costs' : t'.costs = []
  stopper : GoesOnAlways env.criterion t.stopper
  stopper' : GoesOnAlways env.criterion t'.stopper

theorem validate_none (env : TrainEnv S X I J B) (hv : env.hasValidation = false) (t : Trainer S X I J) : t.validate env = .ok t := by
  unfold Trainer.validate
  rw [if_pos hv]

theorem endEpoch_none (env : TrainEnv S X I J B) (hv : env.hasValidation = false) (t : Trainer S X I J) (hc : t.costs = []) :
    t.endEpoch env = { t with
      file := some (t.getState env), candidateIndex := none, log := .saved (t.getState env) :: t.log,
      epoch := t.epoch + 1, update := 0, phase := .epochStart } := by
  unfold Trainer.endEpoch
  rw [hv]
  simp [Trainer.setCandidateState, lastIndex, hc, Trainer.candidateCost]

theorem batchStep_none (env : TrainEnv S X I J B) (hv : env.hasValidation = false) (t : Trainer S X I J) (hc : t.candidateIndex = none)
    (hs : GoesOnAlways env.criterion t.stopper) {b : B} {it : I} (hn : env.next t.iter = (some b, it)) :
    t.batchStep env = t.updated env b it := by
  unfold Trainer.batchStep
  rw [hn]
  simp only
  rw [validate_none env hv]
  have hcc : Trainer.candidateCost (t.updated env b it) = .ok none := by simp [Trainer.candidateCost, Trainer.updated, hc]
  show (match Trainer.candidateCost (t.updated env b it) with
    | .error e => { t.updated env b it with phase := .failed e }
    | .ok cost =>
      match t.stopper.startNewMinibatch env.criterion t.epoch cost with
      | (true, s) => { t.updated env b it with stopper := s }
      | (false, s) => Trainer.endEpoch env { t.updated env b it with stopper := s }) = _
  rw [hcc]
  simp only
  rw [hs t.epoch]
  rfl

theorem startEpoch_none (env : TrainEnv S X I J B) (t : Trainer S X I J) (hc : t.candidateIndex = none)
    (hs : GoesOnAlways env.criterion t.stopper) :
    t.startEpoch env = if env.maxEpochs < (t.epoch : Int) then { t with phase := .finished }
      else { t with phase := .batches, log := .epochStarted t.epoch :: t.log } := by
  unfold Trainer.startEpoch
  simp only [Trainer.candidateCost, hc]
  rw [hs t.epoch]

theorem onePass_step (hR : SameIterators env R) (hv : env.hasValidation = false) {t t' : Trainer S X I J} (h : OnePass env R t t') :
    OnePass env R (t.step { env with maxEpochs := env.maxEpochs + 1 }) (t'.step env) := by
  have hp := h.phase
  unfold Trainer.step
  rw [hp]
  cases hph : t.phase with
  | finished => exact h
  | failed e => exact h
  | epochStart =>
    simp only
    rw [startEpoch_none { env with maxEpochs := env.maxEpochs + 1 } t h.cand h.stopper, startEpoch_none env t' h.cand' h.stopper']
    have he := h.epoch
    by_cases hm : env.maxEpochs < (t'.epoch : Int)
    · rw [if_pos hm, if_pos (by show env.maxEpochs + 1 < (t.epoch : Int); omega)]
      exact ⟨h.params, h.lr, rfl, h.iter, h.epoch, h.cand, h.cand', h.costs, h.costs', h.stopper, h.stopper'⟩
    · rw [if_neg hm, if_neg (by show ¬ env.maxEpochs + 1 < (t.epoch : Int); omega)]
      exact ⟨h.params, h.lr, rfl, h.iter, h.epoch, h.cand, h.cand', h.costs, h.costs', h.stopper, h.stopper'⟩
  | batches =>
    simp only
    obtain ⟨n1, n2⟩ := hR.next _ _ h.iter
    cases hn : env.next t.iter with
    | mk o it =>
      cases hn' : env.next t'.iter with
      | mk o' it' =>
        rw [hn, hn'] at n1 n2
        simp only at n1 n2
        subst n1
        cases o with
        | some b =>
          rw [batchStep_none { env with maxEpochs := env.maxEpochs + 1 } hv t h.cand h.stopper hn,
            batchStep_none env hv t' h.cand' h.stopper' hn']
          refine ⟨?_, h.lr, hp, n2, h.epoch, h.cand, h.cand', h.costs, h.costs', h.stopper, h.stopper'⟩
          show env.updateBatch t'.params t'.lr b = env.updateBatch t.params t.lr b
          rw [h.params, h.lr]
        | none =>
          have e1 : t.batchStep { env with maxEpochs := env.maxEpochs + 1 } =
              Trainer.endEpoch { env with maxEpochs := env.maxEpochs + 1 } { t with iter := it } := by
            have hn2 : TrainEnv.next { env with maxEpochs := env.maxEpochs + 1 } t.iter = (none, it) := hn
            unfold Trainer.batchStep
            rw [hn2]
          have e2 : t'.batchStep env = Trainer.endEpoch env { t' with iter := it' } := by
            unfold Trainer.batchStep
            rw [hn']
          rw [e1, e2, endEpoch_none { env with maxEpochs := env.maxEpochs + 1 } hv { t with iter := it } h.costs,
            endEpoch_none env hv { t' with iter := it' } h.costs']
          exact ⟨h.params, h.lr, rfl, n2, congrArg (· + 1) h.epoch, rfl, rfl, h.costs, h.costs', h.stopper, h.stopper'⟩

theorem onePass_steps (hR : SameIterators env R) (hv : env.hasValidation = false) {t t' : Trainer S X I J} (h : OnePass env R t t') (n : Nat) :
    OnePass env R (stateAfter { env with maxEpochs := env.maxEpochs + 1 } t n) (stateAfter env t' n) := by
  induction n with
  | zero => exact h
  | succ n ih =>
    rw [stateAfter_succ, stateAfter_succ]
    exact onePass_step hR hv ih

theorem noAnnealings {l : List (TrainEvent S X J)} (h : History env l) (hv : env.hasValidation = false) : annealings l = 0 := by
  induction h with
  | nil => rfl
  | initialized l _ _ => rfl
  | epochStarted l n _ _ ih => exact ih
  | epochSaved l f _ _ ih => exact ih
  | improved l u s c f _ h => rw [hv] at h; cases h
  | waiting l u s c _ h => rw [hv] at h; cases h
  | annealed l u s c old _ h => rw [hv] at h; cases h

/-- The end of an epoch. -/
theorem ended_step {t0 : Trainer S X I J} (h0 : TrainReachable env t0) (hv : env.hasValidation = false) (hp : t0.phase = .batches)
    (hend : (t0.step env).phase = .epochStart) {f : TrainFile S X J} (hf : (t0.step env).file = some f) {iter : I}
    (hiter : R (t0.step env).iter (env.loadIter iter f.iter)) (hc : ∀ a b, env.criterion = .annealingCount a b → 0 ≤ b)
    (log : List (TrainEvent S X J)) : OnePass env R (t0.step env) (Trainer.restored env iter f log) := by
  have hi := reachable_inv h0
  have hcen := reachable_centerInv h0
  obtain ⟨c1, c2, _⟩ := hi.noVal hv
  have hst : GoesOnAlways env.criterion t0.stopper := by
    rw [hcen.stopper (.inl (noAnnealings hi.history hv))]
    exact goesOnAlways_initial hc
  have hstep : t0.step env = t0.batchStep env := by simp only [Trainer.step, hp]
  rw [hstep] at hend hf hiter ⊢
  cases hn : env.next t0.iter with
  | mk o it =>
    cases o with
    | some b =>
      rw [batchStep_none env hv t0 c2 hst hn] at hend
      have : t0.phase = .epochStart := hend
      rw [hp] at this
      cases this
    | none =>
      have e2 : t0.batchStep env = Trainer.endEpoch env { t0 with iter := it } := by
        unfold Trainer.batchStep
        rw [hn]
      have e3 : Trainer.endEpoch env { t0 with iter := it } = _ := endEpoch_none env hv { t0 with iter := it } c1
      rw [e2, e3] at hf hiter ⊢
      cases hf
      exact ⟨rfl, rfl, rfl, hiter, rfl, rfl, by simp [Trainer.restored, Trainer.getState, c1, lastIndex], c1, c1, hst,
        goesOnAlways_initial hc⟩

end

end TheanoLM
