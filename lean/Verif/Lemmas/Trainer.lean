import Verif.Props.TrainerSpec
import Mathlib.Tactic.Linarith
/-!
# Lemmas about training
-/
set_option linter.unusedSectionVars false

namespace TheanoLM

section
variable {S X I J B : Type} [Field S] [LinearOrder S]

/-- Invariant of training. -/
structure TInv (env : TrainEnv S X I J B) (t : Trainer S X I J) : Prop where
  file : t.file = lastSaved t.log
  noVal : env.hasValidation = false → t.costs = [] ∧ t.candidateIndex = none ∧ ∀ f, t.file = some f → f.costs = []
  noFile : env.hasValidation = true → t.file = none → t.costs = [] ∧ t.candidateIndex = none
  withFile : env.hasValidation = true → ∀ f, t.file = some f → f.costs ≠ [] ∧
    t.candidateIndex = some (f.costs.length - 1) ∧ ∃ rest, t.costs = f.costs ++ rest ∧ rest.length = sinceCandidate t.log
  history : History env t.log
  phase : ∀ e, t.phase = .failed e → ∃ x, env.perplexity x = .error e

theorem TInv.candidateCost {env : TrainEnv S X I J B} {t : Trainer S X I J} (h : TInv env t) :
    t.candidateCost = .ok (t.file.bind TrainFile.cost) := by
  unfold Trainer.candidateCost
  cases hv : env.hasValidation with
  | false =>
    obtain ⟨h1, h2, h3⟩ := h.noVal hv
    rw [h2]
    cases hf : t.file with
    | none => rfl
    | some f => simp [TrainFile.cost, h3 f hf]
  | true =>
    cases hf : t.file with
    | none => rw [(h.noFile hv hf).2]; rfl
    | some f =>
      obtain ⟨h1, h2, rest, h3, -⟩ := h.withFile hv f hf
      have hpos := List.length_pos_iff.mpr h1
      rw [h2, h3]
      simp only [Option.bind_some, TrainFile.cost]
      rw [List.getElem?_append_left (by omega), List.getLast?_eq_getElem?, List.getElem?_eq_getElem (by omega)]

theorem improves_iff {env : TrainEnv S X I J B} {t : Trainer S X I J} (h : TInv env t) (c : S) :
    Improves t.log c ↔ ∀ b, t.file.bind TrainFile.cost = some b → c < 999 / 1000 * b := by
  unfold Improves
  rw [← h.file]
  constructor
  · intro hi b hb
    cases hf : t.file with
    | none => rw [hf] at hb; cases hb
    | some f => rw [hf] at hb; exact hi f b hf hb
  · intro hi f b hf hb
    exact hi b (by rw [hf]; exact hb)

/-- The results of a validation. -/
inductive ValidationResult (env : TrainEnv S X I J B) (t : Trainer S X I J) (vs : TrainFile S X J) (c : S) :
    Trainer S X I J → Prop
  | improved : Improves t.log c → ValidationResult env t vs c
      { t with
        costs := t.costs ++ [c]
        candidateIndex := some t.costs.length
        file := some { vs with costs := t.costs ++ [c] }
        log := .saved { vs with costs := t.costs ++ [c] } :: .validated t.update t.localPerplexities c :: t.log
        localPerplexities := []
        validationState := none }
  | waiting : ¬ Improves t.log c → (env.patience < 0 ∨ ((sinceCandidate t.log + 1 : Nat) : Int) ≤ env.patience) →
      ValidationResult env t vs c
      { t with
        costs := t.costs ++ [c]
        log := .validated t.update t.localPerplexities c :: t.log
        localPerplexities := []
        validationState := none }
  | annealed (f : TrainFile S X J) : ¬ Improves t.log c → 0 ≤ env.patience →
      env.patience < ((sinceCandidate t.log + 1 : Nat) : Int) → t.file = some f → ValidationResult env t vs c
      { t with
        params := f.params
        epoch := f.epoch
        update := f.update
        costs := f.costs
        candidateIndex := some (f.costs.length - 1)
        iter := env.loadIter t.iter f.iter
        stopper := t.stopper.improvementCeased f.cost
        lr := t.lr / 2
        log := .annealed t.lr (t.lr / 2) :: .validated t.update t.localPerplexities c :: t.log
        localPerplexities := []
        validationState := none }

theorem finishValidation_result (env : TrainEnv S X I J B) (t : Trainer S X I J) (h : TInv env t)
    (hv : env.hasValidation = true) (vs : TrainFile S X J) :
    ∃ t', t.finishValidation env vs = .ok t' ∧
      ValidationResult env t vs (env.statistic.statisticFunction t.localPerplexities) t' := by
  generalize hc : env.statistic.statisticFunction t.localPerplexities = c
  unfold Trainer.finishValidation
  simp only [hc]
  -- the state with the new cost
  have hcand : ∀ l, (Trainer.candidateCost { t with costs := t.costs ++ [c], log := l }) = .ok (t.file.bind TrainFile.cost) := by
    intro l
    have := h.candidateCost
    unfold Trainer.candidateCost at this ⊢
    simp only at this ⊢
    cases hi : t.candidateIndex with
    | none => rw [hi] at this; exact this
    | some i =>
      rw [hi] at this
      simp only at this ⊢
      cases hg : t.costs[i]? with
      | none => rw [hg] at this; cases this
      | some d =>
        rw [hg] at this
        have hlt := (List.getElem?_eq_some_iff.mp hg).1
        rw [List.getElem?_append_left hlt, hg]
        exact this
  have himp : ∀ l, ∃ b : Bool, (Trainer.hasImproved { t with costs := t.costs ++ [c], log := l }) = .ok b ∧
      (b = true ↔ Improves t.log c) := by
    intro l
    unfold Trainer.hasImproved
    rw [hcand]
    simp only [List.getLast?_append, List.getLast?_singleton, Option.some_or]
    rw [improves_iff h]
    cases hb : t.file.bind TrainFile.cost with
    | none => exact ⟨true, rfl, by simp⟩
    | some b => exact ⟨_, rfl, by simp⟩
  obtain ⟨b, hb1, hb2⟩ := himp (.validated t.update t.localPerplexities c :: t.log)
  rw [hb1]
  simp only
  by_cases hi : Improves t.log c
  · have hbt := hb2.mpr hi
    subst hbt
    simp only [if_true, Trainer.setCandidateState, Trainer.validationsSinceCandidate, lastIndex, List.length_append,
      List.length_singleton, Nat.add_eq_zero_iff, one_ne_zero, and_false, if_false]
    have h0 : ((t.costs.length + 1 : Nat) : Int) - 1 - ((t.costs.length + 1 - 1 : Nat) : Int) = 0 := by omega
    refine ⟨_, ?_, .improved hi⟩
    simp only [Nat.add_sub_cancel]
    by_cases hp : 0 ≤ env.patience
    · rw [if_pos hp, if_neg (by omega)]
    · rw [if_neg hp]
  · have hbf : b = false := by
      cases b with
      | false => rfl
      | true => exact absurd (hb2.mp rfl) hi
    subst hbf
    -- there is a candidate
    have hne : ∃ f, t.file = some f := by
      cases hf : t.file with
      | some f => exact ⟨f, rfl⟩
      | none => exact absurd ((improves_iff h c).mpr (by rw [hf]; intro b hb; cases hb)) hi
    obtain ⟨f, hf⟩ := hne
    obtain ⟨h1, h2, rest, h3, h4⟩ := h.withFile hv f hf
    have hpos := List.length_pos_iff.mpr h1
    simp only [Bool.false_eq_true, if_false, Trainer.validationsSinceCandidate, List.length_append,
      List.length_singleton, Nat.add_eq_zero_iff, one_ne_zero, and_false, h2]
    have hlen : t.costs.length = f.costs.length + sinceCandidate t.log := by rw [h3, List.length_append, h4]
    have h0 : ((t.costs.length + 1 : Nat) : Int) - 1 - ((f.costs.length - 1 : Nat) : Int) =
        ((sinceCandidate t.log + 1 : Nat) : Int) := by omega
    rw [h0]
    by_cases hp : 0 ≤ env.patience
    · rw [if_pos hp]
      by_cases hx : env.patience < ((sinceCandidate t.log + 1 : Nat) : Int)
      · rw [if_pos hx]
        have hl : lastIndex f.costs = some (f.costs.length - 1) := by
          unfold lastIndex; rw [if_neg (by omega)]
        have hcost : ∃ d, f.costs[f.costs.length - 1]? = some d ∧ f.cost = some d := by
          refine ⟨f.costs[f.costs.length - 1], List.getElem?_eq_getElem (by omega), ?_⟩
          rw [TrainFile.cost, List.getLast?_eq_getElem?, List.getElem?_eq_getElem (by omega)]
        obtain ⟨d, hd1, hd2⟩ := hcost
        have hann := ValidationResult.annealed (vs := vs) (c := c) f hi hp hx hf
        refine ⟨_, ?_, hann⟩
        simp only [hf, Option.isNone_some, Bool.false_eq_true, if_false, Trainer.decreaseLearningRate, Trainer.resetState, hl,
          Trainer.candidateCost, hd1, hd2]
      · rw [if_neg hx]
        exact ⟨_, rfl, by simpa [h2] using ValidationResult.waiting (env := env) (vs := vs) hi (Or.inr (by omega))⟩
    · rw [if_neg hp]
      exact ⟨_, rfl, by simpa [h2] using ValidationResult.waiting (env := env) (vs := vs) hi (Or.inl (by omega))⟩

/-- The results of `_validate`. -/
inductive ValidateResult (env : TrainEnv S X I J B) (t : Trainer S X I J) : Trainer S X I J → Prop
  | idle : (env.hasValidation = false ∨ isScheduled t.update env.updatesPerEpoch env.frequency (env.samples - 1) = false) →
      ValidateResult env t t
  | sample (x : S) : env.hasValidation = true →
      isScheduled t.update env.updatesPerEpoch env.frequency (env.samples - 1) = true →
      isScheduled t.update env.updatesPerEpoch env.frequency (env.samples / 2) = false →
      env.perplexity t.params = .ok x →
      ValidateResult env t { t with localPerplexities := t.localPerplexities ++ [x] }
  | late (x : S) : env.hasValidation = true →
      isScheduled t.update env.updatesPerEpoch env.frequency (env.samples - 1) = true →
      isScheduled t.update env.updatesPerEpoch env.frequency (env.samples / 2) = true →
      isScheduled t.update env.updatesPerEpoch env.frequency 0 = false →
      env.perplexity t.params = .ok x →
      ValidateResult env t { t with
        localPerplexities := t.localPerplexities ++ [x]
        validationState := some (t.validationState.getD (t.getState env)) }
  | ignored (x : S) : env.hasValidation = true →
      isScheduled t.update env.updatesPerEpoch env.frequency (env.samples - 1) = true →
      isScheduled t.update env.updatesPerEpoch env.frequency 0 = true →
      env.perplexity t.params = .ok x → (t.localPerplexities ++ [x]).length < env.samples →
      ValidateResult env t { t with localPerplexities := [], validationState := none }
  | validation (x : S) (t' : Trainer S X I J) : env.hasValidation = true →
      isScheduled t.update env.updatesPerEpoch env.frequency (env.samples - 1) = true →
      isScheduled t.update env.updatesPerEpoch env.frequency 0 = true →
      env.perplexity t.params = .ok x → env.samples ≤ (t.localPerplexities ++ [x]).length →
      ValidationResult env { t with
          localPerplexities := t.localPerplexities ++ [x]
          validationState := some (t.validationState.getD (t.getState env)) } (t.validationState.getD (t.getState env))
        (env.statistic.statisticFunction (t.localPerplexities ++ [x])) t' →
      ValidateResult env t t'

theorem validate_result (env : TrainEnv S X I J B) (t : Trainer S X I J) (h : TInv env t) :
    (∃ t', t.validate env = .ok t' ∧ ValidateResult env t t') ∨
    ∃ e, t.validate env = .error e ∧ env.perplexity t.params = .error e := by
  unfold Trainer.validate
  by_cases hv : env.hasValidation = false
  · left; rw [if_pos hv]; exact ⟨t, rfl, .idle (Or.inl hv)⟩
  have hv' : env.hasValidation = true := by simpa using hv
  rw [if_neg hv]
  by_cases h1 : isScheduled t.update env.updatesPerEpoch env.frequency (env.samples - 1) = false
  · left; rw [if_pos h1]; exact ⟨t, rfl, .idle (Or.inr h1)⟩
  have h1' : isScheduled t.update env.updatesPerEpoch env.frequency (env.samples - 1) = true := by simpa using h1
  rw [if_neg h1]
  cases hx : env.perplexity t.params with
  | error e => right; exact ⟨e, rfl, rfl⟩
  | ok x =>
    left
    simp only
    by_cases h2 : isScheduled t.update env.updatesPerEpoch env.frequency (env.samples / 2) = false
    · rw [if_pos h2]; exact ⟨_, rfl, .sample x hv' h1' h2 hx⟩
    have h2' : isScheduled t.update env.updatesPerEpoch env.frequency (env.samples / 2) = true := by simpa using h2
    rw [if_neg h2]
    by_cases h3 : isScheduled t.update env.updatesPerEpoch env.frequency 0 = false
    · rw [if_pos h3]; exact ⟨_, rfl, .late x hv' h1' h2' h3 hx⟩
    have h3' : isScheduled t.update env.updatesPerEpoch env.frequency 0 = true := by simpa using h3
    rw [if_neg h3]
    by_cases h4 : (t.localPerplexities ++ [x]).length < env.samples
    · rw [if_pos h4]; exact ⟨_, rfl, .ignored x hv' h1' h3' hx h4⟩
    · rw [if_neg h4]
      have hinv : TInv env { t with
          localPerplexities := t.localPerplexities ++ [x]
          validationState := some (t.validationState.getD (t.getState env)) } :=
        ⟨h.file, h.noVal, h.noFile, h.withFile, h.history, h.phase⟩
      obtain ⟨t', ht, hr⟩ := finishValidation_result env _ hinv hv' (t.validationState.getD (t.getState env))
      exact ⟨t', ht, .validation x t' hv' h1' h3' hx (by omega) hr⟩

theorem cost_append (f : TrainFile S X J) (cs : List S) (c : S) : TrainFile.cost { f with costs := cs ++ [c] } = some c := by
  simp [TrainFile.cost]

theorem ValidationResult.inv {env : TrainEnv S X I J B} {t t' : Trainer S X I J} {vs : TrainFile S X J} {c : S}
    (h : ValidationResult env t vs c t') (hi : TInv env t) (hv : env.hasValidation = true)
    (hc : c = env.statistic.statisticFunction t.localPerplexities) : TInv env t' := by
  cases h with
  | improved himp =>
    refine ⟨rfl, fun h => (by rw [hv] at h; cases h), fun _ h => (by cases h), ?_, ?_, hi.phase⟩
    · intro _ f hf
      cases hf
      exact ⟨by simp, by simp, [], by simp, rfl⟩
    · exact .improved _ _ _ _ _ hi.history hv hc himp (cost_append _ _ _)
  | waiting himp hp =>
    refine ⟨hi.file, fun h => (by rw [hv] at h; cases h), ?_, ?_, ?_, hi.phase⟩
    · intro _ hf
      exact absurd ((improves_iff hi c).mpr (by simp only at hf; rw [hf]; intro b hb; cases hb)) himp
    · intro _ f hf
      obtain ⟨h1, h2, rest, h3, h4⟩ := hi.withFile hv f hf
      exact ⟨h1, h2, rest ++ [c], by rw [h3, List.append_assoc], by simp [sinceCandidate, h4]⟩
    · exact .waiting _ _ _ _ hi.history hv hc himp hp
  | annealed f himp hp hx hf =>
    refine ⟨hi.file, fun h => (by rw [hv] at h; cases h), ?_, ?_, ?_, hi.phase⟩
    · intro _ h; simp only at h; rw [hf] at h; cases h
    · intro _ f' hf'
      simp only at hf'
      rw [hf] at hf'
      cases hf'
      obtain ⟨h1, -⟩ := hi.withFile hv f hf
      exact ⟨h1, rfl, [], by simp, rfl⟩
    · exact .annealed _ _ _ _ _ hi.history hv hc himp hp hx

theorem ValidateResult.inv {env : TrainEnv S X I J B} {t t' : Trainer S X I J} (h : ValidateResult env t t')
    (hi : TInv env t) : TInv env t' := by
  cases h with
  | idle _ => exact hi
  | sample x => exact ⟨hi.file, hi.noVal, hi.noFile, hi.withFile, hi.history, hi.phase⟩
  | late x => exact ⟨hi.file, hi.noVal, hi.noFile, hi.withFile, hi.history, hi.phase⟩
  | ignored x => exact ⟨hi.file, hi.noVal, hi.noFile, hi.withFile, hi.history, hi.phase⟩
  | validation x t' hv _ _ _ _ hr =>
    exact hr.inv ⟨hi.file, hi.noVal, hi.noFile, hi.withFile, hi.history, hi.phase⟩ hv rfl

/-- The results of ending an epoch. -/
theorem endEpoch_result (env : TrainEnv S X I J B) (t : Trainer S X I J) (hi : TInv env t) :
    t.endEpoch env =
      if env.hasValidation then { t with epoch := t.epoch + 1, update := 0, phase := .epochStart }
      else { t with
        file := some (t.getState env)
        log := .saved (t.getState env) :: t.log
        epoch := t.epoch + 1
        update := 0
        phase := .epochStart } := by
  unfold Trainer.endEpoch
  cases hv : env.hasValidation with
  | true =>
    simp only [if_true]
    rw [hi.candidateCost]
  | false =>
    obtain ⟨h1, h2, h3⟩ := hi.noVal hv
    simp only [Bool.false_eq_true, if_false, Trainer.setCandidateState, lastIndex, h1, List.length_nil, if_true,
      Trainer.candidateCost]
    rw [← h2]

theorem endEpoch_inv (env : TrainEnv S X I J B) (t : Trainer S X I J) (hi : TInv env t) : TInv env (t.endEpoch env) := by
  rw [endEpoch_result env t hi]
  cases hv : env.hasValidation with
  | true => exact ⟨hi.file, hi.noVal, hi.noFile, hi.withFile, hi.history, fun e h => (by cases h)⟩
  | false =>
    obtain ⟨h1, h2, h3⟩ := hi.noVal hv
    refine ⟨rfl, fun _ => ⟨h1, h2, ?_⟩, fun h => (by rw [hv] at h; cases h), fun h => (by rw [hv] at h; cases h), ?_,
      fun e h => (by cases h)⟩
    · intro f hf; cases hf; exact h1
    · exact .epochSaved _ _ hi.history hv

theorem startEpoch_inv (env : TrainEnv S X I J B) (t : Trainer S X I J) (hi : TInv env t) : TInv env (t.startEpoch env) := by
  unfold Trainer.startEpoch
  split
  · exact ⟨hi.file, hi.noVal, hi.noFile, hi.withFile, hi.history, fun e h => (by cases h)⟩
  · rename_i hle
    rw [hi.candidateCost]
    simp only
    split
    · refine ⟨hi.file, hi.noVal, hi.noFile, hi.withFile, ?_, fun e h => (by cases h)⟩
      exact .epochStarted _ _ hi.history (by omega)
    · exact ⟨hi.file, hi.noVal, hi.noFile, hi.withFile, hi.history, fun e h => (by cases h)⟩

/-- The state after the update of a mini-batch. -/
def Trainer.updated (env : TrainEnv S X I J B) (t : Trainer S X I J) (b : B) (it : I) : Trainer S X I J :=
  { t with iter := it, update := t.update + 1, params := env.updateBatch t.params t.lr b }

theorem updated_inv {env : TrainEnv S X I J B} {t : Trainer S X I J} (hi : TInv env t) (b : B) (it : I) :
    TInv env (t.updated env b it) := ⟨hi.file, hi.noVal, hi.noFile, hi.withFile, hi.history, hi.phase⟩

/-- The results of a pass of the loop over mini-batches. -/
inductive BatchResult (env : TrainEnv S X I J B) (t : Trainer S X I J) : Trainer S X I J → Prop
  | last (it : I) : env.next t.iter = (none, it) → BatchResult env t (Trainer.endEpoch env { t with iter := it })
  | failed (b it e) : env.next t.iter = (some b, it) → env.perplexity (t.updated env b it).params = .error e →
      BatchResult env t { t.updated env b it with phase := .failed e }
  | next (b it t' s) : env.next t.iter = (some b, it) → ValidateResult env (t.updated env b it) t' →
      t'.stopper.startNewMinibatch env.criterion t'.epoch (t'.file.bind TrainFile.cost) = (true, s) →
      BatchResult env t { t' with stopper := s }
  | stop (b it t' s) : env.next t.iter = (some b, it) → ValidateResult env (t.updated env b it) t' →
      t'.stopper.startNewMinibatch env.criterion t'.epoch (t'.file.bind TrainFile.cost) = (false, s) →
      BatchResult env t (Trainer.endEpoch env { t' with stopper := s })

theorem batchStep_result (env : TrainEnv S X I J B) (t : Trainer S X I J) (hi : TInv env t) :
    BatchResult env t (t.batchStep env) := by
  unfold Trainer.batchStep
  cases hn : env.next t.iter with
  | mk o it =>
    cases o with
    | none => exact .last it hn
    | some b =>
      have hu := updated_inv hi b it
      show BatchResult env t (match (t.updated env b it).validate env with
        | .error e => { t.updated env b it with phase := .failed e }
        | .ok t =>
          match t.candidateCost with
          | .error e => { t with phase := .failed e }
          | .ok cost =>
            match t.stopper.startNewMinibatch env.criterion t.epoch cost with
            | (true, s) => { t with stopper := s }
            | (false, s) => ({ t with stopper := s }).endEpoch env)
      rcases validate_result env _ hu with ⟨t', ht, hr⟩ | ⟨e, he, hp⟩
      · rw [ht]
        simp only
        have hi' := hr.inv hu
        rw [hi'.candidateCost]
        simp only
        cases hs : t'.stopper.startNewMinibatch env.criterion t'.epoch (t'.file.bind TrainFile.cost) with
        | mk go s =>
          cases go with
          | true => exact .next b it t' s hn hr hs
          | false => exact .stop b it t' s hn hr hs
      · rw [he]
        exact .failed b it e hn hp

theorem BatchResult.inv {env : TrainEnv S X I J B} {t t' : Trainer S X I J} (h : BatchResult env t t')
    (hi : TInv env t) : TInv env t' := by
  cases h with
  | last it => exact endEpoch_inv _ _ ⟨hi.file, hi.noVal, hi.noFile, hi.withFile, hi.history, hi.phase⟩
  | failed b it e _ hp =>
    have hu := updated_inv hi b it
    refine ⟨hu.file, hu.noVal, hu.noFile, hu.withFile, hu.history, ?_⟩
    intro e' he; cases he; exact ⟨_, hp⟩
  | next b it t' s _ hr _ =>
    have hi' := hr.inv (updated_inv hi b it)
    exact ⟨hi'.file, hi'.noVal, hi'.noFile, hi'.withFile, hi'.history, hi'.phase⟩
  | stop b it t' s _ hr _ =>
    have hi' := hr.inv (updated_inv hi b it)
    exact endEpoch_inv _ _ ⟨hi'.file, hi'.noVal, hi'.noFile, hi'.withFile, hi'.history, hi'.phase⟩

theorem step_inv (env : TrainEnv S X I J B) (t : Trainer S X I J) (hi : TInv env t) : TInv env (t.step env) := by
  unfold Trainer.step
  split
  · exact startEpoch_inv env t hi
  · exact (batchStep_result env t hi).inv hi
  · exact hi
  · exact hi

/-- The state after initialization from an empty file. -/
def Trainer.fresh (env : TrainEnv S X I J B) (params : X) (lr : S) (iter : I) (log : List (TrainEvent S X J)) :
    Trainer S X I J :=
  { params, lr, iter, epoch := 1, update := 0, costs := [], candidateIndex := none, file := none, localPerplexities := [],
    validationState := none, stopper := env.criterion.initial, phase := .epochStart, log := .initialized :: log }

/-- The state after initialization from a file. -/
def Trainer.restored (env : TrainEnv S X I J B) (iter : I) (f : TrainFile S X J) (log : List (TrainEvent S X J)) :
    Trainer S X I J :=
  { params := f.params, lr := f.lr, iter := env.loadIter iter f.iter, epoch := f.epoch, update := f.update, costs := f.costs,
    candidateIndex := lastIndex f.costs, file := some f, localPerplexities := [],
    validationState := none, stopper := env.criterion.initial, phase := .epochStart, log := .initialized :: log }

theorem initialize_none (env : TrainEnv S X I J B) (params : X) (lr : S) (iter : I) (log : List (TrainEvent S X J)) :
    Trainer.initialize env params lr iter none log = .ok (Trainer.fresh env params lr iter log) := rfl

theorem initialize_some (env : TrainEnv S X I J B) (params : X) (lr : S) (iter : I) (f : TrainFile S X J)
    (log : List (TrainEvent S X J)) :
    Trainer.initialize env params lr iter (some f) log = .ok (Trainer.restored env iter f log) := rfl

theorem reachable_inv {env : TrainEnv S X I J B} {t : Trainer S X I J} (h : TrainReachable env t) : TInv env t := by
  induction h with
  | start params lr iter t ht =>
    rw [initialize_none] at ht
    cases ht
    exact ⟨rfl, fun _ => ⟨rfl, rfl, fun f h => (by cases h)⟩, fun _ _ => ⟨rfl, rfl⟩, fun _ f h => (by cases h),
      .initialized _ .nil, fun e h => (by cases h)⟩
  | step t _ ih => exact step_inv env t ih
  | restart t params lr iter t' _ ht ih =>
    cases hf : t.file with
    | none =>
      rw [hf, initialize_none] at ht
      cases ht
      refine ⟨?_, fun _ => ⟨rfl, rfl, fun f h => (by cases h)⟩, fun _ _ => ⟨rfl, rfl⟩, fun _ f h => (by cases h),
        .initialized _ ih.history, fun e h => (by cases h)⟩
      have := ih.file
      rw [hf] at this
      exact this
    | some f =>
      rw [hf, initialize_some] at ht
      cases ht
      refine ⟨?_, ?_, fun _ h => (by cases h), ?_, .initialized _ ih.history, fun e h => (by cases h)⟩
      · have := ih.file
        rw [hf] at this
        exact this
      · intro hv
        obtain ⟨h1, h2, h3⟩ := ih.noVal hv
        have := h3 f hf
        refine ⟨this, ?_, ?_⟩
        · simp [Trainer.restored, lastIndex, this]
        · intro f' hf'; cases hf'; exact this
      · intro hv f' hf'
        cases hf'
        obtain ⟨h1, -⟩ := ih.withFile hv f hf
        refine ⟨h1, ?_, [], by simp [Trainer.restored], rfl⟩
        simp [Trainer.restored, lastIndex, h1]

end

end TheanoLM
