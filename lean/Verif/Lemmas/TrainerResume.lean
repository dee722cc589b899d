import Verif.Lemmas.TrainerWindow
import Verif.Props.TrainerResumeSpec
/-!
# Lemmas about continuing training
-/
set_option linter.unusedSectionVars false

namespace TheanoLM

section
variable {S X I J B : Type}

/-- The states are the same other than the iterator and the log. -/
def SameState (R : I → I → Prop) (t t' : Trainer S X I J) : Prop :=
  ∃ it l, R t.iter it ∧ t' = { t with iter := it, log := l }

/-- The same for results. -/
inductive SameStateE (R : I → I → Prop) : Except Err (Trainer S X I J) → Except Err (Trainer S X I J) → Prop
  | ok (t t') : SameState R t t' → SameStateE R (.ok t) (.ok t')
  | error (e) : SameStateE R (.error e) (.error e)

theorem SameState.same {R : I → I → Prop} {t t' : Trainer S X I J} (h : SameState R t t') : SameTraining R t t' := by
  obtain ⟨it, l, h1, rfl⟩ := h
  exact ⟨rfl, rfl, rfl, rfl, rfl, rfl, rfl, rfl, h1⟩

variable [Field S] [LinearOrder S] {env : TrainEnv S X I J B} {R : I → I → Prop}

theorem agree_getState (hR : SameIterators env R) {t t' : Trainer S X I J} (h : SameState R t t') : t'.getState env = t.getState env := by
  obtain ⟨it, l, h1, rfl⟩ := h
  unfold Trainer.getState
  rw [hR.save _ _ h1]

theorem agree_resetState (hR : SameIterators env R) {t t' : Trainer S X I J} (h : SameState R t t') :
    SameStateE R (t.resetState env) (t'.resetState env) := by
  obtain ⟨it, l, h1, rfl⟩ := h
  unfold Trainer.resetState
  cases hf : t.file with
  | none => exact .error _
  | some f => exact .ok _ _ ⟨_, l, hR.load _ _ f.iter h1, rfl⟩

theorem agree_candidateCost {t t' : Trainer S X I J} (h : SameState R t t') : t'.candidateCost = t.candidateCost := by
  obtain ⟨it, l, h1, rfl⟩ := h
  rfl

theorem agree_setCandidateState (hR : SameIterators env R) {t t' : Trainer S X I J} (h : SameState R t t')
    (s : Option (TrainFile S X J)) : SameState R (t.setCandidateState env s) (t'.setCandidateState env s) := by
  have hg := agree_getState hR h
  obtain ⟨it, l, h1, rfl⟩ := h
  unfold Trainer.setCandidateState
  cases s with
  | none =>
    refine ⟨it, .saved (t.getState env) :: l, h1, ?_⟩
    simp only
    rw [hg]
  | some f => exact ⟨it, .saved f :: l, h1, rfl⟩

theorem agree_decrease (hR : SameIterators env R) {t t' : Trainer S X I J} (h : SameState R t t') :
    SameStateE R (t.decreaseLearningRate env) (t'.decreaseLearningRate env) := by
  have hr := agree_resetState hR h
  have hlr : t'.lr = t.lr := h.same.lr
  unfold Trainer.decreaseLearningRate
  rw [hlr]
  revert hr
  generalize t.resetState env = a
  generalize t'.resetState env = a'
  intro hr
  cases hr with
  | error e => exact .error e
  | ok u u' hu =>
    simp only
    rw [agree_candidateCost hu]
    obtain ⟨it, l, h1, rfl⟩ := hu
    cases u.candidateCost with
    | error e => exact .error e
    | ok c => exact .ok _ _ ⟨it, _, h1, rfl⟩

theorem agree_finish (hR : SameIterators env R) {t t' : Trainer S X I J} (h : SameState R t t') (vs : TrainFile S X J) :
    SameStateE R (t.finishValidation env vs) (t'.finishValidation env vs) := by
  obtain ⟨it, l, h1, rfl⟩ := h
  unfold Trainer.finishValidation
  simp only
  generalize env.statistic.statisticFunction t.localPerplexities = st
  have h' : SameState R { t with costs := t.costs ++ [st], log := .validated t.update t.localPerplexities st :: t.log }
      { t with iter := it, costs := t.costs ++ [st], log := .validated t.update t.localPerplexities st :: l } := ⟨it, _, h1, rfl⟩
  revert h'
  generalize ({ t with costs := t.costs ++ [st], log := .validated t.update t.localPerplexities st :: t.log } : Trainer S X I J) = u
  generalize ({ t with iter := it, costs := t.costs ++ [st], log := .validated t.update t.localPerplexities st :: l } : Trainer S X I J) = u'
  generalize t.costs ++ [st] = cs
  intro h'
  have hi : u'.hasImproved = u.hasImproved := by
    obtain ⟨it, l, h1, rfl⟩ := h'
    rfl
  rw [hi]
  cases u.hasImproved with
  | error e => exact .error e
  | ok b =>
    simp only
    have h'' : SameState R (if b then u.setCandidateState env (some { vs with costs := cs }) else u)
        (if b then u'.setCandidateState env (some { vs with costs := cs }) else u') := by
      cases b with
      | true =>
        rw [if_pos rfl, if_pos rfl]
        exact agree_setCandidateState hR h' _
      | false => exact h'
    revert h''
    generalize (if b then u.setCandidateState env (some { vs with costs := cs }) else u) = w
    generalize (if b then u'.setCandidateState env (some { vs with costs := cs }) else u') = w'
    intro h''
    have hv : w'.validationsSinceCandidate = w.validationsSinceCandidate := by
      obtain ⟨it, l, h1, rfl⟩ := h''
      rfl
    have hfin : ∀ {a a' : Trainer S X I J}, SameState R a a' →
        SameState R { a with localPerplexities := [], validationState := none } { a' with localPerplexities := [], validationState := none } := by
      rintro a a' ⟨it, l, h1, rfl⟩
      exact ⟨it, l, h1, rfl⟩
    have hn : w'.file.isNone = w.file.isNone := by rw [h''.same.file]
    have hd := agree_decrease hR h''
    rw [hv, hn]
    split
    · cases w.validationsSinceCandidate with
      | error e => exact .error e
      | ok n =>
        simp only
        split
        · split
          · exact .error _
          · revert hd
            generalize w.decreaseLearningRate env = a
            generalize w'.decreaseLearningRate env = a'
            intro hd
            cases hd with
            | error e => exact .error e
            | ok a a' ha => exact .ok _ _ (hfin ha)
        · exact .ok _ _ (hfin h'')
    · exact .ok _ _ (hfin h'')

theorem agree_validate (hR : SameIterators env R) {t t' : Trainer S X I J} (h : SameState R t t') :
    SameStateE R (t.validate env) (t'.validate env) := by
  have hg := agree_getState hR h
  obtain ⟨it, l, h1, rfl⟩ := h
  unfold Trainer.validate
  simp only
  split
  · exact .ok _ _ ⟨it, l, h1, rfl⟩
  · split
    · exact .ok _ _ ⟨it, l, h1, rfl⟩
    · cases hp : env.perplexity t.params with
      | error e => exact .error e
      | ok x =>
        simp only
        split
        · exact .ok _ _ ⟨it, l, h1, rfl⟩
        · have hgs : Trainer.getState env { t with localPerplexities := t.localPerplexities ++ [x], iter := it, log := l } =
              Trainer.getState env { t with localPerplexities := t.localPerplexities ++ [x] } := hg
          rw [hgs]
          split
          · exact .ok _ _ ⟨it, l, h1, rfl⟩
          · split
            · exact .ok _ _ ⟨it, l, h1, rfl⟩
            · refine agree_finish hR ?_ _
              exact ⟨it, l, h1, rfl⟩

theorem agree_endEpoch (hR : SameIterators env R) {t t' : Trainer S X I J} (h : SameState R t t') :
    SameState R (t.endEpoch env) (t'.endEpoch env) := by
  unfold Trainer.endEpoch
  have h' : SameState R (if env.hasValidation then t else t.setCandidateState env none)
      (if env.hasValidation then t' else t'.setCandidateState env none) := by
    split
    · exact h
    · exact agree_setCandidateState hR h _
  revert h'
  generalize (if env.hasValidation then t else t.setCandidateState env none) = u
  generalize (if env.hasValidation then t' else t'.setCandidateState env none) = u'
  intro h'
  simp only
  rw [agree_candidateCost h']
  obtain ⟨it, l, h1, rfl⟩ := h'
  cases u.candidateCost with
  | error e => exact ⟨it, l, h1, rfl⟩
  | ok c => exact ⟨it, l, h1, rfl⟩

theorem agree_startEpoch {t t' : Trainer S X I J} (h : SameState R t t') : SameState R (t.startEpoch env) (t'.startEpoch env) := by
  have hc := agree_candidateCost h
  obtain ⟨it, l, h1, rfl⟩ := h
  unfold Trainer.startEpoch
  rw [hc]
  simp only
  split
  · exact ⟨it, l, h1, rfl⟩
  · cases t.candidateCost with
    | error e => exact ⟨it, l, h1, rfl⟩
    | ok c =>
      simp only
      cases t.stopper.startNewMinibatch env.criterion t.epoch c with
      | mk go s => cases go <;> exact ⟨it, _, h1, rfl⟩

theorem agree_batchStep_next (hR : SameIterators env R) {t t' : Trainer S X I J} (h : SameState (SameNext env R) t t') :
    SameState R (t.batchStep env) (t'.batchStep env) := by
  obtain ⟨it, l, h1, rfl⟩ := h
  obtain ⟨n1, n2⟩ := h1
  unfold Trainer.batchStep
  simp only
  cases hn : env.next t.iter with
  | mk o i1 =>
    cases hn' : env.next it with
    | mk o' i2 =>
      rw [hn, hn'] at n1 n2
      simp only at n1 n2
      subst n1
      cases o with
      | none => exact agree_endEpoch hR ⟨i2, l, n2, rfl⟩
      | some b =>
        simp only
        have hv := agree_validate hR (t := { t with iter := i1, update := t.update + 1, params := env.updateBatch t.params t.lr b })
          (t' := { t with iter := i2, update := t.update + 1, params := env.updateBatch t.params t.lr b, log := l })
          ⟨i2, l, n2, rfl⟩
        revert hv
        generalize Trainer.validate env { t with iter := i1, update := t.update + 1, params := env.updateBatch t.params t.lr b } = v
        generalize Trainer.validate env { t with iter := i2, update := t.update + 1, params := env.updateBatch t.params t.lr b, log := l } = v'
        intro hv
        cases hv with
        | error e => exact ⟨i2, l, n2, rfl⟩
        | ok u u' hu =>
          simp only
          rw [agree_candidateCost hu]
          obtain ⟨i3, l3, h3, rfl⟩ := hu
          cases u.candidateCost with
          | error e => exact ⟨i3, l3, h3, rfl⟩
          | ok c =>
            simp only
            cases u.stopper.startNewMinibatch env.criterion u.epoch c with
            | mk go s =>
              cases go with
              | true => exact ⟨i3, l3, h3, rfl⟩
              | false => exact agree_endEpoch hR ⟨i3, l3, h3, rfl⟩

theorem SameState.sameNext (hR : SameIterators env R) {t t' : Trainer S X I J} (h : SameState R t t') : SameState (SameNext env R) t t' := by
  obtain ⟨it, l, h1, rfl⟩ := h
  exact ⟨it, l, hR.next _ _ h1, rfl⟩

theorem agree_batchStep (hR : SameIterators env R) {t t' : Trainer S X I J} (h : SameState R t t') :
    SameState R (t.batchStep env) (t'.batchStep env) := agree_batchStep_next hR (h.sameNext hR)

theorem agree_step (hR : SameIterators env R) {t t' : Trainer S X I J} (h : SameState R t t') : SameState R (t.step env) (t'.step env) := by
  unfold Trainer.step
  have hp : t'.phase = t.phase := h.same.phase
  rw [hp]
  cases t.phase with
  | epochStart => exact agree_startEpoch h
  | batches => exact agree_batchStep hR h
  | finished => exact h
  | failed e => exact h

theorem agree_steps (hR : SameIterators env R) {t t' : Trainer S X I J} (h : SameState R t t') (n : Nat) :
    SameState R (stateAfter env t n) (stateAfter env t' n) := by
  induction n with
  | zero => exact h
  | succ n ih =>
    unfold stateAfter at ih ⊢
    rw [Function.iterate_succ_apply', Function.iterate_succ_apply']
    exact agree_step hR ih

end

end TheanoLM
