import Verif.Lemmas.TrainerStop
/-!
# The model that is saved has been measured in the validation
-/
set_option linter.unusedSectionVars false

namespace TheanoLM

section
variable {S X I J B : Type} [Field S] [LinearOrder S]

/-- The perplexity of every saved model is one of the samples of the validation before it. -/
def MeasuredLog (env : TrainEnv S X I J B) (l : List (TrainEvent S X J)) : Prop :=
  ∀ l1 f l2, l = l1 ++ .saved f :: l2 →
    ∃ u s c l3 p, l2 = .validated u s c :: l3 ∧ p ∈ s ∧ env.perplexity f.params = .ok p

/-- With validation: the state at the center of the samples is one of those whose perplexity has been computed. -/
structure MeasuredInv (env : TrainEnv S X I J B) (t : Trainer S X I J) : Prop where
  center : ∀ vs, t.validationState = some vs → ∃ p ∈ t.localPerplexities, env.perplexity vs.params = .ok p
  log : MeasuredLog env t.log

theorem MeasuredLog.nil (env : TrainEnv S X I J B) : MeasuredLog env [] := by
  intro l1 f l2 h
  cases l1 <;> cases h

theorem MeasuredLog.cons {env : TrainEnv S X I J B} {l : List (TrainEvent S X J)} (h : MeasuredLog env l)
    (e : TrainEvent S X J) (he : ∀ f, e ≠ .saved f) : MeasuredLog env (e :: l) := by
  intro l1 f l2 hl
  cases l1 with
  | nil => exact absurd (List.cons.inj hl).1 (he f)
  | cons x l1 => exact h l1 f l2 (List.cons.inj hl).2

theorem MeasuredLog.saved {env : TrainEnv S X I J B} {l : List (TrainEvent S X J)} (h : MeasuredLog env l)
    (f : TrainFile S X J) (u : Nat) (s : List S) (c p : S) (hp : p ∈ s) (hf : env.perplexity f.params = .ok p) :
    MeasuredLog env (.saved f :: .validated u s c :: l) := by
  intro l1 f' l2 hl
  cases l1 with
  | nil =>
    obtain ⟨h1, h2⟩ := List.cons.inj hl
    cases h1
    exact ⟨u, s, c, l, p, h2.symm, hp, hf⟩
  | cons x l1 => exact h.cons (.validated u s c) (fun f h => by cases h) l1 f' l2 (List.cons.inj hl).2

theorem ValidateResult.measuredInv {env : TrainEnv S X I J B} {t t' : Trainer S X I J} (h : ValidateResult env t t')
    (hm : MeasuredInv env t) : MeasuredInv env t' := by
  have hg : ∀ x, env.perplexity t.params = .ok x →
      ∃ p ∈ t.localPerplexities ++ [x], env.perplexity (t.validationState.getD (t.getState env)).params = .ok p := by
    intro x hx
    cases hv : t.validationState with
    | none => exact ⟨x, by simp, hx⟩
    | some vs =>
      obtain ⟨p, h1, h2⟩ := hm.center vs hv
      exact ⟨p, by simp [h1], h2⟩
  cases h with
  | idle _ => exact hm
  | sample x _ _ _ hx =>
    refine ⟨fun vs h => ?_, hm.log⟩
    obtain ⟨p, h1, h2⟩ := hm.center vs h
    exact ⟨p, by simp [h1], h2⟩
  | late x _ _ _ _ hx => exact ⟨fun vs h => (by cases h; exact hg x hx), hm.log⟩
  | ignored x => exact ⟨fun vs h => (by cases h), hm.log⟩
  | validation x t' hv _ _ hx _ hr =>
    cases hr with
    | improved _ =>
      obtain ⟨p, h1, h2⟩ := hg x hx
      exact ⟨fun vs h => (by cases h), hm.log.saved _ _ _ _ p h1 h2⟩
    | waiting _ _ => exact ⟨fun vs h => (by cases h), hm.log.cons _ (fun f h => by cases h)⟩
    | annealed f _ _ _ _ =>
      exact ⟨fun vs h => (by cases h), (hm.log.cons _ (fun f h => by cases h)).cons _ (fun f h => by cases h)⟩

theorem endEpoch_measuredInv {env : TrainEnv S X I J B} {t : Trainer S X I J} (hi : TInv env t)
    (hv : env.hasValidation = true) (hm : MeasuredInv env t) : MeasuredInv env (t.endEpoch env) := by
  rw [endEpoch_result env t hi, if_pos hv]
  exact ⟨hm.center, hm.log⟩

theorem step_measuredInv (env : TrainEnv S X I J B) (t : Trainer S X I J) (hi : TInv env t)
    (hv : env.hasValidation = true) (hm : MeasuredInv env t) : MeasuredInv env (t.step env) := by
  unfold Trainer.step
  split
  · unfold Trainer.startEpoch
    split
    · exact ⟨hm.center, hm.log⟩
    · rw [hi.candidateCost]
      simp only
      split
      · exact ⟨hm.center, hm.log.cons _ (fun f h => by cases h)⟩
      · exact ⟨hm.center, hm.log⟩
  · have hb := batchStep_result env t hi
    revert hb
    generalize t.batchStep env = t1
    intro hb
    cases hb with
    | last it _ =>
      exact endEpoch_measuredInv (t := { t with iter := it })
        ⟨hi.file, hi.noVal, hi.noFile, hi.withFile, hi.history, hi.phase⟩ hv ⟨hm.center, hm.log⟩
    | failed b it e _ _ => exact ⟨hm.center, hm.log⟩
    | next b it t' s _ hr _ =>
      have h' := hr.measuredInv (t := t.updated env b it) ⟨hm.center, hm.log⟩
      exact ⟨h'.center, h'.log⟩
    | stop b it t' s _ hr _ =>
      have hi' := hr.inv (updated_inv hi b it)
      have h' := hr.measuredInv (t := t.updated env b it) ⟨hm.center, hm.log⟩
      exact endEpoch_measuredInv (t := { t' with stopper := s })
        ⟨hi'.file, hi'.noVal, hi'.noFile, hi'.withFile, hi'.history, hi'.phase⟩ hv ⟨h'.center, h'.log⟩
  · exact hm
  · exact hm

theorem reachable_measuredInv {env : TrainEnv S X I J B} {t : Trainer S X I J} (h : TrainReachable env t)
    (hv : env.hasValidation = true) : MeasuredInv env t := by
  induction h with
  | start params lr iter t ht =>
    rw [initialize_none] at ht
    cases ht
    exact ⟨fun vs h => (by cases h), (MeasuredLog.nil env).cons _ (fun f h => by cases h)⟩
  | step t hr ih => exact step_measuredInv env t (reachable_inv hr) hv ih
  | restart t params lr iter t' _ ht ih =>
    cases hf : t.file with
    | none =>
      rw [hf, initialize_none] at ht
      cases ht
      exact ⟨fun vs h => (by cases h), ih.log.cons _ (fun f h => by cases h)⟩
    | some f =>
      rw [hf, initialize_some] at ht
      cases ht
      exact ⟨fun vs h => (by cases h), ih.log.cons _ (fun f h => by cases h)⟩

end

end TheanoLM
