import Verif.Lemmas.Trainer
import Mathlib.Algebra.Order.Field.Basic
import Mathlib.Tactic.NormNum
import Mathlib.Tactic.Ring
/-!
# Lemmas about the learning rate and the stopping criteria
-/
set_option linter.unusedSectionVars false

namespace TheanoLM

section
variable {S X I J B : Type} [Field S] [LinearOrder S]

/-! ## The learning rate -/

theorem ValidateResult.log_lr {env : TrainEnv S X I J B} {t t' : Trainer S X I J} (h : ValidateResult env t t') (lr0 : S)
    (hlr : t.lr = lr0 / 2 ^ annealings t.log) : t'.lr = lr0 / 2 ^ annealings t'.log := by
  cases h with
  | idle _ => exact hlr
  | sample x => exact hlr
  | late x => exact hlr
  | ignored x => exact hlr
  | validation x t' hv _ _ _ _ hr =>
    cases hr with
    | improved _ => exact hlr
    | waiting _ _ => exact hlr
    | annealed f _ _ _ _ =>
      show t.lr / 2 = lr0 / 2 ^ (annealings t.log + 1)
      rw [hlr, div_div, pow_succ]

theorem endEpoch_lr {env : TrainEnv S X I J B} {t : Trainer S X I J} (hi : TInv env t) :
    (t.endEpoch env).lr = t.lr ∧ annealings (t.endEpoch env).log = annealings t.log := by
  rw [endEpoch_result env t hi]
  split
  · exact ⟨rfl, rfl⟩
  · exact ⟨rfl, rfl⟩

theorem step_lr (env : TrainEnv S X I J B) (t : Trainer S X I J) (hi : TInv env t) (lr0 : S)
    (hlr : t.lr = lr0 / 2 ^ annealings t.log) : (t.step env).lr = lr0 / 2 ^ annealings (t.step env).log := by
  unfold Trainer.step
  split
  · unfold Trainer.startEpoch
    split
    · exact hlr
    · rw [hi.candidateCost]
      simp only
      split
      · exact hlr
      · exact hlr
  · have hb := batchStep_result env t hi
    revert hb
    generalize t.batchStep env = t1
    intro hb
    cases hb with
    | last it _ =>
      obtain ⟨h1, h2⟩ := endEpoch_lr (env := env) (t := { t with iter := it })
        ⟨hi.file, hi.noVal, hi.noFile, hi.withFile, hi.history, hi.phase⟩
      rw [h1, h2]; exact hlr
    | failed b it e _ _ => exact hlr
    | next b it t' s _ hr _ => exact hr.log_lr lr0 hlr
    | stop b it t' s _ hr _ =>
      have hi' := hr.inv (updated_inv hi b it)
      obtain ⟨h1, h2⟩ := endEpoch_lr (env := env) (t := { t' with stopper := s })
        ⟨hi'.file, hi'.noVal, hi'.noFile, hi'.withFile, hi'.history, hi'.phase⟩
      rw [h1, h2]; exact hr.log_lr lr0 hlr
  · exact hlr
  · exact hlr

/-- The stored state at the center of the samples contains the learning rate that is in use. -/
def LrInv (t : Trainer S X I J) : Prop := ∀ vs, t.validationState = some vs → vs.lr = t.lr

theorem ValidateResult.lrInv {env : TrainEnv S X I J B} {t t' : Trainer S X I J} (h : ValidateResult env t t')
    (hl : LrInv t) : LrInv t' ∧ (t'.file = t.file ∨ ∃ f, t'.file = some f ∧ f.lr = t.lr ∧ t'.lr = t.lr) := by
  have hg : (t.validationState.getD (t.getState env)).lr = t.lr := by
    cases hv : t.validationState with
    | none => rfl
    | some vs => exact hl vs hv
  cases h with
  | idle _ => exact ⟨hl, Or.inl rfl⟩
  | sample x => exact ⟨hl, Or.inl rfl⟩
  | late x => exact ⟨fun vs h => (by cases h; exact hg), Or.inl rfl⟩
  | ignored x => exact ⟨fun vs h => (by cases h), Or.inl rfl⟩
  | validation x t' hv _ _ _ _ hr =>
    cases hr with
    | improved _ => exact ⟨fun vs h => (by cases h), Or.inr ⟨_, rfl, hg, rfl⟩⟩
    | waiting _ _ => exact ⟨fun vs h => (by cases h), Or.inl rfl⟩
    | annealed f _ _ _ _ => exact ⟨fun vs h => (by cases h), Or.inl rfl⟩

theorem endEpoch_lrInv {env : TrainEnv S X I J B} {t : Trainer S X I J} (hi : TInv env t) (hl : LrInv t) :
    LrInv (t.endEpoch env) ∧
      ((t.endEpoch env).file = t.file ∨ env.hasValidation = false ∧
        ∃ f, (t.endEpoch env).file = some f ∧ f.lr = t.lr ∧ (t.endEpoch env).lr = t.lr) := by
  rw [endEpoch_result env t hi]
  split
  · exact ⟨hl, Or.inl rfl⟩
  · rename_i hv
    exact ⟨hl, Or.inr ⟨by simpa using hv, _, rfl, rfl, rfl⟩⟩

theorem step_lrInv (env : TrainEnv S X I J B) (t : Trainer S X I J) (hi : TInv env t) (hl : LrInv t) :
    LrInv (t.step env) ∧
      ((t.step env).file = t.file ∨ ∃ f, (t.step env).file = some f ∧ f.lr = t.lr ∧ (t.step env).lr = t.lr) := by
  unfold Trainer.step
  split
  · unfold Trainer.startEpoch
    split
    · exact ⟨hl, Or.inl rfl⟩
    · rw [hi.candidateCost]
      simp only
      split
      · exact ⟨hl, Or.inl rfl⟩
      · exact ⟨hl, Or.inl rfl⟩
  · have hb := batchStep_result env t hi
    revert hb
    generalize t.batchStep env = t1
    intro hb
    cases hb with
    | last it _ =>
      obtain ⟨h1, h2⟩ := endEpoch_lrInv (env := env) (t := { t with iter := it })
        ⟨hi.file, hi.noVal, hi.noFile, hi.withFile, hi.history, hi.phase⟩ hl
      exact ⟨h1, h2.imp id (fun h => h.2)⟩
    | failed b it e _ _ => exact ⟨hl, Or.inl rfl⟩
    | next b it t' s _ hr _ => exact hr.lrInv hl
    | stop b it t' s _ hr _ =>
      have hi' := hr.inv (updated_inv hi b it)
      obtain ⟨h1, h2⟩ := hr.lrInv (t := t.updated env b it) hl
      obtain ⟨h3, h4⟩ := endEpoch_lrInv (env := env) (t := { t' with stopper := s })
        ⟨hi'.file, hi'.noVal, hi'.noFile, hi'.withFile, hi'.history, hi'.phase⟩ h1
      refine ⟨h3, ?_⟩
      have h5 := (endEpoch_lr (env := env) (t := { t' with stopper := s })
        ⟨hi'.file, hi'.noVal, hi'.noFile, hi'.withFile, hi'.history, hi'.phase⟩).1
      rcases h2 with h2 | ⟨f, h2, h2', h2''⟩
      · rcases h4 with h4 | ⟨hv, f, h4, h4', h4''⟩
        · exact Or.inl (h4.trans h2)
        · -- the file is saved only without validation, and then the learning rate is not changed
          cases hr with
          | idle _ => exact Or.inr ⟨f, h4, h4', h4''⟩
          | sample x h => rw [hv] at h; cases h
          | late x h => rw [hv] at h; cases h
          | ignored x h => rw [hv] at h; cases h
          | validation x t' h => rw [hv] at h; cases h
      · rcases h4 with h4 | ⟨-, f', h4, h4', h4''⟩
        · exact Or.inr ⟨f, h4.trans h2, h2', h5.trans h2''⟩
        · exact Or.inr ⟨f', h4, h4'.trans h2'', h4''.trans h2''⟩
  · exact ⟨hl, Or.inl rfl⟩
  · exact ⟨hl, Or.inl rfl⟩

/-! ## The stopping criteria -/

/-- The state of the stopper corresponds to the history. -/
structure StopInv (env : TrainEnv S X I J B) (t : Trainer S X I J) : Prop where
  epochCount : env.criterion = .epochCount → t.stopper = .epochCount
  annealingCount : ∀ n m, env.criterion = .annealingCount n m → t.stopper = .annealingCount (m - annealings t.log)
  noImprovement : ∀ n, env.criterion = .noImprovement n → ∃ old imp, t.stopper = .noImprovement old imp ∧
    old = (annealingCosts t.log).head? ∧ (imp = false → ∃ a b rest, annealingCosts t.log = a :: b :: rest ∧ ¬ a < b) ∧
    (imp = true → ¬ NoImprovement t.log)
  noVal : env.hasValidation = false → annealingCosts t.log = []

theorem StopInv.of_eq {env : TrainEnv S X I J B} {t t' : Trainer S X I J} (h : StopInv env t) (hs : t'.stopper = t.stopper)
    (h1 : annealings t'.log = annealings t.log) (h2 : annealingCosts t'.log = annealingCosts t.log)
    (h3 : NoImprovement t'.log → NoImprovement t.log) : StopInv env t' := by
  refine ⟨fun hc => (by rw [hs]; exact h.epochCount hc), fun n m hc => (by rw [hs, h1]; exact h.annealingCount n m hc), ?_,
    fun hv => (by rw [h2]; exact h.noVal hv)⟩
  intro n hc
  obtain ⟨old, imp, h4, h5, h6, h7⟩ := h.noImprovement n hc
  exact ⟨old, imp, hs.trans h4, by rw [h2]; exact h5, by rw [h2]; exact h6, fun hi hn => h7 hi (h3 hn)⟩

theorem startNewMinibatch_iff {env : TrainEnv S X I J B} {t : Trainer S X I J} (hi : TInv env t) (hs : StopInv env t)
    (go : Bool) (s : Stopper S)
    (h : t.stopper.startNewMinibatch env.criterion t.epoch (t.file.bind TrainFile.cost) = (go, s)) :
    (go = true ↔ GoesOn env t) ∧ StopInv env { t with stopper := s } := by
  unfold GoesOn
  cases hc : env.criterion with
  | epochCount =>
    rw [hc, hs.epochCount hc] at h
    simp only [Stopper.startNewMinibatch] at h
    cases h
    exact ⟨by simp, hs.of_eq (hs.epochCount hc).symm rfl rfl id⟩
  | annealingCount n m =>
    rw [hc, hs.annealingCount n m hc] at h
    simp only [Stopper.startNewMinibatch] at h
    split at h
    · rename_i hle
      cases h
      exact ⟨by simp [hle], hs.of_eq (hs.annealingCount n m hc).symm rfl rfl id⟩
    · rename_i hle
      cases h
      refine ⟨?_, hs.of_eq (hs.annealingCount n m hc).symm rfl rfl id⟩
      simp only [decide_eq_true_eq, hle, false_or]
      omega
  | noImprovement n =>
    obtain ⟨old, imp, h4, h5, h6, h7⟩ := hs.noImprovement n hc
    rw [hc, h4] at h
    simp only [Stopper.startNewMinibatch] at h
    split at h
    · rename_i hle
      cases h
      exact ⟨by simp [hle], hs.of_eq h4.symm rfl rfl id⟩
    · rename_i hle
      split at h
      · rename_i himp
        cases h
        exact ⟨by simp [h7 himp], hs.of_eq h4.symm rfl rfl id⟩
      · rename_i himp
        have himp' : imp = false := by simpa using himp
        obtain ⟨a, b, rest, ha, hab⟩ := h6 himp'
        rw [ha] at h5
        simp only [List.head?_cons] at h5
        subst h5
        have hno : NoImprovement t.log ↔ ∀ c, t.file.bind TrainFile.cost = some c → ¬ c < a := by
          unfold NoImprovement
          rw [hi.file, ha]
          constructor
          · rintro ⟨a', b', r', he, -, h⟩
            cases he
            exact h
          · intro h; exact ⟨a, b, rest, rfl, hab, h⟩
        simp only [hle, false_or]
        split at h
        · rename_i hcost
          cases h
          refine ⟨?_, hs.of_eq h4.symm rfl rfl id⟩
          rw [hno, hcost]
          simp
        · rename_i c hcost
          simp only at h
          split at h
          · rename_i hlt
            cases h
            have hn : ¬ NoImprovement t.log := by
              rw [hno, hcost]
              intro hh; exact hh c rfl hlt
            refine ⟨by simp [hn], ?_⟩
            refine ⟨fun h => (by rw [hc] at h; cases h), fun _ _ h => (by rw [hc] at h; cases h), ?_, hs.noVal⟩
            intro _ _
            exact ⟨some a, true, rfl, by rw [ha]; rfl, fun h => (by cases h), fun _ => hn⟩
          · rename_i hlt
            cases h
            refine ⟨?_, hs.of_eq h4.symm rfl rfl id⟩
            rw [hno, hcost]
            simp [hlt]

theorem history_cost {env : TrainEnv S X I J B} {l : List (TrainEvent S X J)} (h : History env l)
    (hv : env.hasValidation = true) (f : TrainFile S X J) (b : S) (hf : lastSaved l = some f) (hb : f.cost = some b) :
    ∃ u s, .validated u s b ∈ l := by
  induction h with
  | nil => cases hf
  | initialized l _ ih => obtain ⟨u, s, h⟩ := ih hf; exact ⟨u, s, List.mem_cons_of_mem _ h⟩
  | epochStarted l n _ _ ih => obtain ⟨u, s, h⟩ := ih hf; exact ⟨u, s, List.mem_cons_of_mem _ h⟩
  | epochSaved l f' _ hv' ih => rw [hv] at hv'; cases hv'
  | improved l u s c f' _ _ _ _ hc ih =>
    simp only [lastSaved, Option.some.injEq] at hf
    subst hf
    rw [hc] at hb; cases hb
    exact ⟨u, s, by simp⟩
  | waiting l u s c _ _ _ _ _ ih => obtain ⟨u, s, h⟩ := ih hf; exact ⟨u, s, List.mem_cons_of_mem _ h⟩
  | annealed l u s c o _ _ _ _ _ _ ih =>
    obtain ⟨u, s, h⟩ := ih hf
    exact ⟨u, s, List.mem_cons_of_mem _ (List.mem_cons_of_mem _ h)⟩

variable [IsStrictOrderedRing S]

theorem ValidationResult.stopInv {env : TrainEnv S X I J B} {t t' : Trainer S X I J} {vs : TrainFile S X J} {c : S}
    (h : ValidationResult env t vs c t') (hi : TInv env t) (hs : StopInv env t) (hv : env.hasValidation = true)
    (hn : NonNegCosts t.log) : StopInv env t' := by
  cases h with
  | improved himp =>
    refine hs.of_eq rfl rfl rfl ?_
    rintro ⟨a, b, rest, h1, h2, h3⟩
    refine ⟨a, b, rest, h1, h2, ?_⟩
    intro d hd
    have h4 := h3 c (by simp [lastSaved, TrainFile.cost])
    cases hl : lastSaved t.log with
    | none => rw [hl] at hd; cases hd
    | some f =>
      rw [hl] at hd
      have h5 := himp f d hl hd
      obtain ⟨u, s, h6⟩ := history_cost hi.history hv f d hl hd
      have h7 := hn u s d h6
      intro hlt
      apply h4
      calc c < 999 / 1000 * d := h5
        _ ≤ 1 * d := mul_le_mul_of_nonneg_right (by norm_num) h7
        _ = d := one_mul d
        _ < a := hlt
  | waiting himp hp => exact hs.of_eq rfl rfl rfl id
  | annealed f himp hp hx hf =>
    obtain ⟨h1, -⟩ := hi.withFile hv f hf
    obtain ⟨d, hd⟩ : ∃ d, f.cost = some d := by
      have := List.getLast?_isSome.mpr h1
      exact Option.isSome_iff_exists.mp this
    have hls : lastSaved t.log = some f := by rw [← hi.file, hf]
    have hcosts : annealingCosts (.annealed t.lr (t.lr / 2) :: .validated t.update t.localPerplexities c :: t.log :
        List (TrainEvent S X J)) = d :: annealingCosts t.log := by
      simp only [annealingCosts, lastSaved, hls, Option.bind_some, hd, Option.toList_some, List.singleton_append]
    refine ⟨?_, ?_, ?_, fun h => (by rw [hv] at h; cases h)⟩
    · intro hc
      simp only [hs.epochCount hc]
      rfl
    · intro n m hc
      simp only [hs.annealingCount n m hc, Stopper.improvementCeased, annealings]
      congr 1
      push_cast
      ring
    · intro n hc
      obtain ⟨old, imp, h4, h5, h6, h7⟩ := hs.noImprovement n hc
      simp only [h4, hcosts]
      rw [hd]
      simp only [Stopper.improvementCeased]
      cases hl : annealingCosts t.log with
      | nil =>
        rw [hl] at h5
        simp only [List.head?_nil] at h5
        subst h5
        refine ⟨_, _, rfl, rfl, fun h => (by cases h), fun _ => ?_⟩
        rintro ⟨a, b, rest, h8, -⟩
        rw [hcosts, hl] at h8
        cases h8
      | cons o rest =>
        rw [hl] at h5
        simp only [List.head?_cons] at h5
        subst h5
        refine ⟨_, _, rfl, rfl, fun h => ?_, fun h => ?_⟩
        · exact ⟨d, o, rest, rfl, by simpa using h⟩
        · rintro ⟨a, b, r, h8, h9, -⟩
          rw [hcosts, hl] at h8
          cases h8
          exact h9 (by simpa using h)

theorem ValidateResult.stopInv {env : TrainEnv S X I J B} {t t' : Trainer S X I J} (h : ValidateResult env t t')
    (hi : TInv env t) (hs : StopInv env t) (hn : NonNegCosts t.log) : StopInv env t' := by
  cases h with
  | idle _ => exact hs
  | sample x => exact hs.of_eq rfl rfl rfl id
  | late x => exact hs.of_eq rfl rfl rfl id
  | ignored x => exact hs.of_eq rfl rfl rfl id
  | validation x t' hv _ _ _ _ hr =>
    exact hr.stopInv ⟨hi.file, hi.noVal, hi.noFile, hi.withFile, hi.history, hi.phase⟩ (hs.of_eq rfl rfl rfl id) hv hn

theorem endEpoch_stopInv {env : TrainEnv S X I J B} {t : Trainer S X I J} (hi : TInv env t) (hs : StopInv env t) :
    StopInv env (t.endEpoch env) := by
  rw [endEpoch_result env t hi]
  split
  · exact hs.of_eq rfl rfl rfl id
  · rename_i hv
    refine hs.of_eq rfl rfl rfl ?_
    rintro ⟨a, b, rest, h1, -⟩
    have := hs.noVal (by simpa using hv)
    simp only [annealingCosts] at h1
    rw [this] at h1
    cases h1

theorem step_stopInv (env : TrainEnv S X I J B) (t : Trainer S X I J) (hi : TInv env t) (hs : StopInv env t)
    (hn : NonNegCosts t.log) : StopInv env (t.step env) := by
  unfold Trainer.step
  split
  · unfold Trainer.startEpoch
    split
    · exact hs.of_eq rfl rfl rfl id
    · rw [hi.candidateCost]
      simp only
      split
      · rename_i s h
        exact (startNewMinibatch_iff hi hs _ _ h).2.of_eq rfl rfl rfl id
      · rename_i s h
        exact (startNewMinibatch_iff hi hs _ _ h).2.of_eq rfl rfl rfl id
  · have hb := batchStep_result env t hi
    revert hb
    generalize t.batchStep env = t1
    intro hb
    cases hb with
    | last it _ =>
      exact endEpoch_stopInv (t := { t with iter := it })
        ⟨hi.file, hi.noVal, hi.noFile, hi.withFile, hi.history, hi.phase⟩ (hs.of_eq rfl rfl rfl id)
    | failed b it e _ _ => exact hs.of_eq rfl rfl rfl id
    | next b it t' s _ hr h =>
      exact (startNewMinibatch_iff (hr.inv (updated_inv hi b it))
        (hr.stopInv (updated_inv hi b it) (hs.of_eq rfl rfl rfl id) hn) _ _ h).2
    | stop b it t' s _ hr h =>
      have hi' := hr.inv (updated_inv hi b it)
      exact endEpoch_stopInv (t := { t' with stopper := s })
        ⟨hi'.file, hi'.noVal, hi'.noFile, hi'.withFile, hi'.history, hi'.phase⟩
        (startNewMinibatch_iff hi' (hr.stopInv (updated_inv hi b it) (hs.of_eq rfl rfl rfl id) hn) _ _ h).2
  · exact hs
  · exact hs

theorem initialize_stopInv (env : TrainEnv S X I J B) (params : X) (lr : S) (iter : I) (file : Option (TrainFile S X J))
    (log : List (TrainEvent S X J)) (t : Trainer S X I J) (h : Trainer.initialize env params lr iter file log = .ok t) :
    StopInv env t := by
  have h1 : t.stopper = env.criterion.initial ∧ t.log = .initialized :: log := by
    cases file with
    | none => rw [initialize_none] at h; cases h; exact ⟨rfl, rfl⟩
    | some f => rw [initialize_some] at h; cases h; exact ⟨rfl, rfl⟩
  obtain ⟨h1, h2⟩ := h1
  refine ⟨?_, ?_, ?_, fun _ => by rw [h2]; rfl⟩
  · intro hc; rw [h1, hc]; rfl
  · intro n m hc
    rw [h1, hc, h2]
    simp [Criterion.initial, annealings]
  · intro n hc
    rw [h1, hc, h2]
    refine ⟨_, _, rfl, rfl, fun h => (by cases h), ?_⟩
    rintro - ⟨a, b, rest, h, -⟩
    cases h

/-- The log only grows. -/
theorem ValidateResult.suffix {env : TrainEnv S X I J B} {t t' : Trainer S X I J} (h : ValidateResult env t t') :
    t.log <:+ t'.log := by
  cases h with
  | idle _ => exact List.suffix_refl _
  | sample x => exact List.suffix_refl _
  | late x => exact List.suffix_refl _
  | ignored x => exact List.suffix_refl _
  | validation x t' hv _ _ _ _ hr =>
    cases hr with
    | improved _ => exact ⟨[_, _], rfl⟩
    | waiting _ _ => exact ⟨[_], rfl⟩
    | annealed f _ _ _ _ => exact ⟨[_, _], rfl⟩

theorem endEpoch_suffix {env : TrainEnv S X I J B} {t : Trainer S X I J} (hi : TInv env t) :
    t.log <:+ (t.endEpoch env).log := by
  rw [endEpoch_result env t hi]
  split
  · exact List.suffix_refl _
  · exact ⟨[_], rfl⟩

theorem step_suffix (env : TrainEnv S X I J B) (t : Trainer S X I J) (hi : TInv env t) :
    t.log <:+ (t.step env).log := by
  unfold Trainer.step
  split
  · unfold Trainer.startEpoch
    split
    · exact List.suffix_refl _
    · rw [hi.candidateCost]
      simp only
      split
      · exact ⟨[_], rfl⟩
      · exact List.suffix_refl _
  · have hb := batchStep_result env t hi
    revert hb
    generalize t.batchStep env = t1
    intro hb
    cases hb with
    | last it _ =>
      exact endEpoch_suffix (t := { t with iter := it })
        ⟨hi.file, hi.noVal, hi.noFile, hi.withFile, hi.history, hi.phase⟩
    | failed b it e _ _ => exact List.suffix_refl _
    | next b it t' s _ hr h => exact hr.suffix (t := t.updated env b it)
    | stop b it t' s _ hr h =>
      have hi' := hr.inv (updated_inv hi b it)
      exact (hr.suffix (t := t.updated env b it)).trans (endEpoch_suffix (t := { t' with stopper := s })
        ⟨hi'.file, hi'.noVal, hi'.noFile, hi'.withFile, hi'.history, hi'.phase⟩)
  · exact List.suffix_refl _
  · exact List.suffix_refl _

theorem NonNegCosts.suffix {l l' : List (TrainEvent S X J)} (h : NonNegCosts l') (hs : l <:+ l') : NonNegCosts l :=
  fun u s c hm => h u s c (hs.mem hm)

theorem reachable_stopInv {env : TrainEnv S X I J B} {t : Trainer S X I J} (h : TrainReachable env t)
    (hn : NonNegCosts t.log) : StopInv env t := by
  induction h with
  | start params lr iter t ht => exact initialize_stopInv env _ _ _ _ _ _ ht
  | step t hr ih =>
    have hi := reachable_inv hr
    have hn' := hn.suffix (step_suffix env t hi)
    exact step_stopInv env t hi (ih hn') hn'
  | restart t params lr iter t' _ ht _ => exact initialize_stopInv env _ _ _ _ _ _ ht

theorem reachable_lrInv {env : TrainEnv S X I J B} {t : Trainer S X I J} (h : TrainReachable env t) : LrInv t := by
  induction h with
  | start params lr iter t ht => rw [initialize_none] at ht; cases ht; intro vs h; cases h
  | step t hr ih => exact (step_lrInv env t (reachable_inv hr) ih).1
  | restart t params lr iter t' _ ht _ =>
    cases hf : t.file with
    | none => rw [hf, initialize_none] at ht; cases ht; intro vs h; cases h
    | some f => rw [hf, initialize_some] at ht; cases ht; intro vs h; cases h

end

end TheanoLM
