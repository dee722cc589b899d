import Verif.Lemmas.TrainerStop
import Mathlib.Algebra.Order.Field.Rat
/-!
# Properties C43-C46 and C77: training histories
-/
set_option linter.unusedSectionVars false

namespace TheanoLM

section
variable {S X I J B : Type} [Field S] [LinearOrder S]

/-! ## Histories -/

/-- C43 and C45: Every history of training follows the rules. -/
theorem C43_history (env : TrainEnv S X I J B) (t : Trainer S X I J) (h : TrainReachable env t) : History env t.log :=
  (reachable_inv h).history

/-- What the events before and after an event are. -/
structure EventFacts (env : TrainEnv S X I J B) (l1 : List (TrainEvent S X J)) (e : TrainEvent S X J)
    (l2 : List (TrainEvent S X J)) : Prop where
  saved : ∀ f, e = .saved f → env.hasValidation = true →
    ∃ u s c l3, l2 = .validated u s c :: l3 ∧ f.cost = some c ∧ Improves l3 c
  validated : ∀ u s c, e = .validated u s c → env.hasValidation = true ∧ c = env.statistic.statisticFunction s ∧
    ((∃ l0 f, l1 = l0 ++ [.saved f] ∧ f.cost = some c ∧ Improves l2 c) ∨
     (¬ Improves l2 c ∧ (env.patience < 0 ∨ ((sinceCandidate l2 + 1 : Nat) : Int) ≤ env.patience) ∧
        (∀ l0 f, l1 ≠ l0 ++ [.saved f]) ∧ ∀ l0 o n, l1 ≠ l0 ++ [.annealed o n]) ∨
     (¬ Improves l2 c ∧ 0 ≤ env.patience ∧ env.patience < ((sinceCandidate l2 + 1 : Nat) : Int) ∧
        ∃ l0 o, l1 = l0 ++ [.annealed o (o / 2)]))
  annealed : ∀ o n, e = .annealed o n → n = o / 2 ∧ ∃ u s c l3, l2 = .validated u s c :: l3 ∧ ¬ Improves l3 c ∧
    0 ≤ env.patience ∧ env.patience < ((sinceCandidate l3 + 1 : Nat) : Int)
  epochStarted : ∀ n : Nat, e = .epochStarted n → (n : Int) ≤ env.maxEpochs

/-- The event is not one that must be directly after a validation. -/
def Plain (env : TrainEnv S X I J B) (e : TrainEvent S X J) : Prop :=
  (∀ f, e = .saved f → env.hasValidation = false) ∧ ∀ o n, e ≠ .annealed o n

theorem EventFacts.later {env : TrainEnv S X I J B} {l1 : List (TrainEvent S X J)} {e : TrainEvent S X J}
    {l2 : List (TrainEvent S X J)} (h : EventFacts env l1 e l2) (x : TrainEvent S X J) (hx : l1 ≠ [] ∨ Plain env x) :
    EventFacts env (x :: l1) e l2 := by
  refine ⟨h.saved, ?_, h.annealed, h.epochStarted⟩
  intro u s c he
  obtain ⟨h1, h2, h3⟩ := h.validated u s c he
  refine ⟨h1, h2, ?_⟩
  rcases h3 with ⟨l0, f, hl, h3⟩ | ⟨h3, h4, h5, h6⟩ | ⟨h3, h4, h5, l0, o, hl⟩
  · exact Or.inl ⟨x :: l0, f, by rw [hl]; rfl, h3⟩
  · refine Or.inr (Or.inl ⟨h3, h4, ?_, ?_⟩)
    · intro l0 f hl
      cases l0 with
      | nil =>
        have hnil : l1 = [] := by simpa using (List.cons.inj hl).2
        rcases hx with hx | hx
        · exact hx hnil
        · have := hx.1 f (List.cons.inj hl).1
          rw [h1] at this; cases this
      | cons y l0 => exact h5 l0 f (List.cons.inj hl).2
    · intro l0 o n hl
      cases l0 with
      | nil =>
        have hnil : l1 = [] := by simpa using (List.cons.inj hl).2
        rcases hx with hx | hx
        · exact hx hnil
        · exact hx.2 o n (List.cons.inj hl).1
      | cons y l0 => exact h6 l0 o n (List.cons.inj hl).2
  · exact Or.inr (Or.inr ⟨h3, h4, h5, x :: l0, o, by rw [hl]; rfl⟩)

theorem history_split {env : TrainEnv S X I J B} {log : List (TrainEvent S X J)} (h : History env log) :
    ∀ l1 e l2, log = l1 ++ e :: l2 → EventFacts env l1 e l2 := by
  induction h with
  | nil => intro l1 e l2 h; simp at h
  | initialized l _ ih =>
    intro l1 e l2 he
    cases l1 with
    | nil =>
      obtain ⟨rfl, rfl⟩ := List.cons.inj he
      exact ⟨fun _ h => (by cases h), fun _ _ _ h => (by cases h), fun _ _ h => (by cases h), fun _ h => (by cases h)⟩
    | cons x l1 =>
      obtain ⟨rfl, h2⟩ := List.cons.inj he
      exact (ih l1 e l2 h2).later _ (Or.inr ⟨fun _ h => (by cases h), fun _ _ h => (by cases h)⟩)
  | epochStarted l n _ hn ih =>
    intro l1 e l2 he
    cases l1 with
    | nil =>
      obtain ⟨rfl, rfl⟩ := List.cons.inj he
      exact ⟨fun _ h => (by cases h), fun _ _ _ h => (by cases h), fun _ _ h => (by cases h), fun _ h => (by cases h; exact hn)⟩
    | cons x l1 =>
      obtain ⟨rfl, h2⟩ := List.cons.inj he
      exact (ih l1 e l2 h2).later _ (Or.inr ⟨fun _ h => (by cases h), fun _ _ h => (by cases h)⟩)
  | epochSaved l f _ hv ih =>
    intro l1 e l2 he
    cases l1 with
    | nil =>
      obtain ⟨rfl, rfl⟩ := List.cons.inj he
      exact ⟨fun _ _ h => (by rw [hv] at h; cases h), fun _ _ _ h => (by cases h), fun _ _ h => (by cases h),
        fun _ h => (by cases h)⟩
    | cons x l1 =>
      obtain ⟨rfl, h2⟩ := List.cons.inj he
      exact (ih l1 e l2 h2).later _ (Or.inr ⟨fun _ _ => hv, fun _ _ h => (by cases h)⟩)
  | improved l u s c f _ hv hc hi hf ih =>
    intro l1 e l2 he
    cases l1 with
    | nil =>
      obtain ⟨rfl, rfl⟩ := List.cons.inj he
      exact ⟨fun _ h _ => (by cases h; exact ⟨u, s, c, l, rfl, hf, hi⟩), fun _ _ _ h => (by cases h), fun _ _ h => (by cases h),
        fun _ h => (by cases h)⟩
    | cons x l1 =>
      obtain ⟨rfl, h2⟩ := List.cons.inj he
      cases l1 with
      | nil =>
        obtain ⟨rfl, rfl⟩ := List.cons.inj h2
        refine ⟨fun _ h _ => (by cases h), ?_, fun _ _ h => (by cases h), fun _ h => (by cases h)⟩
        intro u' s' c' h
        cases h
        exact ⟨hv, hc, Or.inl ⟨[], f, rfl, hf, hi⟩⟩
      | cons y l1 =>
        obtain ⟨rfl, h3⟩ := List.cons.inj h2
        exact ((ih l1 e l2 h3).later _ (Or.inr ⟨fun _ h => (by cases h), fun _ _ h => (by cases h)⟩)).later _
          (Or.inl (by simp))
  | waiting l u s c _ hv hc hi hp ih =>
    intro l1 e l2 he
    cases l1 with
    | nil =>
      obtain ⟨rfl, rfl⟩ := List.cons.inj he
      refine ⟨fun _ h _ => (by cases h), ?_, fun _ _ h => (by cases h), fun _ h => (by cases h)⟩
      intro u' s' c' h
      cases h
      exact ⟨hv, hc, Or.inr (Or.inl ⟨hi, hp, by simp, by simp⟩)⟩
    | cons x l1 =>
      obtain ⟨rfl, h2⟩ := List.cons.inj he
      exact (ih l1 e l2 h2).later _ (Or.inr ⟨fun _ h => (by cases h), fun _ _ h => (by cases h)⟩)
  | annealed l u s c o _ hv hc hi hp hx ih =>
    intro l1 e l2 he
    cases l1 with
    | nil =>
      obtain ⟨rfl, rfl⟩ := List.cons.inj he
      exact ⟨fun _ h _ => (by cases h), fun _ _ _ h => (by cases h),
        fun _ _ h => (by cases h; exact ⟨rfl, u, s, c, l, rfl, hi, hp, hx⟩), fun _ h => (by cases h)⟩
    | cons x l1 =>
      obtain ⟨rfl, h2⟩ := List.cons.inj he
      cases l1 with
      | nil =>
        obtain ⟨rfl, rfl⟩ := List.cons.inj h2
        refine ⟨fun _ h _ => (by cases h), ?_, fun _ _ h => (by cases h), fun _ h => (by cases h)⟩
        intro u' s' c' h
        cases h
        exact ⟨hv, hc, Or.inr (Or.inr ⟨hi, hp, hx, [], o, rfl⟩)⟩
      | cons y l1 =>
        obtain ⟨rfl, h3⟩ := List.cons.inj h2
        exact ((ih l1 e l2 h3).later _ (Or.inr ⟨fun _ h => (by cases h), fun _ _ h => (by cases h)⟩)).later _
          (Or.inl (by simp))

/-! ## C43 -/

/-- C43: At every moment the model file contains the last saved model. -/
theorem C43_file (env : TrainEnv S X I J B) (t : Trainer S X I J) (h : TrainReachable env t) :
    t.file = lastSaved t.log := (reachable_inv h).file

/-- C43: With validation, a model is saved only right after a validation.  Its cost is the cost of the validation and less than
0.999 times the cost of the model that was saved before it. -/
theorem C43_saved (env : TrainEnv S X I J B) (t : Trainer S X I J) (h : TrainReachable env t) (hv : env.hasValidation = true)
    (l1 l2 : List (TrainEvent S X J)) (f : TrainFile S X J) (hl : t.log = l1 ++ .saved f :: l2) :
    ∃ u s c l3, l2 = .validated u s c :: l3 ∧ f.cost = some c ∧
      ∀ f' c', lastSaved l3 = some f' → f'.cost = some c' → c < 999 / 1000 * c' :=
  (history_split (reachable_inv h).history l1 _ l2 hl).saved f rfl hv

/-- C43: Every cost measured since the model was saved is at least 0.999 times its cost. -/
theorem C43_since (env : TrainEnv S X I J B) (t : Trainer S X I J) (h : TrainReachable env t)
    (l1 l2 : List (TrainEvent S X J)) (u : Nat) (s : List S) (c : S) (hl : t.log = l1 ++ .validated u s c :: l2)
    (hno : ∀ f, .saved f ∉ l1) : ∃ f b, t.file = some f ∧ f.cost = some b ∧ 999 / 1000 * b ≤ c := by
  have hs : lastSaved t.log = lastSaved l2 := by
    rw [hl]
    clear hl
    induction l1 with
    | nil => rfl
    | cons e l1 ih =>
      have := ih (fun f hf => hno f (List.mem_cons_of_mem _ hf))
      cases e with
      | saved f => exact absurd List.mem_cons_self (hno f)
      | _ => exact this
  have hni : ¬ Improves l2 c := by
    obtain ⟨-, -, hc⟩ := (history_split (reachable_inv h).history l1 _ l2 hl).validated u s c rfl
    rcases hc with ⟨l0, f, rfl, -⟩ | ⟨hc, -⟩ | ⟨hc, -⟩
    · exact absurd (by simp) (hno f)
    · exact hc
    · exact hc
  unfold Improves at hni
  push Not at hni
  obtain ⟨f, b, hf, hb, hle⟩ := hni
  exact ⟨f, b, by rw [C43_file env t h, hs, hf], hb, hle⟩

/-! ## C45 -/

/-- C45: The learning rate is decreased only right after a validation that did not improve the cost, when the number of
validations since the model was saved or restored is larger than the patience, and the patience is not negative. -/
theorem C45_only_if (env : TrainEnv S X I J B) (t : Trainer S X I J) (h : TrainReachable env t)
    (l1 l2 : List (TrainEvent S X J)) (o n : S) (hl : t.log = l1 ++ .annealed o n :: l2) :
    0 ≤ env.patience ∧ env.patience < sinceCandidate l2 ∧ ∃ u s c l3, l2 = .validated u s c :: l3 ∧ ¬ Improves l3 c := by
  obtain ⟨-, u, s, c, l3, rfl, h1, h2, h3⟩ := (history_split (reachable_inv h).history l1 _ l2 hl).annealed o n rfl
  exact ⟨h2, h3, u, s, c, l3, rfl, h1⟩

/-- C45: The learning rate is decreased at every such validation. -/
theorem C45_if (env : TrainEnv S X I J B) (t : Trainer S X I J) (h : TrainReachable env t)
    (l1 l2 : List (TrainEvent S X J)) (u : Nat) (s : List S) (c : S) (hl : t.log = l1 ++ .validated u s c :: l2)
    (hi : ¬ Improves l2 c) (hp : 0 ≤ env.patience) (hx : env.patience < ((sinceCandidate l2 + 1 : Nat) : Int)) :
    ∃ l0 old, l1 = l0 ++ [.annealed old (old / 2)] := by
  obtain ⟨-, -, hc⟩ := (history_split (reachable_inv h).history l1 _ l2 hl).validated u s c rfl
  rcases hc with ⟨l0, f, -, -, hc⟩ | ⟨-, hc, -⟩ | ⟨-, -, -, hc⟩
  · exact absurd hc hi
  · omega
  · exact hc

/-! ## C77 -/

/-- C77: Training does not fail unless computing the validation perplexity does. -/
theorem C77_no_failure (env : TrainEnv S X I J B) (t : Trainer S X I J) (h : TrainReachable env t) (e : Err)
    (hf : t.phase = .failed e) : ∃ x, env.perplexity x = .error e := (reachable_inv h).phase e hf

/-- C77: A new training process can always be started from the model file. -/
theorem C77_restart (env : TrainEnv S X I J B) (params : X) (lr : S) (iter : I) (file : Option (TrainFile S X J))
    (log : List (TrainEvent S X J)) : ∃ t, Trainer.initialize env params lr iter file log = .ok t ∧ t.phase = .epochStart := by
  cases file with
  | none => exact ⟨_, initialize_none env params lr iter log, rfl⟩
  | some f => exact ⟨_, initialize_some env params lr iter f log, rfl⟩

/-! ## C44 -/

/-- C44: Within one training process, the learning rate is the one that the process started with divided by two to the number
of annealings.  The full property would say the same of the learning rate of the first process, which does not hold, see
`C44_restart_violated`. -/
theorem C44_partial (env : TrainEnv S X I J B) (t0 : Trainer S X I J) (h : TrainReachable env t0)
    (rest : List (TrainEvent S X J)) (hl : t0.log = .initialized :: rest) (n : Nat) :
    ((Trainer.step env)^[n] t0).lr = t0.lr / 2 ^ annealings ((Trainer.step env)^[n] t0).log := by
  have : TInv env ((Trainer.step env)^[n] t0) ∧
      ((Trainer.step env)^[n] t0).lr = t0.lr / 2 ^ annealings ((Trainer.step env)^[n] t0).log := by
    induction n with
    | zero => exact ⟨reachable_inv h, by simp [hl, annealings]⟩
    | succ n ih =>
      rw [Function.iterate_succ_apply']
      exact ⟨step_inv env _ ih.1, step_lr env _ ih.1 _ ih.2⟩
  exact this.2

/-- C44: A new process starts with the learning rate that it is given, or the one in the file, if there is a file. -/
theorem C44_initial (env : TrainEnv S X I J B) (params : X) (lr : S) (iter : I) (file : Option (TrainFile S X J))
    (log : List (TrainEvent S X J)) (t : Trainer S X I J) (h : Trainer.initialize env params lr iter file log = .ok t) :
    t.log = .initialized :: log ∧ t.lr = match file with | none => lr | some f => f.lr := by
  cases file with
  | none => rw [initialize_none] at h; cases h; exact ⟨rfl, rfl⟩
  | some f => rw [initialize_some] at h; cases h; exact ⟨rfl, rfl⟩

section
variable [IsStrictOrderedRing S]

/-- C44: When the file is written, the learning rate that is in use is written to it. -/
theorem C44_saved (env : TrainEnv S X I J B) (t : Trainer S X I J) (h : TrainReachable env t)
    (hs : (t.step env).file ≠ t.file) : ∃ f, (t.step env).file = some f ∧ f.lr = t.lr ∧ (t.step env).lr = t.lr := by
  rcases (step_lrInv env t (reachable_inv h) (reachable_lrInv h)).2 with h | h
  · exact absurd h hs
  · exact h

/-! ## C46 -/

/-- C46: No epoch is started after the maximum number of epochs. -/
theorem C46_max_epochs (env : TrainEnv S X I J B) (t : Trainer S X I J) (h : TrainReachable env t) (n : Nat)
    (hn : .epochStarted n ∈ t.log) : (n : Int) ≤ env.maxEpochs := by
  obtain ⟨l1, l2, hl⟩ := List.append_of_mem hn
  exact (history_split (reachable_inv h).history l1 _ l2 hl).epochStarted n rfl

/-- C46: A new epoch is started if the maximum number of epochs has not been reached and the stopping criterion says that
training goes on.  Otherwise training ends. -/
theorem C46_epoch (env : TrainEnv S X I J B) (t : Trainer S X I J) (h : TrainReachable env t) (hc : NonNegCosts t.log)
    (hp : t.phase = .epochStart) :
    ((t.epoch : Int) ≤ env.maxEpochs ∧ GoesOn env t → (t.step env).phase = .batches ∧
      (t.step env).log = .epochStarted t.epoch :: t.log) ∧
    (¬ ((t.epoch : Int) ≤ env.maxEpochs ∧ GoesOn env t) → (t.step env).phase = .finished ∧ (t.step env).log = t.log) := by
  have hi := reachable_inv h
  have hs := reachable_stopInv h hc
  simp only [Trainer.step, hp, Trainer.startEpoch]
  rw [hi.candidateCost]
  by_cases hm : env.maxEpochs < (t.epoch : Int)
  · rw [if_pos hm]
    exact ⟨fun h => absurd h.1 (by omega), fun _ => ⟨rfl, rfl⟩⟩
  · rw [if_neg hm]
    simp only
    cases hst : t.stopper.startNewMinibatch env.criterion t.epoch (t.file.bind TrainFile.cost) with
    | mk go s =>
      have hgo := (startNewMinibatch_iff hi hs go s hst).1
      cases go with
      | true => exact ⟨fun _ => ⟨rfl, rfl⟩, fun h => absurd ⟨by omega, hgo.mp rfl⟩ h⟩
      | false =>
        refine ⟨fun h => ?_, fun _ => ⟨rfl, rfl⟩⟩
        have := hgo.mpr h.2
        cases this

theorem GoesOn.endEpoch {env : TrainEnv S X I J B} {t : Trainer S X I J} (hi : TInv env t) (hs : StopInv env t)
    (h : ¬ GoesOn env t) : ¬ GoesOn env (t.endEpoch env) := by
  rw [endEpoch_result env t hi]
  unfold GoesOn at h ⊢
  cases hc : env.criterion with
  | epochCount => rw [hc] at h; exact absurd trivial h
  | annealingCount n m =>
    rw [hc] at h
    simp only [not_or, not_le] at h ⊢
    split
    · exact ⟨by push_cast; omega, h.2⟩
    · exact ⟨by push_cast; omega, by simpa [annealings] using h.2⟩
  | noImprovement n =>
    rw [hc] at h
    simp only [not_or, not_le, not_not] at h ⊢
    split
    · exact ⟨by push_cast; omega, h.2⟩
    · rename_i hv
      obtain ⟨-, a, b, r, h1, -⟩ := h
      rw [hs.noVal (by simpa using hv)] at h1
      cases h1

/-- C46: After a mini-batch, the epoch continues if the stopping criterion says that training goes on.  Otherwise the epoch is
ended, and then training ends because of the above theorem. -/
theorem C46_minibatch (env : TrainEnv S X I J B) (t : Trainer S X I J) (h : TrainReachable env t)
    (hc : NonNegCosts (t.step env).log) (hp : t.phase = .batches) (hn : (env.next t.iter).1 ≠ none)
    (hf : ∀ e, (t.step env).phase ≠ .failed e) :
    (GoesOn env (t.step env) → (t.step env).phase = .batches) ∧
    (¬ GoesOn env (t.step env) → (t.step env).phase = .epochStart) := by
  have hi := reachable_inv h
  have hcl := hc.suffix (step_suffix env t hi)
  have hs := reachable_stopInv h hcl
  have hstep : t.step env = t.batchStep env := by simp only [Trainer.step, hp]
  rw [hstep] at hf hc ⊢
  have hb := batchStep_result env t hi
  revert hb hf hc
  generalize t.batchStep env = t1
  intro hc hf hb
  cases hb with
  | last it hl => rw [hl] at hn; exact absurd rfl hn
  | failed b it e _ _ => exact absurd rfl (hf e)
  | next b it t' s _ hr hst =>
    have hi' := hr.inv (updated_inv hi b it)
    have hs' := hr.stopInv (updated_inv hi b it) (hs.of_eq rfl rfl rfl id) hcl
    have hgo := (startNewMinibatch_iff hi' hs' _ _ hst).1.mp rfl
    have hph : t'.phase = .batches := by
      cases hr with
      | idle _ => exact hp
      | sample x => exact hp
      | late x => exact hp
      | ignored x => exact hp
      | validation x t' hv _ _ _ _ hr => cases hr <;> exact hp
    exact ⟨fun _ => hph, fun hng => absurd hgo hng⟩
  | stop b it t' s _ hr hst =>
    have hi' := hr.inv (updated_inv hi b it)
    have hs' := hr.stopInv (updated_inv hi b it) (hs.of_eq rfl rfl rfl id) hcl
    have hgo := startNewMinibatch_iff hi' hs' _ _ hst
    have hng : ¬ GoesOn env t' := fun hh => (by have := hgo.1.mpr hh; cases this)
    have hi'' : TInv env { t' with stopper := s } :=
      ⟨hi'.file, hi'.noVal, hi'.noFile, hi'.withFile, hi'.history, hi'.phase⟩
    have hng' := GoesOn.endEpoch (t := { t' with stopper := s }) hi'' hgo.2 hng
    refine ⟨fun hh => absurd hh hng', fun _ => ?_⟩
    rw [endEpoch_result _ _ hi'']
    split <;> rfl

/-- C46: When training has ended, the number of epochs is larger than the maximum, or the stopping criterion says that training
does not go on. -/
theorem C46_finished (env : TrainEnv S X I J B) (t : Trainer S X I J) (h : TrainReachable env t) (hc : NonNegCosts t.log)
    (hp : t.phase = .finished) : env.maxEpochs < t.epoch ∨ ¬ GoesOn env t := by
  induction h with
  | start params lr iter t ht => rw [initialize_none] at ht; cases ht; cases hp
  | restart t params lr iter t' _ ht _ =>
    cases hf : t.file with
    | none => rw [hf, initialize_none] at ht; cases ht; cases hp
    | some f => rw [hf, initialize_some] at ht; cases ht; cases hp
  | step t hr ih =>
    have hi := reachable_inv hr
    have hcl := hc.suffix (step_suffix env t hi)
    cases hph : t.phase with
    | epochStart =>
      have he := C46_epoch env t hr hcl hph
      by_cases hgo : (t.epoch : Int) ≤ env.maxEpochs ∧ GoesOn env t
      · rw [(he.1 hgo).1] at hp; cases hp
      · have hlog := (he.2 hgo).2
        have hep : (t.step env).epoch = t.epoch := by
          simp only [Trainer.step, hph, Trainer.startEpoch]
          rw [hi.candidateCost]
          split
          · rfl
          · simp only; split <;> rfl
        unfold GoesOn at hgo ⊢
        rw [hlog, hep]
        rcases not_and_or.mp hgo with h | h
        · left; omega
        · exact Or.inr h
    | batches =>
      exfalso
      have hstep : t.step env = t.batchStep env := by simp only [Trainer.step, hph]
      rw [hstep] at hp
      have hb := batchStep_result env t hi
      revert hb hp
      generalize t.batchStep env = t1
      intro hp hb
      cases hb with
      | last it hl =>
        rw [endEpoch_result env { t with iter := it } ⟨hi.file, hi.noVal, hi.noFile, hi.withFile, hi.history, hi.phase⟩] at hp
        split at hp <;> cases hp
      | failed b it e _ _ => cases hp
      | next b it t' s _ hr hst =>
        have hph : t'.phase = .batches := by
          cases hr with
          | idle _ => exact hph
          | sample x => exact hph
          | late x => exact hph
          | ignored x => exact hph
          | validation x t' hv _ _ _ _ hr => cases hr <;> exact hph
        simp only at hp
        rw [hph] at hp; cases hp
      | stop b it t' s _ hr hst =>
        have hi' := hr.inv (updated_inv hi b it)
        rw [endEpoch_result env { t' with stopper := s } ⟨hi'.file, hi'.noVal, hi'.noFile, hi'.withFile, hi'.history, hi'.phase⟩] at hp
        split at hp <;> cases hp
    | finished =>
      have hstep : t.step env = t := by simp only [Trainer.step, hph]
      rw [hstep] at hp hc ⊢
      exact ih hc hph
    | failed e =>
      have hstep : t.step env = t := by simp only [Trainer.step, hph]
      rw [hstep, hph] at hp; cases hp

end

end

/-! ## Examples -/

theorem reachable_iterate {S X I J B : Type} [Field S] [LinearOrder S] {env : TrainEnv S X I J B} {t : Trainer S X I J}
    (h : TrainReachable env t) (n : Nat) : TrainReachable env ((Trainer.step env)^[n] t) := by
  induction n with
  | zero => exact h
  | succ n ih => rw [Function.iterate_succ_apply']; exact .step _ ih

/-- The parameters are the number of updates, and an epoch is two mini-batches.  The perplexity is validated at the end of each
epoch from one sample. -/
def exampleTrainEnv (perplexity : Nat → Except Err ℚ) (hasValidation : Bool) (patience maxEpochs : Int) (criterion : Criterion) :
    TrainEnv ℚ Nat Nat Nat Unit where
  next := fun i => if i = 0 then (none, 2) else (some (), i - 1)
  saveIter := id
  loadIter := fun _ j => j
  updateBatch := fun x _ _ => x + 1
  perplexity := perplexity
  hasValidation := hasValidation
  samples := 1
  statistic := ⟨median, none⟩
  frequency := 1
  updatesPerEpoch := 2
  patience := patience
  maxEpochs := maxEpochs
  criterion := criterion

/-- The perplexity gets better until the fourth update. -/
def examplePerplexity (x : Nat) : Except Err ℚ := .ok (if x ≤ 4 then 100 - 10 * x else 60 + x)

/-- The state in the beginning. -/
def exampleTrainer (env : TrainEnv ℚ Nat Nat Nat Unit) : Trainer ℚ Nat Nat Nat := Trainer.fresh env 0 1 2 []

theorem exampleTrainer_reachable (env : TrainEnv ℚ Nat Nat Nat Unit) : TrainReachable env (exampleTrainer env) :=
  .start 0 1 2 _ rfl

/-- A history: two models are saved, then the learning rate is decreased twice, and then training stops because there was no
improvement between the decreases. -/
example : let t := (Trainer.step (exampleTrainEnv examplePerplexity true 0 100 (.noImprovement 0)))^[16] (exampleTrainer
      (exampleTrainEnv examplePerplexity true 0 100 (.noImprovement 0)))
    t.phase = .finished ∧ t.log = [.annealed (1 / 2) (1 / 4), .validated 2 [66] 66, .epochStarted 3, .annealed 1 (1 / 2),
      .validated 2 [66] 66, .epochStarted 3, .saved ⟨4, 1, 0, 2, 2, [80, 60]⟩, .validated 2 [60] 60, .epochStarted 2,
      .saved ⟨2, 1, 0, 1, 2, [80]⟩, .validated 2 [80] 80, .epochStarted 1, .initialized] ∧
    NoImprovement t.log ∧ t.file = some ⟨4, 1, 0, 2, 2, [80, 60]⟩ := by
  refine ⟨by decide +kernel, by decide +kernel, ⟨60, 60, [], by decide +kernel, by decide +kernel, ?_⟩, by decide +kernel⟩
  intro c hc
  have h : (lastSaved ((Trainer.step (exampleTrainEnv examplePerplexity true 0 100 (.noImprovement 0)))^[16] (exampleTrainer
      (exampleTrainEnv examplePerplexity true 0 100 (.noImprovement 0)))).log).bind TrainFile.cost = some 60 := by decide +kernel
  rw [h] at hc
  cases hc
  exact lt_irrefl _

/-- The state of the example after the first decrease of the learning rate. -/
def exampleAnnealed : Trainer ℚ Nat Nat Nat :=
  (Trainer.step (exampleTrainEnv examplePerplexity true 0 100 .epochCount))^[12]
    (exampleTrainer (exampleTrainEnv examplePerplexity true 0 100 .epochCount))

/-- C44 does not hold when training is continued in a new process: the learning rate was halved once, but the new process
continues with the original learning rate. -/
theorem C44_restart_violated : ∃ (env : TrainEnv ℚ Nat Nat Nat Unit) (t t' : Trainer ℚ Nat Nat Nat), TrainReachable env t ∧
    annealings t.log = 1 ∧ t.lr = 1 / 2 ∧ Trainer.initialize env 0 1 2 t.file t.log = .ok t' ∧ TrainReachable env t' ∧
    t'.lr = 1 :=
  ⟨exampleTrainEnv examplePerplexity true 0 100 .epochCount, exampleAnnealed, _,
    reachable_iterate (exampleTrainer_reachable _) 12, by decide +kernel, by decide +kernel,
    show Trainer.initialize _ _ _ _ _ _ = .ok (Trainer.restored _ 2 ⟨4, 1, 0, 2, 2, [80, 60]⟩ exampleAnnealed.log) by
      have : exampleAnnealed.file = some ⟨4, 1, 0, 2, 2, [80, 60]⟩ := by decide +kernel
      rw [this]; rfl,
    .restart exampleAnnealed 0 1 2 _ (reachable_iterate (exampleTrainer_reachable _) 12) (by
      have : exampleAnnealed.file = some ⟨4, 1, 0, 2, 2, [80, 60]⟩ := by decide +kernel
      rw [this]; rfl), by decide +kernel⟩

/-- Stopping after a number of decreases of the learning rate. -/
example : let t := (Trainer.step (exampleTrainEnv examplePerplexity true 0 100 (.annealingCount 0 2)))^[30] (exampleTrainer
      (exampleTrainEnv examplePerplexity true 0 100 (.annealingCount 0 2)))
    t.phase = .finished ∧ annealings t.log = 3 := by decide +kernel

/-- Stopping after a number of epochs, without validation: the model is saved after each epoch. -/
example : let t := (Trainer.step (exampleTrainEnv examplePerplexity false 0 2 .epochCount))^[30] (exampleTrainer
      (exampleTrainEnv examplePerplexity false 0 2 .epochCount))
    t.phase = .finished ∧ t.log = [.saved ⟨4, 1, 2, 2, 2, []⟩, .epochStarted 2, .saved ⟨2, 1, 2, 1, 2, []⟩, .epochStarted 1,
      .initialized] := by decide +kernel

end TheanoLM
