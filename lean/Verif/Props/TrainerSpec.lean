import Verif.Model.Trainer
/-!
# Specification for the properties of training, C42-C46, C65 and C77
-/
namespace TheanoLM

section
variable {S X I J B : Type} [Field S] [LinearOrder S]

/-- The states that training can reach from an empty model file, in one or several processes: a process can end at any moment
(normally or by force), and a new one can be started from the model file. -/
inductive TrainReachable (env : TrainEnv S X I J B) : Trainer S X I J → Prop
  | start (params lr iter t) : Trainer.initialize env params lr iter none [] = .ok t → TrainReachable env t
  | step (t) : TrainReachable env t → TrainReachable env (t.step env)
  | restart (t params lr iter t') : TrainReachable env t → Trainer.initialize env params lr iter t.file t.log = .ok t' →
      TrainReachable env t'

omit [Field S] [LinearOrder S] in
/-- The file that was saved last. -/
def lastSaved : List (TrainEvent S X J) → Option (TrainFile S X J)
  | [] => none
  | .saved f :: _ => some f
  | _ :: l => lastSaved l

/-- The cost of a saved model: the last one in its cost history. -/
def TrainFile.cost (f : TrainFile S X J) : Option S := f.costs.getLast?

/-- The cost is better than that of the model that was saved last, if any. -/
def Improves (l : List (TrainEvent S X J)) (c : S) : Prop :=
  ∀ f b, lastSaved l = some f → f.cost = some b → c < 999 / 1000 * b

/-- Number of validations since a model was saved or restored. -/
def sinceCandidate : List (TrainEvent S X J) → Nat
  | [] => 0
  | .validated _ _ _ :: l => sinceCandidate l + 1
  | .epochStarted _ :: l => sinceCandidate l
  | .saved _ :: _ => 0
  | .annealed _ _ :: _ => 0
  | .initialized :: _ => 0

/-- Number of times that the learning rate has been decreased in this process. -/
def annealings : List (TrainEvent S X J) → Nat
  | [] => 0
  | .annealed _ _ :: l => annealings l + 1
  | .initialized :: _ => 0
  | _ :: l => annealings l

/-- The cost of the saved model at those times, the latest one first. -/
def annealingCosts : List (TrainEvent S X J) → List S
  | [] => []
  | .annealed _ _ :: l => ((lastSaved l).bind TrainFile.cost).toList ++ annealingCosts l
  | .initialized :: _ => []
  | _ :: l => annealingCosts l

/-- There was no improvement between the last two decreases of the learning rate, and there has not been any since. -/
def NoImprovement (l : List (TrainEvent S X J)) : Prop :=
  ∃ a b rest, annealingCosts l = a :: b :: rest ∧ ¬ a < b ∧ ∀ c, (lastSaved l).bind TrainFile.cost = some c → ¬ c < a

/-- The histories of training that follow the rules, the latest event first.

With validation, a model is saved exactly when a validation has improved the cost, and the cost is then the last one in its
cost history.  Otherwise the learning rate is halved exactly when the number of validations exceeds the patience.  Without
validation, models are saved at any time. -/
inductive History (env : TrainEnv S X I J B) : List (TrainEvent S X J) → Prop
  | nil : History env []
  | initialized (l) : History env l → History env (.initialized :: l)
  | epochStarted (l) (n : Nat) : History env l → (n : Int) ≤ env.maxEpochs → History env (.epochStarted n :: l)
  | epochSaved (l f) : History env l → env.hasValidation = false → History env (.saved f :: l)
  | improved (l u s c f) : History env l → env.hasValidation = true → c = env.statistic.statisticFunction s → Improves l c →
      TrainFile.cost f = some c → History env (.saved f :: .validated u s c :: l)
  | waiting (l u s c) : History env l → env.hasValidation = true → c = env.statistic.statisticFunction s → ¬ Improves l c →
      (env.patience < 0 ∨ ((sinceCandidate l + 1 : Nat) : Int) ≤ env.patience) →
      History env (.validated u s c :: l)
  | annealed (l u s c old) : History env l → env.hasValidation = true → c = env.statistic.statisticFunction s → ¬ Improves l c →
      0 ≤ env.patience → env.patience < ((sinceCandidate l + 1 : Nat) : Int) →
      History env (.annealed old (old / 2) :: .validated u s c :: l)

/-- The rule of the stopping criterion for going on, other than the maximum number of epochs. -/
def GoesOn (env : TrainEnv S X I J B) (t : Trainer S X I J) : Prop :=
  match env.criterion with
  | .epochCount => True
  | .noImprovement minEpochs => (t.epoch : Int) ≤ minEpochs ∨ ¬ NoImprovement t.log
  | .annealingCount minEpochs maxAnnealings => (t.epoch : Int) ≤ minEpochs ∨ (annealings t.log : Int) ≤ maxAnnealings

/-- The costs are not negative, as is the case for perplexities. -/
def NonNegCosts (l : List (TrainEvent S X J)) : Prop := ∀ u s c, .validated u s c ∈ l → 0 ≤ c

/-- The state after `k` steps. -/
def stateAfter (env : TrainEnv S X I J B) (t0 : Trainer S X I J) (k : Nat) : Trainer S X I J := (Trainer.step env)^[k] t0

/-- The parameters right after the update of the `k`:th mini-batch from `t0`. -/
def paramsAfter (env : TrainEnv S X I J B) (t0 : Trainer S X I J) : Nat → Option X
  | 0 => none
  | k + 1 =>
    match env.next (stateAfter env t0 k).iter with
    | (none, _) => none
    | (some b, _) => some (env.updateBatch (stateAfter env t0 k).params (stateAfter env t0 k).lr b)

/-- From the state `t0` at update `m` of an epoch, `K` mini-batches are processed without interruption: the epoch does not end,
an earlier state is not restored, and computing the validation perplexity does not fail. -/
structure Uninterrupted (env : TrainEnv S X I J B) (t0 : Trainer S X I J) (m K : Nat) : Prop where
  validation : env.hasValidation = true
  phase : ∀ k < K, (stateAfter env t0 k).phase = .batches
  update : ∀ k < K, (stateAfter env t0 k).update = m + k
  batch : ∀ k < K, (env.next (stateAfter env t0 k).iter).1 ≠ none
  notFailed : ∀ k ≤ K, ∀ e, (stateAfter env t0 k).phase ≠ .failed e

end

end TheanoLM
