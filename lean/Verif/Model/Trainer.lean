import Verif.Model.Schedule
import Mathlib.Algebra.Order.Field.Basic
import Mathlib.Data.List.Sort
/-!
# Model of the training process

theanolm/training/trainer.py `Trainer` and theanolm/training/stoppers.py.

The network and the optimizer (other than its learning rate) are an abstract value of type `X`, which a mini-batch update
transforms and from which the validation perplexity is computed.  The training data iterator is an abstract value of type `I`
(`Verif.Model.BatchIterator` is its model).  Costs and learning rates are elements of an ordered field `S`; the rounding of
floating point numbers and nan are not modelled.  Messages and time measurements are not modelled, but the events that the
messages tell about are recorded in a log, so that properties of training histories can be stated.
-/
namespace TheanoLM

/-- What is written to a model file by `Trainer.get_state` (trainer.py:256-283).  The other content of the file (vocabulary and
architecture) does not change during training and is not modelled. -/
structure TrainFile (S X J : Type) where
  params : X
  lr : S
  iter : J
  epoch : Nat
  update : Nat
  costs : List S
  deriving DecidableEq

/-- The functions for combining the samples that the trainer stores (trainer.py:88-89, 113-114): `_statistic_function`, and
`_statistics_function`. -/
structure StatisticConfig (S : Type) where
  statisticFunction : List S → S
  statisticsFunction : Option (List S → S)

/-- `numpy.median`.  For an empty list it is nan in the program and zero here. -/
def median {S : Type} [Field S] [LinearOrder S] (l : List S) : S :=
  let s := l.insertionSort (· ≤ ·)
  if l.length % 2 = 1 then s.getD (l.length / 2) 0
  else (s.getD (l.length / 2 - 1) 0 + s.getD (l.length / 2) 0) / 2

/-- trainer.py:86-89, 113-114: the constructor. -/
def StatisticConfig.initial {S : Type} [Field S] [LinearOrder S] : Nat × StatisticConfig S := (7, ⟨median, none⟩)

/-- trainer.py:118-146 `set_validation`: number of samples, and functions. -/
def setValidation {S : Type} (c : Nat × StatisticConfig S) (samples : Option Nat) (f : Option (List S → S)) :
    Nat × StatisticConfig S :=
  (match samples with | some n => n | none => c.1,                         -- 142-143
   match f with
   | some f => { c.2 with statisticsFunction := some f }                   -- 145-146
   | none => c.2)

/-- The stopping criteria with their options (stoppers.py:14-23, 46, 99, 166-167). -/
inductive Criterion
  | epochCount
  | noImprovement (minEpochs : Int)
  | annealingCount (minEpochs maxAnnealingCount : Int)
  deriving DecidableEq

/-- Everything that does not change during training. -/
structure TrainEnv (S X I J B : Type) where
  /-- the training data iterator: the next mini-batch (`none` is `StopIteration`) and the state after that -/
  next : I → Option B × I
  /-- `ShufflingBatchIterator.get_state` -/
  saveIter : I → J
  /-- `ShufflingBatchIterator.set_state` -/
  loadIter : I → J → I
  /-- `BasicOptimizer.update_minibatch` with the given learning rate -/
  updateBatch : X → S → B → X
  /-- `TextScorer.compute_perplexity` on the validation data, which can raise an exception -/
  perplexity : X → Except Err S
  hasValidation : Bool
  samples : Nat
  statistic : StatisticConfig S
  frequency : Nat
  updatesPerEpoch : Nat
  patience : Int
  maxEpochs : Int
  criterion : Criterion

/-- The attributes of a stopper that change (stoppers.py:100-101, 167). -/
inductive Stopper (S : Type)
  | epochCount
  | noImprovement (candidateCost : Option S) (hasImproved : Bool)
  | annealingCount (left : Int)
  deriving DecidableEq

/-- The events of training: a validation (538-562) with the update number, the samples and the cost; saving a file (442-469);
decreasing the learning rate (377-395); starting an epoch (213); initialization, which is the first event of each training
process. -/
inductive TrainEvent (S X J : Type)
  | validated (update : Nat) (samples : List S) (cost : S)
  | saved (file : TrainFile S X J)
  | annealed (old new : S)
  | epochStarted (epoch : Nat)
  | initialized
  deriving DecidableEq

/-- Where the training process is. -/
inductive Phase
  /-- before calling `start_new_epoch` (213) -/
  | epochStart
  /-- before asking the iterator for the next mini-batch (215) -/
  | batches
  /-- `train` has returned -/
  | finished
  /-- an exception was raised -/
  | failed (e : Err)
  deriving DecidableEq

/-- The state of the training process.  `log` contains the events, the latest one first. -/
structure Trainer (S X I J : Type) where
  params : X
  lr : S
  iter : I
  epoch : Nat
  update : Nat
  costs : List S
  candidateIndex : Option Nat
  file : Option (TrainFile S X J)
  localPerplexities : List S
  validationState : Option (TrainFile S X J)
  stopper : Stopper S
  phase : Phase
  log : List (TrainEvent S X J)
  deriving DecidableEq

section
variable {S X I J B : Type}

/-- trainer.py:256-283 `get_state` -/
def Trainer.getState (env : TrainEnv S X I J B) (t : Trainer S X I J) : TrainFile S X J :=
  ⟨t.params, t.lr, env.saveIter t.iter, t.epoch, t.update, t.costs⟩

/-- The candidate index that corresponds to the last element of the cost history (324-331, 462-465). -/
def lastIndex (costs : List S) : Option Nat := if costs.length = 0 then none else some (costs.length - 1)

/-- trainer.py:285-337 `_reset_state` -/
def Trainer.resetState (env : TrainEnv S X I J B) (t : Trainer S X I J) : Except Err (Trainer S X I J) :=
  match t.file with
  | none => .error .incompatibleState                                       -- 303-304
  | some f =>
    .ok { t with
      params := f.params                                                    -- 301, 337
      epoch := f.epoch                                                      -- 310
      update := f.update                                                    -- 315
      costs := f.costs                                                      -- 323
      candidateIndex := lastIndex f.costs                                   -- 324-331
      iter := env.loadIter t.iter f.iter                                    -- 336
      lr := f.lr }                                                          -- 337

/-- trainer.py:363-375 `candidate_cost`.  The model computes it before each call of a stopper, also when the stopper would not
ask for it; C77 says that this does not raise an exception. -/
def Trainer.candidateCost (t : Trainer S X I J) : Except Err (Option S) :=
  match t.candidateIndex with
  | none => .ok none
  | some i =>
    match t.costs[i]? with
    | none => .error .indexError
    | some c => .ok (some c)

/-- trainer.py:348-361 `validations_since_candidate` -/
def Trainer.validationsSinceCandidate (t : Trainer S X I J) : Except Err Int :=
  if t.costs.length = 0 then .error .runtimeError
  else
    match t.candidateIndex with
    | none => .error .typeError
    | some i => .ok ((t.costs.length : Int) - 1 - i)

/-- trainer.py:442-469 `_set_candidate_state`; without a given state the current state is saved. -/
def Trainer.setCandidateState (env : TrainEnv S X I J B) (t : Trainer S X I J) (state : Option (TrainFile S X J)) :
    Trainer S X I J :=
  let f := match state with
    | none => t.getState env                                                -- 452
    | some f => f                                                           -- 454-460
  { t with
    file := some f
    candidateIndex := lastIndex t.costs                                     -- 462-465
    log := .saved f :: t.log }

/-- stoppers.py:48-53, 103-122, 169-174 `improvement_ceased`; `cost` is the candidate cost of the trainer. -/
def Stopper.improvementCeased [LT S] [DecidableLT S] (s : Stopper S) (cost : Option S) : Stopper S :=
  match s with
  | .epochCount => .epochCount
  | .noImprovement old _ =>
    match cost with
    | none => .noImprovement old false                                      -- 110-113
    | some c =>
      match old with
      | none => .noImprovement (some c) true                                -- 115-119
      | some o => .noImprovement (some c) (decide (c < o))                  -- 121-122
  | .annealingCount left => .annealingCount (left - 1)                      -- 174

/-- stoppers.py:69-77, 124-148, 176-187 `start_new_minibatch`; the epoch number and the candidate cost are attributes of the
trainer. -/
def Stopper.startNewMinibatch [LT S] [DecidableLT S] (criterion : Criterion) (s : Stopper S) (epoch : Nat) (cost : Option S) :
    Bool × Stopper S :=
  match criterion, s with
  | .noImprovement minEpochs, .noImprovement old improved =>
    if (epoch : Int) ≤ minEpochs then (true, s)                             -- 132-133
    else if improved then (true, s)                                         -- 135-136
    else
      match cost with
      | none => (false, s)                                                  -- 142, 148
      | some c =>
        match old with
        | none => (true, .noImprovement old true)                           -- 143-146
        | some o => if c < o then (true, .noImprovement old true) else (false, s)
  | .annealingCount minEpochs _, .annealingCount left =>
    if (epoch : Int) ≤ minEpochs then (true, s)                             -- 184-185
    else (decide (0 ≤ left), s)                                             -- 187
  | _, _ => (true, s)                                                       -- 77

/-- stoppers.py:6-23, 45-46, 99-101, 166-167: the constructors. -/
def Criterion.initial (c : Criterion) : Stopper S :=
  match c with
  | .epochCount => .epochCount
  | .noImprovement _ => .noImprovement none true
  | .annealingCount _ maxCount => .annealingCount maxCount

variable [Field S] [LinearOrder S]

/-- trainer.py:377-395 `_decrease_learning_rate` -/
def Trainer.decreaseLearningRate (env : TrainEnv S X I J B) (t : Trainer S X I J) : Except Err (Trainer S X I J) :=
  let old := t.lr                                                           -- 384
  let new := old / 2                                                        -- 385
  match t.resetState env with                                               -- 386
  | .error e => .error e
  | .ok t =>
    match t.candidateCost with
    | .error e => .error e
    | .ok cost =>
      .ok { t with
        stopper := t.stopper.improvementCeased cost                         -- 387
        lr := new                                                           -- 388
        log := .annealed old new :: t.log }

/-- trainer.py:397-415 `_has_improved` -/
def Trainer.hasImproved (t : Trainer S X I J) : Except Err Bool :=
  match t.costs.getLast? with
  | none => .error .runtimeError                                            -- 408-410
  | some last =>
    match t.candidateCost with
    | .error e => .error e
    | .ok none => .ok true                                                  -- 412-413
    | .ok (some c) => .ok (decide (last < 999 / 1000 * c))                  -- 415

/-- trainer.py:536-562: the part of `_validate` that is executed when all the samples have been collected; `vs` is the state at
the center of the samples. -/
def Trainer.finishValidation (env : TrainEnv S X I J B) (t : Trainer S X I J) (vs : TrainFile S X J) :
    Except Err (Trainer S X I J) :=
  let statistic := env.statistic.statisticFunction t.localPerplexities      -- 536
  let t := { t with
    costs := t.costs ++ [statistic]                                         -- 537
    log := .validated t.update t.localPerplexities statistic :: t.log }
  match t.hasImproved with                                                  -- 538
  | .error e => .error e
  | .ok improved =>
    let t := if improved then t.setCandidateState env (some { vs with costs := t.costs }) else t   -- 542-545
    let finish (t : Trainer S X I J) : Trainer S X I J :=
      { t with localPerplexities := [], validationState := none }           -- 560-562
    if 0 ≤ env.patience then
      match t.validationsSinceCandidate with                                -- 549-550
      | .error e => .error e
      | .ok n =>
        if env.patience < n then
          if t.file.isNone then .error .assertion                           -- 556
          else
            match t.decreaseLearningRate env with                           -- 558
            | .error e => .error e
            | .ok t => .ok (finish t)
        else .ok (finish t)
    else .ok (finish t)

/-- trainer.py:471-562 `_validate` -/
def Trainer.validate (env : TrainEnv S X I J B) (t : Trainer S X I J) : Except Err (Trainer S X I J) :=
  if env.hasValidation = false then .ok t                                   -- 484-485
  else if isScheduled t.update env.updatesPerEpoch env.frequency (env.samples - 1) = false then .ok t   -- 487-489
  else
    match env.perplexity t.params with                                      -- 491
    | .error e => .error e
    | .ok perplexity =>
      let t := { t with localPerplexities := t.localPerplexities ++ [perplexity] }   -- 492
      if isScheduled t.update env.updatesPerEpoch env.frequency (env.samples / 2) = false then .ok t   -- 500-502
      else
        let vs := t.validationState.getD (t.getState env)                   -- 507-513
        let t := { t with validationState := some vs }
        if isScheduled t.update env.updatesPerEpoch env.frequency 0 = false then .ok t   -- 517-518
        else if t.localPerplexities.length < env.samples then               -- 523
          .ok { t with localPerplexities := [], validationState := none }   -- 531-534
        else t.finishValidation env vs

/-- trainer.py:236-254: the end of an epoch. -/
def Trainer.endEpoch (env : TrainEnv S X I J B) (t : Trainer S X I J) : Trainer S X I J :=
  let t := if env.hasValidation then t else t.setCandidateState env none    -- 236-237
  match t.candidateCost with                                                -- 244
  | .error e => { t with phase := .failed e }
  | .ok _ => { t with epoch := t.epoch + 1, update := 0, phase := .epochStart }   -- 250-251

/-- trainer.py:213, stoppers.py:55-67 `start_new_epoch` -/
def Trainer.startEpoch (env : TrainEnv S X I J B) (t : Trainer S X I J) : Trainer S X I J :=
  if env.maxEpochs < (t.epoch : Int) then { t with phase := .finished }     -- stoppers.py:62-65
  else
    match t.candidateCost with
    | .error e => { t with phase := .failed e }
    | .ok cost =>
      match t.stopper.startNewMinibatch env.criterion t.epoch cost with     -- stoppers.py:67
      | (true, s) => { t with stopper := s, phase := .batches, log := .epochStarted t.epoch :: t.log }
      | (false, s) => { t with stopper := s, phase := .finished }

/-- trainer.py:215-234: one pass of the loop over mini-batches. -/
def Trainer.batchStep (env : TrainEnv S X I J B) (t : Trainer S X I J) : Trainer S X I J :=
  match env.next t.iter with
  | (none, it) => ({ t with iter := it }).endEpoch env
  | (some b, it) =>
    let t := { t with
      iter := it
      update := t.update + 1                                                -- 216
      params := env.updateBatch t.params t.lr b }                           -- 219-221
    match t.validate env with                                               -- 228
    | .error e => { t with phase := .failed e }
    | .ok t =>
      match t.candidateCost with
      | .error e => { t with phase := .failed e }
      | .ok cost =>
        match t.stopper.startNewMinibatch env.criterion t.epoch cost with   -- 233
        | (true, s) => { t with stopper := s }
        | (false, s) => ({ t with stopper := s }).endEpoch env              -- 234

/-- One step of `train` (trainer.py:198-254): starting an epoch, or a mini-batch.  It does nothing after the end. -/
def Trainer.step (env : TrainEnv S X I J B) (t : Trainer S X I J) : Trainer S X I J :=
  match t.phase with
  | .epochStart => t.startEpoch env
  | .batches => t.batchStep env
  | .finished => t
  | .failed _ => t

/-- trainer.py:28-116, 158-196: constructing a trainer and initializing it with a model file, and the state before `train`.
`params`, `lr` and `iter` are the state of a new network, optimizer and iterator.  `log` is the log of the earlier training
processes that have written the file. -/
def Trainer.initialize (env : TrainEnv S X I J B) (params : X) (lr : S) (iter : I) (file : Option (TrainFile S X J))
    (log : List (TrainEvent S X J)) : Except Err (Trainer S X I J) :=
  let t : Trainer S X I J :=
    { params, lr, iter, epoch := 1, update := 0, costs := [], candidateIndex := none, file, localPerplexities := [],
      validationState := none, stopper := env.criterion.initial, phase := .epochStart, log := .initialized :: log }   -- 191-194
  if file.isSome then t.resetState env                                      -- 185-189
  else .ok t

end

end TheanoLM
