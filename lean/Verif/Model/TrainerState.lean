import Verif.Model.NetworkState
import Verif.Model.Optimizer
import Verif.Model.BatchIterator
/-!
# Model of the training state in a model file

theanolm/training/trainer.py:256-346, 442-469 (`get_state`, `_reset_state`, `_set_candidate_state`), the `get_state` and `set_state`
methods of the optimizers (basicoptimizer.py) and of the training data iterator (shufflingbatchiterator.py), and the parameters that
the constructors of the optimizers create.

In `Verif.Model.Trainer` a model file is a record that is written and read at once.  Here it is the HDF5 file with its groups.  When an
exception is raised, what was written or restored before it is not modelled.
-/
namespace TheanoLM

/-- The group `trainer`: its attributes and its dataset. -/
structure TrainerGroup (S : Type) where
  epoch : Option Nat
  update : Option Nat
  costs : Option (List S)
  deriving DecidableEq

/-- The group `iterator`. -/
structure IteratorGroup where
  order : Option (List Nat)
  nextLine : Option Nat
  deriving DecidableEq

/-- A model file.  `data` are the datasets of the parameters of the network and the optimizer, `optimizer` is the attribute
`learning_rate` of the group `optimizer`, if the group exists. -/
structure StateFile (S : Type) where
  data : List (Str × Arr S)
  arch : Option H5Arch
  trainer : Option (TrainerGroup S)
  iterator : Option IteratorGroup
  optimizer : Option (Option S)
  vocab : Option VocabState

/-- A file without groups (trainer.py:511-512). -/
def StateFile.new {S : Type} : StateFile S := ⟨[], none, none, none, none, none⟩

/-- The objects whose state is in a model file: the network, the optimizer, the training data iterator and the trainer. -/
structure TrainObjects (S : Type) where
  arch : Architecture
  layers : List (Created S)
  optParams : Params S
  learningRate : S
  iter : IterSt ShufSt
  epoch : Nat
  update : Nat
  costs : List S
  candidateIndex : Option Nat

section
variable {S : Type} [Field S] [LinearOrder S]

/-- Adding several parameters. -/
def addAllParams : List (Str × Arr S) → Params S → Except Err (Params S)
  | [], p => .ok p
  | d :: ds, p =>
    match p.add d.1 d.2 with
    | .error e => .error e
    | .ok p' => addAllParams ds p'

/-- The parameters that the constructors of the optimizers add, for the parameters `netParams` of the network: see `optVariables`;
adamoptimizer.py:33-34 adds first a scalar. -/
def optimizerParams (method : OptMethod) (netParams : List (Str × Arr S)) : List (Str × Arr S) :=
  (if method = .adam then [("optimizer/timestep".toList, ⟨[], [0]⟩)] else []) ++
    netParams.flatMap fun d => (optVariables method).map fun v => (d.1 ++ v.1, ⟨d.2.shape, d.2.data.map fun _ => v.2⟩)

/-- The constructor of an optimizer: its `Parameters` object. -/
def createOptimizer (method : OptMethod) (netParams : List (Str × Arr S)) : Except Err (Params S) :=
  addAllParams (optimizerParams method netParams) .empty

/-- shufflingbatchiterator.py:136-157 `get_state`.  The length of the dataset cannot change. -/
def saveIterator (order : List Nat) (nextLine : Nat) (group : Option IteratorGroup) : Except Err IteratorGroup :=
  match (group.getD ⟨none, none⟩).order with
  | some old => if old.length = order.length then .ok ⟨some order, some nextLine⟩ else .error .typeError    -- 152-153
  | none => .ok ⟨some order, some nextLine⟩                                                             -- 155

/-- trainer.py:256-283 `get_state`; basicoptimizer.py:136-149 `get_state`.  The cost history is resized if it exists (271-277), so that
any old value is replaced. -/
def saveTraining (t : TrainObjects S) (f : StateFile S) : Except Err (StateFile S) :=
  let trainer : TrainerGroup S := ⟨some t.epoch, some t.update, some t.costs⟩                 -- 268-277
  match saveNetwork t.arch t.layers ⟨f.data, f.arch⟩ with                                     -- 280
  | .error e => .error e
  | .ok net =>
    match saveIterator t.iter.src.order t.iter.src.nextLine f.iterator with                   -- 281
    | .error e => .error e
    | .ok iterator =>
      match saveParams t.optParams.vars net.params with                                       -- 283
      | .error e => .error e
      | .ok data => .ok ⟨data, net.arch, some trainer, some iterator, some (some t.learningRate), f.vocab⟩

/-- shufflingbatchiterator.py:159-189 `set_state`. -/
def restoreIterator (group : Option IteratorGroup) (st : IterSt ShufSt) : Except Err (IterSt ShufSt) :=
  match group with
  | none => .error .incompatibleState                                                         -- 171-172
  | some g =>
    match g.order with
    | none => .error .incompatibleState                                                       -- 175-177
    | some order =>
      if order = [] then .error .incompatibleState                                            -- 179-181
      else
        match g.nextLine with
        | none => .error .incompatibleState                                                   -- 183-185
        | some n => .ok { st with src := { st.src with order := order, nextLine := n } }      -- 178, 186

/-- basicoptimizer.py:151-170 `set_state`.  The group exists also if there is a dataset in it. -/
def restoreOptimizer (f : StateFile S) (params : Params S) : Except Err (Params S × S) :=
  match f.optimizer with
  | none => .error .incompatibleState                                                         -- 161-162, 165-167
  | some none => .error .incompatibleState                                                    -- 165-167
  | some (some lr) =>
    match params.restore f.data with                                                          -- 170
    | .error e => .error e
    | .ok p => .ok (p, lr)

/-- trainer.py:285-337 `_reset_state`; network.py:379-397 `set_state`. -/
def resetTraining (t : TrainObjects S) (f : StateFile S) : Except Err (TrainObjects S) :=
  match restoreLayers f.data t.layers with                                                    -- 301
  | .error e => .error e
  | .ok layers =>
    match t.arch.checkState f.arch with                                                       -- 301
    | .error e => .error e
    | .ok () =>
      match f.trainer with
      | none => .error .incompatibleState                                                     -- 303-304
      | some g =>
        match g.epoch with
        | none => .error .incompatibleState                                                   -- 307-309
        | some epoch =>
          match g.update with
          | none => .error .incompatibleState                                                 -- 312-314
          | some update =>
            let costs := g.costs.getD []                                                      -- 322-323, 333
            let candidateIndex := if costs.length = 0 then none else some (costs.length - 1)  -- 324-328, 334
            match restoreIterator f.iterator t.iter with                                      -- 336
            | .error e => .error e
            | .ok iter =>
              match restoreOptimizer f t.optParams with                                       -- 337
              | .error e => .error e
              | .ok (optParams, lr) => .ok ⟨t.arch, layers, optParams, lr, iter, epoch, update, costs, candidateIndex⟩

/-- trainer.py:541-544: the cost history in the state that was saved before the validation is replaced. -/
def replaceCosts (costs : List S) (f : StateFile S) : StateFile S :=
  { f with trainer := f.trainer.map fun g => { g with costs := some costs } }

/-- The first part of a path. -/
def topName (path : Str) : Str := path.takeWhile (· != '/')

/-- `for name in state`: the objects in the root group. -/
def StateFile.names (f : StateFile S) : List Str :=
  f.data.map (fun d => topName d.1) ++
  (if f.arch.isSome then ["architecture".toList] else []) ++ (if f.trainer.isSome then ["trainer".toList] else []) ++
  (if f.iterator.isSome then ["iterator".toList] else []) ++ (if f.optimizer.isSome then ["optimizer".toList] else []) ++
  (if f.vocab.isSome then ["vocabulary".toList] else [])

/-- trainer.py:454-460: copies the objects in the root group of `state`, replacing those that have the same name.  (There are no
attributes in the root groups.) -/
def copyState (state f : StateFile S) : StateFile S where
  data := f.data.filter (fun d => !state.names.contains (topName d.1)) ++ state.data
  arch := if "architecture".toList ∈ state.names then state.arch else f.arch
  trainer := if "trainer".toList ∈ state.names then state.trainer else f.trainer
  iterator := if "iterator".toList ∈ state.names then state.iterator else f.iterator
  optimizer := if "optimizer".toList ∈ state.names then state.optimizer else f.optimizer
  vocab := if "vocabulary".toList ∈ state.names then state.vocab else f.vocab

end

end TheanoLM
