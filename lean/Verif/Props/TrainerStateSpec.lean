import Verif.Model.TrainerState
import Verif.Props.NetworkStateSpec
import Verif.Lemmas.TrainerState
/-!
# Specification: the training state in a model file (C106)
-/
set_option linter.unusedSectionVars false
namespace TheanoLM

section
variable {S : Type} [Field S] [LinearOrder S]

/-- A network that has been created from a description, and an optimizer that has been created for it.  The names of layers and
devices do not contain a slash, and no part of the name of a network parameter ends like the name of a variable of the optimizer
(for example a device `dev0_velocity`). -/
structure TrainSetup (env : CreateEnv S) (a : Architecture) (net : CreatedNetwork S) (method : OptMethod) (opt : Params S) : Prop where
  valid : a.Valid
  network : createNetwork env a = .ok net
  noSlash : NoSlash net.layers
  plain : ∀ d ∈ networkParams net.layers, ∀ v ∈ (optVariables method : List (Str × S)), PlainPath v.1 d.1
  optimizer : createOptimizer method (networkParams net.layers) = .ok opt

/-- The state at some time during training: the values of the parameters of the network and the optimizer may have changed, but not
their names and shapes.  The training data is not empty. -/
structure TrainingOf (env : CreateEnv S) (a : Architecture) (net : CreatedNetwork S) (opt : Params S) (t : TrainObjects S) : Prop where
  arch : t.arch = createdArchitecture env a
  layers : SameNetwork net.layers t.layers
  params : List.Forall₂ (fun d d' => d.1 = d'.1 ∧ d.2.shape = d'.2.shape) opt.vars t.optParams.vars
  size : opt.totalSize = t.optParams.totalSize
  order : t.iter.src.order ≠ []

/-- The content of a model file, and the state that was saved last, after a vocabulary has been written to a new file and the state
has been saved any number of times: either directly, or to another new file, from which it is copied after the cost history has been
replaced. -/
inductive ModelSaved (env : CreateEnv S) (a : Architecture) (net : CreatedNetwork S) (opt : Params S) (vocab : Option VocabState) :
    StateFile S → Option (TrainObjects S) → Prop
  | new : ModelSaved env a net opt vocab { StateFile.new with vocab := vocab } none
  | saved {f f' : StateFile S} {o t} : ModelSaved env a net opt vocab f o → TrainingOf env a net opt t → saveTraining t f = .ok f' →
      ModelSaved env a net opt vocab f' (some t)
  | validated {f state : StateFile S} {o t costs} : ModelSaved env a net opt vocab f o → TrainingOf env a net opt t →
      saveTraining t .new = .ok state → ModelSaved env a net opt vocab (copyState (replaceCosts costs state) f) (some { t with costs := costs })

end

end TheanoLM
