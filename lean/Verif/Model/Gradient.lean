import Verif.Model.NetworkState
/-!
# Model of the connection check when the optimizer of `train` is created

theanolm/commands/train.py:436-449, theanolm/training/basicoptimizer.py:94-99, theanolm/training/cost.py:80-97.

`theano.tensor.grad` walks the expression of the cost from its end to the beginning, and raises `DisconnectedInputError` for the first
variable that it was asked for and did not meet.  It belongs to Theano; what is modelled is the walk over the layers.  Every parameter of
a layer is met when the layer is met: the expression of the output of a layer contains all its parameters.  The other reasons why the
creation of an optimizer may fail are not modelled here.
-/
namespace TheanoLM

section
variable {S : Type} [Add S] [Mul S] [Sub S] [Div S] [Zero S] [One S] [Min S]

/-- The positions of the inputs of layer number `i`. -/
def layerInputsAt (layers : List (Created S)) (i : Nat) : List Nat := (layers[i]?.map fun c => c.layer.inputs).getD []

/-- The walk over the layers, from number `i` down to zero.  The input layers of a layer have been created before it
(network.py:531-538), so one pass meets everything. -/
def meetLayers (layers : List (Created S)) : Nat → List Nat → List Nat
  | 0, met => met
  | i + 1, met => meetLayers layers i (if i ∈ met then layerInputsAt layers i ++ met else met)

/-- cost.py:80-97: the layers that the cost is computed from.  The log probabilities are those of the output layer, and either of the
regularization terms is computed from the parameters of every layer. -/
def costLayers (net : CreatedNetwork S) (l1 l2 : Option S) : List Nat :=
  if l1.isSome || l2.isSome then List.range net.layers.length                           -- 88-95
  else meetLayers net.layers net.layers.length [net.output]                             -- 84-86

/-- network.py:399-415 `get_variables`, with the numbers of the layers. -/
def networkVariables (net : CreatedNetwork S) : List (Nat × Str) :=
  net.layers.zipIdx.flatMap fun e => (e.1.layer.params e.1.name).map fun p => (e.2, p.1)

/-- basicoptimizer.py:98-99: the error names the first variable that the cost does not depend on. -/
def gradientOf (net : CreatedNetwork S) (l1 l2 : Option S) : Except Str Unit :=
  match (networkVariables net).find? fun v => decide (v.1 ∉ costLayers net l1 l2) with
  | none => .ok ()
  | some v => .error v.2

/-- What the command does until the optimizer is used for the first time. -/
structure OptimizerBuild where
  /-- the parameter that is named in the message that some of the parameters are disconnected from the output -/
  printed : Option Str
  outcome : Except Err Unit

/-- train.py:436-449.  After the message has been printed the command goes on.  The variable `optimizer` has not been assigned, so the
next statement that uses it (446 or 449) raises `UnboundLocalError`, which is a `NameError`. -/
def buildOptimizer (net : CreatedNetwork S) (l1 l2 : Option S) : OptimizerBuild :=
  match gradientOf net l1 l2 with
  | .ok _ => ⟨none, .ok ()⟩                                                             -- 437-438
  | .error param => ⟨some param, .error .nameError⟩                                     -- 439-449

end

end TheanoLM
