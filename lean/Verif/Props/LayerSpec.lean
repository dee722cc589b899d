import Verif.Props.NetworkSpec
/-!
# Specification of the layers: the equations of single units

The parameters of a layer are given as undivided matrices: `W` is the list of the weight vectors of the units, `bias` the list of their
biases.  A layer with several gates has the units of the first gate first, then those of the second, and so on.
-/
namespace TheanoLM

section
variable {S : Type} [Add S] [Mul S] [Sub S] [Div S] [Zero S] [One S]

/-- The layer has the weights `W` and the biases `bias`, divided to its devices. -/
def HasAffine (b : Basic S) (name : Str) (W : List (List S)) (bias : List S) : Prop :=
  ∃ parts : List (List (List S) × List S),
    List.Forall₂ (fun device part => getParam (name ++ "/W".toList) device b.weights = .ok part.1 ∧
      getParam (name ++ "/b".toList) device b.biases = .ok part.2 ∧ part.1.length = part.2.length) b.devices parts ∧
    W = parts.flatMap Prod.fst ∧ bias = parts.flatMap Prod.snd ∧ b.devices ≠ []

/-- The layer has the weights `W`, divided to its devices. -/
def HasWeights (b : Basic S) (name : Str) (W : List (List S)) : Prop :=
  ∃ parts : List (List (List S)), List.Forall₂ (fun device part => getParam (name ++ "/W".toList) device b.weights = .ok part)
    b.devices parts ∧ W = parts.flatten ∧ b.devices ≠ []

/-- The outputs of the input layers are the vectors `xs`. -/
def InputVectors (ins : List (Option (Elem S))) (xs : List (List S)) : Prop := ins = xs.map fun x => some (.vec x)

/-- The outputs of the layers `inputs` in a position are the vectors `xs`. -/
def LayerInputs (e : Entry S) (inputs : List Nat) (xs : List (List S)) : Prop :=
  List.Forall₂ (fun i x => e.outs[i]? = some (.vec x)) inputs xs

/-- The inner product of the input and the weights of unit `j`. -/
def unitDot (W : List (List S)) (x : List S) (j : Nat) : S := (List.zipWith (· * ·) x (W.getD j [])).sum

/-- The weighted input of unit `j` and its bias. -/
def unitPreact (W : List (List S)) (bias : List S) (x : List S) (j : Nat) : S := unitDot W x j + bias.getD j 0

/-- The vector of `n` units with the given values. -/
def Units (n : Nat) (x : List S) (f : Nat → S) : Prop := x.length = n ∧ ∀ k < n, x[k]? = some (f k)

/-- The activation function with the given name. -/
def activationFun (act : Act S) (a : Activation) : S → S :=
  if a = .tanh then act.tanh else if a = .relu then act.relu else act.leakyRelu

/-- The transition of a Long Short-Term Memory layer of `n` units from cell state `c` and hidden state `h` to `c'` and `h'`; `z` is the
weighted layer input.  The units are: input gate, forget gate, output gate, candidate state. -/
def LstmTransition (act : Act S) (f : S → S) (n : Nat) (U : List (List S)) (z : Nat → S) (c h c' h' : List S) : Prop :=
  Units n c' (fun k => act.sigmoid (unitDot U h (n + k) + z (n + k)) * c.getD k 0 +
    act.sigmoid (unitDot U h k + z k) * act.tanh (unitDot U h (3 * n + k) + z (3 * n + k))) ∧
  Units n h' (fun k => act.sigmoid (unitDot U h (2 * n + k) + z (2 * n + k)) * f (c'.getD k 0))

/-- The transition of a Gated Recurrent Unit layer.  The units are: reset gate, update gate, candidate state. -/
def GruTransition (act : Act S) (n : Nat) (U : List (List S)) (z : Nat → S) (h h' : List S) : Prop :=
  Units n h' (fun k =>
    let r := act.sigmoid (unitDot U h k + z k)
    let u := act.sigmoid (unitDot U h (n + k) + z (n + k))
    (1 - u) * h.getD k 0 + u * act.tanh (unitDot U h (2 * n + k) * r + z (2 * n + k)))

/-- The transition of a recurrent layer; a GRU layer has no cell state. -/
def CellTransition (act : Act S) (kind : CellKind) (b : Basic S) (U : List (List S)) (z : Nat → S) (st st' : SeqState S) : Prop :=
  match kind with
  | .lstm => LstmTransition act (activationFun act b.activation) b.size U z st.c st.h st'.c st'.h
  | .gru => GruTransition act b.size U z st.h st'.h ∧ st'.c = []

/-- The number of gates and candidate states. -/
def CellKind.parts : CellKind → Nat
  | .lstm => 4
  | .gru => 3

/-- Zero cell and hidden state. -/
def ZeroState (kind : CellKind) (n : Nat) (st : SeqState S) : Prop :=
  st.h = List.replicate n 0 ∧ st.c = match kind with
    | .lstm => List.replicate n 0
    | .gru => []

/-- The parameters of a recurrent layer: weights `W` and biases of its input, and weights `U` of its previous state. -/
structure RecurrentParams (kind : CellKind) (b : Basic S) (W : List (List S)) (bias : List S) (U : List (List S)) : Prop where
  input : HasAffine b "layer_input".toList W bias
  step : getParam "step_input/W".toList none b.weights = .ok U
  inputUnits : W.length = kind.parts * b.size
  biasUnits : bias.length = kind.parts * b.size
  stepUnits : U.length = kind.parts * b.size

/-- The matrix `W` divided to the devices, without a name. -/
def HasProjection (b : Basic S) (W : List (List S)) : Prop :=
  ∃ parts : List (List (List S)), List.Forall₂ (fun device part => getParam "W".toList device b.weights = .ok part) b.devices parts ∧
    W = parts.flatten

/-- The convolution filters `F` divided to the devices; the bias is not divided. -/
def HasFilters (b : Basic S) (filters : ParamDict (List (List S))) (F : List (List (List S))) (bias : List S) : Prop :=
  ∃ parts : List (List (List (List S))),
    List.Forall₂ (fun device part => getParam "input/W".toList device filters = .ok part) b.devices parts ∧ F = parts.flatten ∧
    b.devices ≠ [] ∧ getParam "input/b".toList none b.biases = .ok bias

/-- `f 0 + f 1 + … + f m`. -/
def leftSum (f : Nat → S) : Nat → S
  | 0 => f 0
  | m + 1 => leftSum f m + f (m + 1)

/-- The sum of the inner products of the vectors of a region and the vectors of filter `j`. -/
def unitConv (F : List (List (List S))) (bias : List S) (region : List (List S)) (j : Nat) : S :=
  (List.zipWith (fun x w => (List.zipWith (· * ·) x w).sum) region (F.getD j [])).sum + bias.getD j 0

/-- The sum over the units. -/
def unitSum (n : Nat) (f : Nat → S) : S := ((List.range n).map f).sum

end

end TheanoLM
