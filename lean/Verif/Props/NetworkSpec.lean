import Verif.Model.Network
import Mathlib.Analysis.SpecialFunctions.Exp
/-!
# Specifications for the network properties

They refer to mini-batches and layers, but not to how the outputs are computed.
-/
namespace TheanoLM

/-- The element of sequence `s` at time step `t`. -/
def posAt {α : Type} (table : List (List α)) (t s : Nat) : Option α := (table[t]?).bind fun row => row[s]?

/-- Every time step of a mini-batch has the same number of sequences. -/
def Rect {α : Type} (n : Nat) (table : List (List α)) : Prop := ∀ row ∈ table, row.length = n

/-- Sequence `s` of the mini-batch begins with `ws`. -/
def SequenceAt (batch : List (List InputCell)) (s : Nat) (ws : List InputCell) : Prop :=
  ∀ t, t < ws.length → posAt batch t s = ws[t]?

section
variable {S : Type}

/-- A layer that reads the mini-batch forward only. -/
def Layer.Forward (layer : Layer S) : Prop := ∀ kind f b, layer ≠ .bidirectional kind f b

/-- What the output of a layer at a time step depends on: `here` the input of that time step only, `past` the inputs up to that
time step, `around` the inputs up to that time step and from the second next time step on. -/
inductive Sees where
  | here | past | around
  deriving DecidableEq

/-- The union of what two layers depend on. -/
def Sees.join : Sees → Sees → Sees
  | .here, x => x
  | .past, .here => .past
  | .past, x => x
  | .around, _ => .around

/-- What the output of a layer depends on, given what its inputs depend on.  A recurrent or a convolution layer reads the
outputs of its input layers at all earlier time steps, so those must not depend on the time steps after them; the backward part of
a bidirectional layer reads them from the second next time step on, so those must not depend on the time step before them.
Otherwise the output may depend on the next time step: `none`. -/
def Layer.sees (layer : Layer S) (input : Sees) : Option Sees :=
  match layer, input with
  | .recurrent _ _, .around => none
  | .recurrent _ _, _ => some .past
  | .glu _ _ _ _, .around => none
  | .glu _ _ _ _, _ => some .past
  | .bidirectional _ _ _, .here => some .around
  | .bidirectional _ _ _, _ => none
  | _, input => some input

/-- What the outputs of the layers depend on, `seen` being the list for the layers so far. -/
def networkSees : List (Layer S) → List Sees → Option (List Sees)
  | [], seen => some seen
  | layer :: layers, seen =>
    match layer.sees ((layer.inputs.map fun k => seen[k]?.getD .here).foldr Sees.join .here) with
    | none => none
    | some x => networkSees layers (seen ++ [x])

end

/-- The elementary functions on real numbers. -/
noncomputable def realAct : Act ℝ where
  tanh x := (Real.exp x - Real.exp (-x)) / (Real.exp x + Real.exp (-x))
  sigmoid x := 1 / (1 + Real.exp (-x))
  relu x := max 0 x
  leakyRelu x := max (3 / 10 * x) x
  exp := Real.exp

end TheanoLM
