import Verif.Props.NetworkSpec
/-!
# Specification for C109: bounds of the outputs of a network
-/
namespace TheanoLM

/-- The layer is not an LSTM layer with another activation function than tanh. -/
def Layer.Saturating {S : Type} : Layer S → Prop
  | .recurrent .lstm b => b.activation = .tanh
  | .bidirectional .lstm forward backward => forward.activation = .tanh ∧ backward.activation = .tanh
  | _ => True

/-- All elements are between `-B` and `B`. -/
def WithinAbs (B : ℝ) (x : List ℝ) : Prop := ∀ v ∈ x, |v| ≤ B

end TheanoLM
