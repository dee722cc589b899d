import Verif.Props.NetworkCreateSpec
import Mathlib.Data.Real.Basic
/-!
# Specification: orthogonal initial weights (C134)
-/
namespace TheanoLM

/-- What is assumed of the function `numpy.linalg.svd`: the columns of the first matrix that it returns are orthonormal. -/
def SvdOrthonormal (env : CreateEnv ℝ) : Prop :=
  ∀ (n : Nat) (A : Nat → Nat → ℝ) (j k : Nat), j < n → k < n →
    unitSum n (fun i => env.svd n A i j * env.svd n A i k) = if j = k then 1 else 0

/-- The weights `W` of `parts` times `n` units with `n` inputs, divided to parts of `n` units. -/
structure OrthogonalParts (n parts : Nat) (W : List (List ℝ)) : Prop where
  /-- the weighted inputs of the units of each part have the same norm as the input -/
  norm : ∀ part < parts, ∀ x : List ℝ, x.length = n →
    unitSum n (fun k => unitDot W x (part * n + k) ^ 2) = (x.map fun v => v ^ 2).sum
  /-- the weight vectors of the units of each part are orthonormal to one another -/
  units : ∀ part < parts, ∀ j < n, ∀ k < n,
    (List.zipWith (· * ·) (W.getD (part * n + j) []) (W.getD (part * n + k) [])).sum = if j = k then 1 else 0

/-- The weights of a recurrent layer of `n` units whose input has `m` features. -/
def OrthogonalCell (kind : CellKind) (b : Basic ℝ) (m n : Nat) : Prop :=
  (∃ U, getParam "step_input/W".toList none b.weights = .ok U ∧ OrthogonalParts n kind.parts U) ∧
    (m = n → ∃ W, HasWeights b "layer_input".toList W ∧ OrthogonalParts n kind.parts W)

/-- All the weights of the layer that are square matrices are orthogonal.  `ins` are the sizes of the inputs. -/
def OrthogonalWeights (ins : List Nat) (c : Created ℝ) : Prop :=
  match c.layer with
  | .projection b => ins.sum = c.size → ∃ W, HasProjection b W ∧ OrthogonalParts c.size 1 W
  | .fullyConnected b => ins.sum = c.size → ∃ W, HasWeights b "input".toList W ∧ OrthogonalParts c.size 1 W
  | .recurrent kind b => OrthogonalCell kind b ins.sum c.size
  | .bidirectional kind f b => ∃ m n, m + n = c.size ∧ OrthogonalCell kind f ins.sum m ∧ OrthogonalCell kind b ins.sum n
  | .highway b => ∃ W, HasWeights b "input".toList W ∧ OrthogonalParts c.size 2 W
  | .softmax b _ => ins.sum = c.size → ∃ W, HasWeights b "input".toList W ∧ OrthogonalParts c.size 1 W
  | .hsoftmax b l1 _ _ _ => ins.sum = l1 → ∃ W, HasWeights b "input".toList W ∧ OrthogonalParts l1 1 W
  | _ => True   -- no weights, only weights that are not square matrices, or convolution filters

end TheanoLM
