import Verif.Model.Optimizer
import Mathlib.Algebra.BigOperators.Group.Finset.Basic
/-!
# Specification of the optimizers

The equations of the optimization methods are written for the individual elements of the parameters: `theta n p i` is element
`i` of the parameter with path `p` after `n` updates, and `g n p i` is the corresponding element of the gradient that was computed
at `theta n`.
-/
namespace TheanoLM

section
variable {S : Type} [Field S] [LinearOrder S]

/-- What is observed of a training run: elements of the parameters, of the gradients, and of the state variables (which are
saved to the model file with the name of the parameter followed by a suffix). -/
def paramAt (run : Nat → OptState S) (n : Nat) (p : Str) (i : Nat) : S := ((run n).vars (.net p)).getD i 0
def auxAt (suffix : Str) (run : Nat → OptState S) (n : Nat) (p : Str) (i : Nat) : S :=
  ((run n).vars (.opt (p ++ suffix))).getD i 0
def gradAt (grad : Nat → (Str → List S) → Str → List S) (run : Nat → OptState S) (n : Nat) (p : Str) (i : Nat) : S :=
  (grad n (fun q => (run n).vars (.net q)) p).getD i 0

/-- The Euclidean norm of a collection of tensors: tensor `x p` has `len p` elements. -/
def totalNorm (sqrt : S → S) (paths : List Str) (len : Str → Nat) (x : Str → Nat → S) : S :=
  sqrt ((paths.map fun p => ∑ i ∈ Finset.range (len p), x p i ^ 2).sum)

/-- `d` is obtained from `raw` by limiting the norm to `maxNorm`. -/
def Limited (sqrt : S → S) (epsilon : S) (maxNorm : Option S) (paths : List Str) (len : Str → Nat)
    (raw d : Str → Nat → S) : Prop :=
  ∀ p ∈ paths, ∀ i < len p, d p i = match maxNorm with
    | none => raw p i
    | some m => raw p i *
        (min (max (totalNorm sqrt paths len raw) 0) m / (epsilon + totalNorm sqrt paths len raw))

/-- The exponentially decaying mean of a sequence `x`, starting from `x0`. -/
def decayingMean (gamma x0 : S) (x : Nat → S) (n : Nat) : S :=
  gamma ^ n * x0 + (1 - gamma) * ∑ k ∈ Finset.range n, gamma ^ (n - 1 - k) * x k

end

/-- `sqrt` is the square root. -/
def IsSqrt {S : Type} [Field S] [LinearOrder S] (sqrt : S → S) : Prop := ∀ x, 0 ≤ x → 0 ≤ sqrt x ∧ sqrt x ^ 2 = x

/-- The gradient of the cost has the same shape as the parameters. -/
def GradShape {S : Type} (paths : List Str) (grad : Nat → (Str → List S) → Str → List S) : Prop :=
  ∀ n theta p, p ∈ paths → (grad n theta p).length = (theta p).length

end TheanoLM
