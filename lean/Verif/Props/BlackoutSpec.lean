import Verif.Model.Cost
import Verif.Props.Interpolation
import Mathlib.Algebra.BigOperators.Fin
/-!
# Specification for C132: what BlackOut estimates

The words that can follow one context are considered: they are predicted from the same input of the output layer.
-/
namespace TheanoLM

/-- `e` is the expected cost of a word, when the class of the word has the distribution `p`, `k` noise classes are sampled independently
from the distribution `q`, and the network gives the unnormalized log probabilities `s` to the classes. -/
def ExpectedBlackoutCost (u : ℝ → Bool) (epsilon : ℝ) (n k : Nat) (p q s : Fin n → ℝ) (e : ℝ) : Prop :=
  ∃ J : Fin n → (Fin k → Fin n) → ℝ,
    (∀ c x, blackoutLogprob (realFun u) epsilon ⟨q c, s c⟩ (List.ofFn fun i => ⟨q (x i), s (x i)⟩) = .fin (J c x)) ∧
    e = ∑ c, p c * ∑ x : Fin k → Fin n, (∏ i, q (x i)) * -J c x

/-- No other unnormalized log probabilities have a smaller expected cost. -/
def MinimizesBlackout (u : ℝ → Bool) (epsilon : ℝ) (n k : Nat) (p q s : Fin n → ℝ) : Prop :=
  ∃ e, ExpectedBlackoutCost u epsilon n k p q s e ∧ ∀ s' e', ExpectedBlackoutCost u epsilon n k p q s' e' → e ≤ e'

/-- The outputs of the softmax layer with the given activations. -/
noncomputable def softmaxOf {n : Nat} (s : Fin n → ℝ) (c : Fin n) : ℝ := Real.exp (s c) / ∑ d, Real.exp (s d)

end TheanoLM
