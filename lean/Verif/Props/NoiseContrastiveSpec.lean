import Verif.Model.Cost
import Verif.Props.Interpolation
/-!
# Specification for C117: what noise-contrastive estimation estimates

The words that can follow one context are considered: they are predicted from the same input of the output layer.
-/
namespace TheanoLM

/-- The possible noise samples in one position, with their probabilities: `k` classes that are less than `n`. -/
structure NoiseDraw (n k : Nat) (outcomes : List (ℝ × List Nat)) : Prop where
  nonneg : ∀ o ∈ outcomes, 0 ≤ o.1
  total : (outcomes.map Prod.fst).sum = 1
  length : ∀ o ∈ outcomes, o.2.length = k
  classes : ∀ o ∈ outcomes, ∀ c ∈ o.2, c < n

/-- The expected number of occurrences of a class in a noise sample. -/
noncomputable def expectedCount (outcomes : List (ℝ × List Nat)) (c : Nat) : ℝ := (outcomes.map fun o => o.1 * (o.2.count c : ℝ)).sum

/-- `e` is the expected cost of a word, when the class of the word has the distribution `p`, the probabilities of the classes are `q` in
the noise distribution, and the network gives the unnormalized log probabilities `s` to the classes. -/
def ExpectedNceCost (u : ℝ → Bool) (epsilon : ℝ) (n : Nat) (p q : Nat → ℝ) (outcomes : List (ℝ × List Nat)) (s : Nat → ℝ) (e : ℝ) : Prop :=
  ∃ L : Nat → List Nat → ℝ,
    (∀ c < n, ∀ o ∈ outcomes, nceLogprob (realFun u) epsilon ⟨q c, s c⟩ (o.2.map fun d => ⟨q d, s d⟩) = .fin (L c o.2)) ∧
    e = ∑ c ∈ Finset.range n, p c * (outcomes.map fun o => o.1 * -L c o.2).sum

/-- No other unnormalized log probabilities have a smaller expected cost. -/
def MinimizesNce (u : ℝ → Bool) (epsilon : ℝ) (n : Nat) (p q : Nat → ℝ) (outcomes : List (ℝ × List Nat)) (s : Nat → ℝ) : Prop :=
  ∃ e, ExpectedNceCost u epsilon n p q outcomes s e ∧ ∀ s' e', ExpectedNceCost u epsilon n p q outcomes s' e' → e ≤ e'

/-- The output of the softmax layer with the given activations. -/
noncomputable def predicted (n : Nat) (s : Nat → ℝ) (c : Nat) : ℝ := Real.exp (s c) / ∑ d ∈ Finset.range n, Real.exp (s d)

end TheanoLM
