import Verif.Model.Cost
/-!
# Model: sampling noise classes from a multinomial distribution without replacement
-/
namespace TheanoLM

section
variable {S : Type} [Field S]

/-- classdistribution.py:178-208 `MultinomialDistribution.sample` for one element of the mini-batch: the possible samples of `k` classes
and their probabilities.  `choice` with `replace=False` is a function of Theano: after a class has been drawn, the next one is drawn
from the other classes, whose probabilities are divided by their sum. -/
def distinctOutcomes (probs : List S) : Nat → List (S × List Nat)
  | 0 => [(1, [])]
  | k + 1 => (distinctOutcomes probs k).flatMap fun o =>
      ((List.range probs.length).filter fun c => !o.2.contains c).map fun c =>
        (o.1 * (probs.getD c 0 / (1 - (o.2.map fun d => probs.getD d 0).sum)), o.2 ++ [c])

end

end TheanoLM
