import Verif.Props.LanguageModelSpec
import Verif.Model.Vocabulary
/-!
# Specifications for networks that have not been trained
-/
namespace TheanoLM

/-- The number that is added to the class probabilities before taking their logarithms (softmaxlayer.py:32). -/
noncomputable def priorEpsilon : ℝ := 1 / 10 ^ 10

/-- The network is created by the train command: the class probabilities of the vocabulary are given to the constructor
(trainer.py:67, train.py:414, softmaxlayer.py:32). -/
def KnowsPrior (env : CreateEnv ℝ) (v : Vocab) (prior : List ℚ) : Prop :=
  v.classProbs = some prior ∧ env.priorBias = some (prior.map fun p : ℚ => Real.log ((p : ℝ) + priorEpsilon))

/-- The probability of class `j` in the distribution that is proportional to the class probabilities, each increased by
`priorEpsilon`. -/
noncomputable def smoothedPrior (prior : List ℚ) (j : Nat) : ℝ :=
  (((prior.getD j 0 : ℚ) : ℝ) + priorEpsilon) / (prior.map fun p : ℚ => (p : ℝ) + priorEpsilon).sum

end TheanoLM
