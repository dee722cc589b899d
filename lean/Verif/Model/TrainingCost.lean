import Verif.Model.Cost
import Verif.Model.LanguageModel
/-!
# The cost that is minimised in training with the cross-entropy cost function, and the scorer of validation

theanolm/training/basicoptimizer.py, theanolm/training/cost.py and theanolm/commands/train.py put together with the network.
-/
namespace TheanoLM

section
variable {S : Type} [Field S] [LinearOrder S]

/-- basicoptimizer.py:119-134, 166-200: the cost and the number of words that `update_function` gives when `update_minibatch` is called
with a mini-batch, with the cost function `CrossEntropyCost` (cost.py:100-130).  `opts` is the mode in which the network is evaluated;
`is_training` is one (basicoptimizer.py:128).  The first time step of the mask is dropped (basicoptimizer.py:196).  The gradients are
not modelled. -/
def updateCost (act : Act S) (log : S → Flt S) (opts : EvalOptions) (layers : List (Layer S)) (output : Nat) (exclude : Option Nat)
    (l1Weight l2Weight : Option S) (params : List (List S)) (wordIds classIds mask : List (List Nat)) : Flt S × Nat :=
  let mask := mask.tail
  let logprobs := classIds.tail.zipIdx.map fun row => row.1.zipIdx.map fun x =>
    targetLogprob act opts layers output log wordIds.dropLast classIds.dropLast classIds.tail mask row.2 x.2
  costTensor exclude l1Weight l2Weight params (mask.map (List.map fun m => m != 0)) wordIds.tail logprobs

/-- train.py:454-456: the scorer that is used in validation.  The network has been created without the option to exclude `<unk>`
(train.py:414-416), but the option is given to the scorer. -/
def validationScorer (act : Act S) (log : S → Flt S) (cast : ℚ → S) (v : Vocab) (unkId : Nat) (layers : List (Layer S)) (output : Nat)
    (excludeUnk : Bool) : Scorer S :=
  { networkScorer act log cast v unkId layers output true false with excludeUnk := excludeUnk }

/-- train.py:422-423: the word that is excluded from the cost. -/
def excludedWord (unkId : Nat) (excludeUnk : Bool) : Option Nat := if excludeUnk then some unkId else none

end

end TheanoLM
