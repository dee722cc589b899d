import Verif.Model.Basic
/-!
# Model of the scheduling of periodic events

theanolm/training/trainer.py `Trainer._is_scheduled` and wordclasses/functions.py `is_scheduled`.
-/
namespace TheanoLM

/-- trainer.py:564-591 `_is_scheduled`, with the update number and the number of updates per epoch as arguments.  The command
line option is an integer; negative frequencies are not modelled. -/
def isScheduled (updateNumber updatesPerEpoch frequency within : Nat) : Bool :=
  let modulo := updateNumber * frequency % updatesPerEpoch                 -- 589
  decide (modulo < frequency) || decide (updatesPerEpoch - modulo ≤ within * frequency)   -- 590-591

/-- wordclasses/functions.py:21-45 `is_scheduled`. -/
def wcIsScheduled (numWords frequency wordsPerIteration : Nat) : Bool :=
  decide (numWords * frequency % wordsPerIteration < frequency)            -- 44-45

end TheanoLM
