import Verif.Model.Network
/-!
# Model of the output layers (theanolm/network/softmaxlayer.py, hsoftmaxlayer.py): level sizes and target probabilities
-/
namespace TheanoLM

/-- `int(ceil(sqrt(n)))`.  The square root of a floating point number is correctly rounded, so the result is exact for numbers below
2⁵²; larger ones are not modelled. -/
def ceilSqrt (n : Nat) : Nat := if n.sqrt * n.sqrt = n then n.sqrt else n.sqrt + 1

/-- `int(ceil(a / b))`, for numbers below 2⁵². -/
def ceilDiv (a b : Nat) : Nat := (a + b - 1) / b

/-- hsoftmaxlayer.py:27-40 `__init__`: the sizes of the two levels.  A subtraction from zero gives a negative number in Python: then
the comparison is with a negative product, as in the model by moving the subtracted term to the other side. -/
def hsoftmaxLevels (numDevices outputSize : Nat) : Except Err (Nat × Nat) :=
  if numDevices > 1 then .error .valueError                                                   -- 27-29
  else
    let level1 := ceilSqrt outputSize                                                         -- 33
    if level1 = 0 then .error .zeroDivision                                                   -- 34
    else
      let level2 := ceilDiv outputSize level1
      if level1 * level2 < outputSize then .error .assertion                                  -- 35
      else if level1 * level2 ≥ outputSize + level2 then .error .assertion                    -- 36
      else if level1 * level2 ≥ outputSize + level1 then .error .assertion                    -- 37
      else if level1 ≠ level2 ∧ level1 ≠ level2 + 1 then .error .assertion                    -- 38
      else .ok (level1, level2)

section
variable {S : Type} [Add S] [Mul S] [Sub S] [Div S] [Zero S] [One S]

/-- `reshape([rows, columns])` of a vector. -/
def reshape2 {α : Type} (columns : Nat) : Nat → List α → List (List α)
  | 0, _ => []
  | rows + 1, x => x.take columns :: reshape2 columns rows (x.drop columns)

/-- softmaxlayer.py:86-93 `target_probs`: an element is selected from each row of the probabilities of all positions (the first two
dimensions combined), and the result is reshaped to time steps and sequences.  `IndexError` if a target class ID is out of range or
the numbers of elements differ. -/
def softmaxTargets (numTimeSteps numSequences : Nat) (probs : List (List (List S))) (targets : List (List Nat)) :
    Except Err (List (List S)) :=
  if targets.flatten.length ≠ numTimeSteps * numSequences then .error .indexError
  else
    match mapE (fun p => indexE p.1 p.2) (probs.flatten.zip targets.flatten) with
    | .error e => .error e
    | .ok elements => .ok (reshape2 numSequences numTimeSteps elements)

/-- Theano's `h_softmax(…, target)`: the probability of one output, `target // n_outputs_per_class` being its branch on the first
level and `target % n_outputs_per_class` its number in the branch. -/
def hierarchicalTarget (level2Size : Nat) (classProbs : List S) (outputProbs : List (List S)) (target : Nat) : Except Err S :=
  match indexE classProbs (target / level2Size) with
  | .error e => .error e
  | .ok p =>
    match outputProbs[target / level2Size]? with
    | none => .error .indexError
    | some row =>
      match indexE row (target % level2Size) with
      | .error e => .error e
      | .ok q => .ok (p * q)

/-- hsoftmaxlayer.py:101-116 `target_probs`. -/
def hsoftmaxTarget (act : Act S) (b : Basic S) (level2Size : Nat) (level1Weights : List (List (List S))) (level1Biases : List (List S))
    (ins : List (Option (Elem S))) (target : Nat) : Except Err S :=
  match concatInputs ins with
  | .error e => .error e
  | .ok x =>
    match getParam "input/W".toList none b.weights with
    | .error e => .error e
    | .ok weight =>
      match getParam "input/b".toList none b.biases with
      | .error e => .error e
      | .ok bias =>
        hierarchicalTarget level2Size (level1Probs act weight bias x) (level2Probs act level1Weights level1Biases x) target

end

end TheanoLM
