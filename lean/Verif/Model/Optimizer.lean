import Verif.Model.Basic
import Mathlib.Algebra.Order.Field.Basic
import Mathlib.Algebra.BigOperators.Group.List.Basic
/-!
# Model of the optimizers

theanolm/training/basicoptimizer.py and the optimization methods theanolm/training/*optimizer.py.

A tensor is the list of its elements; the shape is not modelled, as all the operations of the optimizers are elementwise or
sums over all the elements.  Numbers are elements of an ordered field `S`; rounding, infinities and nan are not modelled.  The
square root is a function `sqrt : S → S` given as an argument.  The gradient of the cost (`tensor.grad`, basicoptimizer.py:98-99)
is a function from the path of a network parameter to the tensor of partial derivatives, given as an argument.
-/
namespace TheanoLM

/-- A shared variable that is updated by the update function: a network parameter, or a parameter in `self._params` of the
optimizer, identified by the name that has been given to it. -/
inductive OptVar
  | net (path : Str)
  | opt (name : Str)
  deriving DecidableEq

/-- Values of the shared variables.  The time step counter of the Adam optimizer (`optimizer/timestep`, adamoptimizer.py:34)
is a natural number here; in the program it is a floating point number with integral values.  Variables that do not exist have
the value `[]`. -/
structure OptState (S : Type) where
  vars : OptVar → List S
  timestep : Nat

/-- The expressions returned by `_get_param_updates`: pairs of a variable and its new value, and the new value of the time step
counter, if it is among the updated variables. -/
structure OptUpdates (S : Type) where
  vars : List (OptVar × List S)
  timestep : Option Nat

/-- Effect of the `updates` argument of `theano.function`: all the new values are computed from the old values of the shared
variables, and a variable that is not in the list keeps its value. -/
def applyUpdates {S : Type} (st : OptState S) (ups : OptUpdates S) : OptState S where
  vars v := ((ups.vars.find? (·.1 = v)).map (·.2)).getD (st.vars v)
  timestep := ups.timestep.getD st.timestep

/-- Optimization methods (theanolm/training/__init__.py:12-47 `create_optimizer`). -/
inductive OptMethod
  | sgd | nesterov | adagrad | adadelta | adam | rmspropSgd | rmspropNesterov
  deriving DecidableEq

/-- Options of an optimizer.  `maxNorm` is `None` when the norm is not limited. -/
structure OptOptions (S : Type) where
  epsilon : S
  maxNorm : Option S
  gamma : S
  gammaSqr : S
  momentum : S

section
variable {S : Type} [Field S] [LinearOrder S]

def sfxVelocity : Str := "_velocity".toList
def sfxMeanSqrGradient : Str := "_mean_sqr_gradient".toList
def sfxMeanGradient : Str := "_mean_gradient".toList
def sfxMeanSqrDelta : Str := "_mean_sqr_delta".toList
def sfxSumSqrGradient : Str := "_sum_sqr_gradient".toList

/-- operations.py:149-161 `sum_of_squares`. -/
def sumOfSquares (tensors : List (List S)) : S :=
  (tensors.map fun x => (x.map (· ^ 2)).sum).sum

/-- `tensor.clip`. -/
def clip (x lo hi : S) : S := min (max x lo) hi

/-- basicoptimizer.py:217-237 `_normalize`.  `deltas` is a dictionary in insertion order. -/
def normalizeDeltas (sqrt : S → S) (o : OptOptions S) (deltas : List (Str × List S)) : List (Str × List S) :=
  match o.maxNorm with
  | none => deltas
  | some maxNorm =>
    let norm := sqrt (sumOfSquares (deltas.map (·.2)))
    let targetNorm := clip norm 0 maxNorm
    deltas.map fun d => (d.1, d.2.map fun x => x * targetNorm / (o.epsilon + norm))

/-- `deltas[path]`.  The loops that use this go through the same paths as the loops that create the dictionary. -/
def deltaOf (deltas : List (Str × List S)) (path : Str) : List S :=
  ((deltas.find? (·.1 = path)).map (·.2)).getD []

/-- sgdoptimizer.py:30-51 `_get_param_updates`. -/
def sgdUpdates (sqrt : S → S) (o : OptOptions S) (paths : List Str) (grad : Str → List S) (alpha : S) (st : OptState S) :
    OptUpdates S :=
  let deltas := normalizeDeltas sqrt o (paths.map fun p => (p, (grad p).map (- ·)))           -- 43-46
  ⟨paths.map fun p => (.net p, List.zipWith (fun x d => x + alpha * d) (st.vars (.net p)) (deltaOf deltas p)), none⟩

/-- nesterovoptimizer.py:67-74 and rmspropnesterovoptimizer.py:95-102: the velocity and parameter updates. -/
def momentumUpdates (o : OptOptions S) (paths : List Str) (deltas : List (Str × List S)) (alpha : S) (st : OptState S) :
    List (OptVar × List S) :=
  paths.flatMap fun p =>
    let delta := deltaOf deltas p
    let velocity := List.zipWith (fun v d => o.momentum * v + alpha * d) (st.vars (.opt (p ++ sfxVelocity))) delta
    let param := List.zipWith (· + ·)
      (List.zipWith (fun x v => x + o.momentum * v) (st.vars (.net p)) velocity) (delta.map (alpha * ·))
    [(.opt (p ++ sfxVelocity), velocity), (.net p, param)]

/-- nesterovoptimizer.py:49-74 `_get_param_updates`. -/
def nesterovUpdates (sqrt : S → S) (o : OptOptions S) (paths : List Str) (grad : Str → List S) (alpha : S) (st : OptState S) :
    OptUpdates S :=
  let deltas := normalizeDeltas sqrt o (paths.map fun p => (p, (grad p).map (- ·)))
  ⟨momentumUpdates o paths deltas alpha st, none⟩

/-- adagradoptimizer.py:63: new value of the sum of squared gradients. -/
def sumSqrGradient (grad : Str → List S) (st : OptState S) (p : Str) : List S :=
  List.zipWith (fun s g => s + g ^ 2) (st.vars (.opt (p ++ sfxSumSqrGradient))) (grad p)

/-- adagradoptimizer.py:47-73 `_get_param_updates`. -/
def adagradUpdates (sqrt : S → S) (o : OptOptions S) (paths : List Str) (grad : Str → List S) (alpha : S) (st : OptState S) :
    OptUpdates S :=
  let result := paths.map fun p => (OptVar.opt (p ++ sfxSumSqrGradient), sumSqrGradient grad st p)
  let deltas := normalizeDeltas sqrt o (paths.map fun p =>
    (p, List.zipWith (fun g s => -g / sqrt (s + o.epsilon)) (grad p) (sumSqrGradient grad st p)))
  ⟨result ++ paths.map fun p => (.net p, List.zipWith (fun x d => x + alpha * d) (st.vars (.net p)) (deltaOf deltas p)), none⟩

/-- adadeltaoptimizer.py:70-71, rmspropsgdoptimizer.py:67-69, rmspropnesterovoptimizer.py:85-87, adamoptimizer.py:86-88: new
value of the running mean of squared gradients. -/
def meanSqrGradient (gamma : S) (grad : Str → List S) (st : OptState S) (p : Str) : List S :=
  List.zipWith (fun m g => gamma * m + (1 - gamma) * g ^ 2) (st.vars (.opt (p ++ sfxMeanSqrGradient))) (grad p)

/-- adadeltaoptimizer.py:54-89 `_get_param_updates`. -/
def adadeltaUpdates (sqrt : S → S) (o : OptOptions S) (paths : List Str) (grad : Str → List S) (alpha : S) (st : OptState S) :
    OptUpdates S :=
  let result := paths.map fun p => (OptVar.opt (p ++ sfxMeanSqrGradient), meanSqrGradient o.gamma grad st p)      -- 72
  let deltas := normalizeDeltas sqrt o (paths.map fun p =>                                                        -- 76-80
    (p, List.zipWith (fun gd m => gd / sqrt (m + o.epsilon))
      (List.zipWith (fun g d => -g * sqrt (d + o.epsilon)) (grad p) (st.vars (.opt (p ++ sfxMeanSqrDelta))))
      (meanSqrGradient o.gamma grad st p)))
  ⟨result ++ paths.flatMap fun p =>                                                                               -- 82-88
    let delta := deltaOf deltas p
    [(.opt (p ++ sfxMeanSqrDelta),
      List.zipWith (fun m d => o.gamma * m + (1 - o.gamma) * d ^ 2) (st.vars (.opt (p ++ sfxMeanSqrDelta))) delta),
     (.net p, List.zipWith (fun x d => x + alpha * d) (st.vars (.net p)) delta)], none⟩

/-- adamoptimizer.py:83-85: new value of the running mean of gradients. -/
def meanGradient (gamma : S) (grad : Str → List S) (st : OptState S) (p : Str) : List S :=
  List.zipWith (fun m g => gamma * m + (1 - gamma) * g) (st.vars (.opt (p ++ sfxMeanGradient))) (grad p)

/-- adamoptimizer.py:61-100 `_get_param_updates`. -/
def adamUpdates (sqrt : S → S) (o : OptOptions S) (paths : List Str) (grad : Str → List S) (alpha : S) (st : OptState S) :
    OptUpdates S :=
  let timestep := st.timestep + 1                                                                                 -- 73
  let alpha := alpha * sqrt (1 - o.gammaSqr ^ timestep)                                                           -- 74
  let alpha := alpha / (1 - o.gamma ^ timestep)                                                                   -- 75
  let result := paths.flatMap fun p =>
    [(OptVar.opt (p ++ sfxMeanGradient), meanGradient o.gamma grad st p),
     (OptVar.opt (p ++ sfxMeanSqrGradient), meanSqrGradient o.gammaSqr grad st p)]
  let deltas := normalizeDeltas sqrt o (paths.map fun p =>
    (p, List.zipWith (fun m ms => -m / (sqrt ms + o.epsilon))
      (meanGradient o.gamma grad st p) (meanSqrGradient o.gammaSqr grad st p)))
  ⟨result ++ paths.map fun p => (.net p, List.zipWith (fun x d => x + alpha * d) (st.vars (.net p)) (deltaOf deltas p)),
   some timestep⟩

/-- rmspropsgdoptimizer.py:72-73, rmspropnesterovoptimizer.py:90-91: the gradient divided by the RMS gradient. -/
def rmspropDeltas (sqrt : S → S) (o : OptOptions S) (paths : List Str) (grad : Str → List S) (st : OptState S) :
    List (Str × List S) :=
  paths.map fun p =>
    (p, List.zipWith (fun g m => -g / sqrt (m + o.epsilon)) (grad p) (meanSqrGradient o.gamma grad st p))

/-- rmspropsgdoptimizer.py:51-79 `_get_param_updates`. -/
def rmspropSgdUpdates (sqrt : S → S) (o : OptOptions S) (paths : List Str) (grad : Str → List S) (alpha : S)
    (st : OptState S) : OptUpdates S :=
  let result := paths.map fun p => (OptVar.opt (p ++ sfxMeanSqrGradient), meanSqrGradient o.gamma grad st p)
  let deltas := normalizeDeltas sqrt o (rmspropDeltas sqrt o paths grad st)
  ⟨result ++ paths.map fun p => (.net p, List.zipWith (fun x d => x + alpha * d) (st.vars (.net p)) (deltaOf deltas p)), none⟩

/-- rmspropnesterovoptimizer.py:69-102 `_get_param_updates`. -/
def rmspropNesterovUpdates (sqrt : S → S) (o : OptOptions S) (paths : List Str) (grad : Str → List S) (alpha : S)
    (st : OptState S) : OptUpdates S :=
  let _result := paths.map fun p => (OptVar.opt (p ++ sfxMeanSqrGradient), meanSqrGradient o.gamma grad st p)     -- 82-88
  let deltas := normalizeDeltas sqrt o (rmspropDeltas sqrt o paths grad st)                                      -- 90-92
  let result := []                                                                                               -- 94
  ⟨result ++ momentumUpdates o paths deltas alpha st, none⟩

/-- `_get_param_updates` of an optimization method. -/
def getParamUpdates (method : OptMethod) (sqrt : S → S) (o : OptOptions S) (paths : List Str) (grad : Str → List S)
    (alpha : S) (st : OptState S) : OptUpdates S :=
  match method with
  | .sgd => sgdUpdates sqrt o paths grad alpha st
  | .nesterov => nesterovUpdates sqrt o paths grad alpha st
  | .adagrad => adagradUpdates sqrt o paths grad alpha st
  | .adadelta => adadeltaUpdates sqrt o paths grad alpha st
  | .adam => adamUpdates sqrt o paths grad alpha st
  | .rmspropSgd => rmspropSgdUpdates sqrt o paths grad alpha st
  | .rmspropNesterov => rmspropNesterovUpdates sqrt o paths grad alpha st

/-- Variables that the constructor of an optimizer creates for a network parameter: suffix of the name and initial value of
every element (nesterovoptimizer.py:38-40, adagradoptimizer.py:41-43, adadeltaoptimizer.py:40-44, adamoptimizer.py:36-40,
rmspropsgdoptimizer.py:37-41, rmspropnesterovoptimizer.py:48-54). -/
def optVariables : OptMethod → List (Str × S)
  | .sgd => []
  | .nesterov => [(sfxVelocity, 0)]
  | .adagrad => [(sfxSumSqrGradient, 0)]
  | .adadelta => [(sfxMeanSqrGradient, 0), (sfxMeanSqrDelta, 0)]
  | .adam => [(sfxMeanGradient, 0), (sfxMeanSqrGradient, 0)]
  | .rmspropSgd => [(sfxMeanSqrGradient, 1)]
  | .rmspropNesterov => [(sfxMeanSqrGradient, 1), (sfxVelocity, 0)]

/-- State after the constructor of an optimizer, when the network parameters have the values `net`. -/
def initialOptState (method : OptMethod) (paths : List Str) (net : Str → List S) : OptState S where
  vars
    | .net p => net p
    | .opt name =>
      (((paths.flatMap fun p => (optVariables method).map fun v => (p ++ v.1, (net p).map fun _ => v.2)).find?
        (·.1 = name)).map (·.2)).getD []
  timestep := 0

/-- basicoptimizer.py:109-116: the learning rate that depends on the weights of the training files. -/
def modifiedAlpha (numWords : Nat) (mask : List (List Bool)) (weights : List (List S)) (alpha : S) : S :=
  let weight := (List.zipWith (fun m w => ((m.zip w).map fun x => if x.1 then x.2 else 0).sum) mask weights).sum
  if 0 < numWords then alpha * weight / numWords else alpha

/-- `self._weights[file_id]`: `IndexError` if there is no weight for a file.  Negative file IDs do not exist. -/
def fileWeight (table : List S) (i : Nat) : Except Err S :=
  match table[i]? with
  | some w => .ok w
  | none => .error .indexError

/-- `self._weights[file_ids]` (basicoptimizer.py:198). -/
def fileWeights (table : List S) (fileIds : List (List Nat)) : Except Err (List (List S)) :=
  fileIds.mapM fun row => row.mapM (fileWeight table)

/-- basicoptimizer.py:118-134: the update function.  `gradient` gives the gradient of the cost with regard to the network
parameters for the word IDs, class IDs and mask (of targets), and `numWords` the number of words in the cost (cost.py:83).
Following the program, `updates` is given `alpha` and not the modified learning rate (131). -/
def updateFunction (method : OptMethod) (sqrt : S → S) (o : OptOptions S) (paths : List Str)
    (gradient : List (List Nat) → List (List Nat) → List (List Bool) → (Str → List S) → Str → List S)
    (numWords : List (List Nat) → List (List Bool) → Nat)
    (wordIds classIds : List (List Nat)) (mask : List (List Bool)) (weights : List (List S)) (alpha : S)
    (st : OptState S) : OptState S :=
  let _modifiedAlpha := modifiedAlpha (numWords wordIds mask) mask weights alpha
  applyUpdates st
    (getParamUpdates method sqrt o paths (gradient wordIds classIds mask fun p => st.vars (.net p)) alpha st)

/-- basicoptimizer.py:172-200 `update_minibatch`. -/
def updateMinibatch (method : OptMethod) (sqrt : S → S) (o : OptOptions S) (paths : List Str)
    (gradient : List (List Nat) → List (List Nat) → List (List Bool) → (Str → List S) → Str → List S)
    (numWords : List (List Nat) → List (List Bool) → Nat) (learningRate : S) (table : List S)
    (wordIds classIds fileIds : List (List Nat)) (mask : List (List Bool)) (st : OptState S) : Except Err (OptState S) := do
  let mask := mask.tail
  let fileIds := fileIds.tail
  let weights ← fileWeights table fileIds
  return updateFunction method sqrt o paths gradient numWords wordIds classIds mask weights learningRate st

/-- The states of the shared variables when the update function is called repeatedly: `grad n` is the gradient of the cost of
the `n`:th mini-batch as a function of the network parameters, and `lr n` the learning rate at that time. -/
def optRun (method : OptMethod) (sqrt : S → S) (o : OptOptions S) (paths : List Str)
    (grad : Nat → (Str → List S) → Str → List S) (lr : Nat → S) (st : OptState S) : Nat → OptState S
  | 0 => st
  | n + 1 =>
    let cur := optRun method sqrt o paths grad lr st n
    applyUpdates cur (getParamUpdates method sqrt o paths (grad n fun p => cur.vars (.net p)) (lr n) cur)

end
end TheanoLM
