import Verif.Model.Cost

/-!
# Model of the tensors of the sampling-based costs

theanolm/network/samplingoutputlayer.py and the functions `_get_logprobs` of theanolm/training/cost.py with tensors of any shape and
broadcasting, as they are written.  (`Verif.Model.Cost` describes what they compute in one position of the mini-batch.)
-/

namespace TheanoLM

/-- A tensor: its shape, and the element at each index.  Elements outside the shape have no meaning. -/
structure Tensor (α : Type) where
  shape : List Nat
  at' : List Nat → α

section
variable {α β γ : Type}

/-- All the indices of a tensor. -/
def tensorIndices : List Nat → List (List Nat)
  | [] => [[]]
  | d :: ds => (List.range d).flatMap fun i => (tensorIndices ds).map fun is => i :: is

/-- An operation on every element. -/
def Tensor.map (f : α → β) (x : Tensor α) : Tensor β := ⟨x.shape, fun idx => f (x.at' idx)⟩

/-- Indexing with `None`: a new dimension of one element before the dimension `axis`. -/
def Tensor.newaxis (axis : Nat) (x : Tensor α) : Tensor α := ⟨x.shape.insertIdx axis 1, fun idx => x.at' (idx.eraseIdx axis)⟩

/-- `x.T` -/
def Tensor.transpose (x : Tensor α) : Tensor α := ⟨x.shape.reverse, fun idx => x.at' idx.reverse⟩

/-- Broadcasting of one dimension.  (Theano repeats only the dimensions that are known to have one element when the graph is
created.  All the dimensions that are repeated below are such.) -/
def broadcastDim (a b : Nat) : Option Nat := if a = b then some a else if a = 1 then some b else if b = 1 then some a else none

/-- The shape of the result of broadcasting; the last dimension is first in the lists. -/
def broadcastRev : List Nat → List Nat → Option (List Nat)
  | [], t => some t
  | a :: s, [] => some (a :: s)
  | a :: s, b :: t =>
    match broadcastDim a b, broadcastRev s t with
    | some d, some r => some (d :: r)
    | _, _ => none

/-- The position in a dimension that may be repeated. -/
def clampIdx (d i : Nat) : Nat := if d = 1 then 0 else i

/-- The index in a tensor that is broadcasted; the last dimension is first in the lists. -/
def projectRev : List Nat → List Nat → List Nat
  | [], _ => []
  | _ :: _, [] => []
  | d :: s, i :: is => clampIdx d i :: projectRev s is

def projectIdx (shape idx : List Nat) : List Nat := (projectRev shape.reverse idx.reverse).reverse

/-- A binary operation on every element, with broadcasting. -/
def Tensor.zip (f : α → β → γ) (x : Tensor α) (y : Tensor β) : Except Err (Tensor γ) :=
  match broadcastRev x.shape.reverse y.shape.reverse with
  | none => .error .valueError
  | some r => .ok ⟨r.reverse, fun idx => f (x.at' (projectIdx x.shape idx)) (y.at' (projectIdx y.shape idx))⟩

/-- Reduction of the last dimension, which is `x.sum(2)` or `x.sum(3)` below. -/
def Tensor.reduceLast (f : List α → β) (x : Tensor α) : Tensor β :=
  ⟨x.shape.dropLast, fun idx => f ((List.range (x.shape.getLastD 1)).map fun i => x.at' (idx ++ [i]))⟩

/-- The position of an index when the elements are listed in the order of their indices. -/
def flatIdx (shape idx : List Nat) : Nat := (List.zip shape idx).foldl (fun acc p => acc * p.1 + p.2) 0

/-- The index at a position; the last dimension is first in the lists. -/
def unflatRev : List Nat → Nat → List Nat
  | [], _ => []
  | d :: ds, n => n % d :: unflatRev ds (n / d)

/-- `x.reshape(shape)` -/
def Tensor.reshape (shape : List Nat) (x : Tensor α) : Except Err (Tensor α) :=
  if x.shape.prod ≠ shape.prod then .error .valueError
  else .ok ⟨shape, fun idx => x.at' (unflatRev x.shape.reverse (flatIdx shape idx)).reverse⟩

/-- `IndexError` if an index is out of range. -/
def checkIds (n : Nat) (ids : Tensor Nat) : Except Err Unit :=
  if (tensorIndices ids.shape).all fun idx => ids.at' idx < n then .ok () else .error .indexError

/-- `x[ids, :]` for a matrix `x`. -/
def Tensor.takeRows (x : Tensor α) (ids : Tensor Nat) : Except Err (Tensor α) :=
  match x.shape with
  | [rows, columns] =>
    match checkIds rows ids with
    | .error e => .error e
    | .ok _ => .ok ⟨ids.shape ++ [columns], fun idx => x.at' [ids.at' idx.dropLast, idx.getLastD 0]⟩
  | _ => .error .indexError

/-- `x[ids, 0]` for a matrix `x`. -/
def Tensor.takeFirst (x : Tensor α) (ids : Tensor Nat) : Except Err (Tensor α) :=
  match x.shape with
  | [rows, columns] =>
    if columns = 0 then .error .indexError
    else
      match checkIds rows ids with
      | .error e => .error e
      | .ok _ => .ok ⟨ids.shape, fun idx => x.at' [ids.at' idx, 0]⟩
  | _ => .error .indexError

/-- `x[:, ids]` for a matrix `x`. -/
def Tensor.takeColumns (x : Tensor α) (ids : Tensor Nat) : Except Err (Tensor α) :=
  match x.shape with
  | [rows, columns] =>
    match checkIds columns ids with
    | .error e => .error e
    | .ok _ => .ok ⟨rows :: ids.shape, fun idx => x.at' [idx.headD 0, ids.at' idx.tail]⟩
  | _ => .error .indexError

end

section
variable {S : Type} [Field S] [LinearOrder S]

/-- `tensor.dot(x, y)` for a matrix `y`. -/
def Tensor.dot (x y : Tensor S) : Except Err (Tensor S) :=
  match y.shape with
  | [rows, columns] =>
    if x.shape.getLastD 1 ≠ rows then .error .valueError
    else .ok ⟨x.shape.dropLast ++ [columns], fun idx =>
      ((List.range rows).map fun d => x.at' (idx.dropLast ++ [d]) * y.at' [d, idx.getLastD 0]).sum⟩
  | _ => .error .valueError

/-- samplingoutputlayer.py:154-182 `_get_target_preact`. -/
def targetPreactTensor (weight bias x : Tensor S) (ids : Tensor Nat) : Except Err (Tensor S) :=
  match weight.transpose.takeRows ids with                                                    -- 174-175
  | .error e => .error e
  | .ok weight =>
    match (bias.newaxis 1).takeFirst ids with                                                 -- 179-180
    | .error e => .error e
    | .ok bias =>
      match Tensor.zip (· * ·) (x.newaxis 2) weight with                                      -- 182
      | .error e => .error e
      | .ok product => Tensor.zip (· + ·) (product.reduceLast List.sum) bias

/-- samplingoutputlayer.py:184-214 `_get_target_seq_preact`. -/
def targetSeqPreactTensor (weight bias x : Tensor S) (ids : Tensor Nat) : Except Err (Tensor S) :=
  match weight.transpose.takeRows ids with                                                    -- 203-204
  | .error e => .error e
  | .ok weight =>
    match (bias.newaxis 1).takeFirst ids with                                                 -- 208-209
    | .error e => .error e
    | .ok bias =>
      match Tensor.zip (· * ·) (x.newaxis 2) (weight.newaxis 1) with                          -- 211
      | .error e => .error e
      | .ok product => Tensor.zip (· + ·) (product.reduceLast List.sum) (bias.newaxis 1)      -- 212-214

/-- samplingoutputlayer.py:216-242 `_get_target_list_preact`. -/
def targetListPreactTensor (weight bias x : Tensor S) (ids : Tensor Nat) : Except Err (Tensor S) :=
  match weight.takeColumns ids with                                                           -- 234
  | .error e => .error e
  | .ok weight =>
    match (bias.newaxis 1).takeFirst ids with                                                 -- 238-239
    | .error e => .error e
    | .ok bias =>
      match x.dot weight with                                                                 -- 241
      | .error e => .error e
      | .ok product => Tensor.zip (· + ·) product bias

/-- samplingoutputlayer.py:23-50 `_get_unnormalized_logprobs`, when there is one device. -/
def unnormalizedTensor (weight bias x : Tensor S) (targets : Tensor Nat) : Except Err (Tensor S) :=
  match targetPreactTensor weight bias x (targets.newaxis 2) with                             -- 48-49
  | .error e => .error e
  | .ok result => result.reshape [x.shape.getD 0 1, x.shape.getD 1 1]                         -- 46-47, 50

/-- samplingoutputlayer.py:52-83 `get_sample_tensors`, 85-119 `get_seqshared_sample_tensors` and 121-152
`get_shared_sample_tensors`, as chosen in network.py:347-360; when there is one device.  `draw m n` is the result of
`noise_distribution.sample(m, n)`, a matrix of m rows and n columns. -/
def sampleTensors (sharing : Option Str) (numSamples : Nat) (draw : Nat → Nat → Tensor Nat) (weight bias x : Tensor S) :
    Except Err (Tensor Nat × Tensor S) :=
  let numTimeSteps := x.shape.getD 0 1
  let numSequences := x.shape.getD 1 1
  match sharing with
  | none =>
    match (draw (numTimeSteps * numSequences) numSamples).reshape [numTimeSteps, numSequences, numSamples] with   -- 80-82
    | .error e => .error e
    | .ok sample =>
      match targetPreactTensor weight bias x sample with                                      -- 83
      | .error e => .error e
      | .ok logprobs => .ok (sample, logprobs)
  | some sharing =>
    if sharing = "seq".toList then
      match (draw 1 (numTimeSteps * numSamples)).reshape [numTimeSteps, numSamples] with      -- 112, 116-117
      | .error e => .error e
      | .ok sample =>
        match targetSeqPreactTensor weight bias x sample with                                 -- 119
        | .error e => .error e
        | .ok logprobs => .ok (sample.newaxis 1, logprobs)                                    -- 118
    else if sharing = "batch".toList then
      let drawn := draw 1 numSamples                                                          -- 149
      let sample : Tensor Nat := ⟨drawn.shape.tail, fun idx => drawn.at' (0 :: idx)⟩          -- 150
      match targetListPreactTensor weight bias x sample with                                  -- 152
      | .error e => .error e
      | .ok logprobs => .ok ((sample.newaxis 0).newaxis 0, logprobs)                          -- 151
    else .error .valueError

/-- `noise_distribution.probs` (classdistribution.py:89-103, 143-161, 210-224); the uniform distribution returns a scalar. -/
def noiseProbsTensor (F : ProbFun S) (noise : NoiseDistribution S) (ids : Tensor Nat) : Except Err (Tensor S) :=
  match noise with
  | .uniform support => .ok ⟨[], fun _ => uniformProb support 0⟩
  | .logUniform support => .ok (ids.map (logUniformProb F support))
  | .multinomial probs =>
    match checkIds probs.length ids with
    | .error e => .error e
    | .ok _ => .ok (ids.map fun c => probs.getD c 0)

/-- cost.py:159-192 `NCECost._get_logprobs`. -/
def nceTensor (F : ProbFun S) (epsilon : S) (noise : NoiseDistribution S) (targets : Tensor Nat) (targetLogprobs : Tensor S)
    (sample : Tensor Nat) (sampleLogprobs : Tensor S) : Except Err (Tensor (Flt S)) :=
  match noiseProbsTensor F noise targets with                                                 -- 173
  | .error e => .error e
  | .ok targetPrior =>
    match Tensor.zip (fun (x : S) (y : Flt S) => (Flt.fin x).sub y) targetLogprobs
        (targetPrior.map fun p => Flt.log F (.fin (p + epsilon))) with                        -- 174, 177
    | .error e => .error e
    | .ok targetG =>
      match noiseProbsTensor F noise sample with                                              -- 184
      | .error e => .error e
      | .ok samplePrior =>
        match Tensor.zip (fun (x : S) (y : Flt S) => (Flt.fin x).sub y) sampleLogprobs
            (samplePrior.map fun p => Flt.log F (.fin (p + epsilon))) with                    -- 185, 190
        | .error e => .error e
        | .ok sampleG =>
          Tensor.zip Flt.add (targetG.map fun g => (Flt.softplus F g.neg).neg)                -- 178
            ((sampleG.map fun g => (Flt.softplus F g).neg).reduceLast Flt.sum)                -- 191-192

/-- cost.py:221-254 `BlackoutCost._get_logprobs`. -/
def blackoutTensor (F : ProbFun S) (epsilon : S) (noise : NoiseDistribution S) (targets : Tensor Nat) (targetLogprobs : Tensor S)
    (sample : Tensor Nat) (sampleLogprobs : Tensor S) : Except Err (Tensor (Flt S)) :=
  match noiseProbsTensor F noise targets with                                                 -- 236
  | .error e => .error e
  | .ok targetPrior =>
    match Tensor.zip (fun (x y : S) => (Flt.fin (F.exp x)).div (.fin y)) targetLogprobs targetPrior with   -- 231, 237
    | .error e => .error e
    | .ok targetWeighted =>
      match noiseProbsTensor F noise sample with                                              -- 244
      | .error e => .error e
      | .ok samplePrior =>
        match Tensor.zip (fun (x y : S) => (Flt.fin (F.exp x)).div (.fin y)) sampleLogprobs samplePrior with   -- 243, 245
        | .error e => .error e
        | .ok sampleWeighted =>
          match Tensor.zip Flt.add targetWeighted (sampleWeighted.reduceLast Flt.sum) with    -- 247-248
          | .error e => .error e
          | .ok denominators =>
            match Tensor.zip Flt.div targetWeighted denominators with                         -- 249
            | .error e => .error e
            | .ok targetCosts =>
              match Tensor.zip Flt.div sampleWeighted (denominators.newaxis 2) with           -- 250
              | .error e => .error e
              | .ok sampleCosts =>
                let sampleCosts := sampleCosts.map fun c => (Flt.fin 1).sub c                 -- 251
                Tensor.zip Flt.add (targetCosts.map fun c => Flt.log F (c.add (.fin epsilon)))   -- 252
                  ((sampleCosts.map fun c => Flt.log F (c.add (.fin epsilon))).reduceLast Flt.sum)   -- 253

/-- The log probabilities that the cost `cost` (`nceTensor` or `blackoutTensor`) computes from the input `x` of the softmax layer:
cost.py with network.py:471-514. -/
def samplingTensor (cost : Tensor Nat → Tensor S → Tensor Nat → Tensor S → Except Err (Tensor (Flt S))) (sharing : Option Str)
    (numSamples : Nat) (draw : Nat → Nat → Tensor Nat) (weight bias x : Tensor S) (targets : Tensor Nat) :
    Except Err (Tensor (Flt S)) :=
  match unnormalizedTensor weight bias x targets with
  | .error e => .error e
  | .ok targetLogprobs =>
    match sampleTensors sharing numSamples draw weight bias x with
    | .error e => .error e
    | .ok (sample, sampleLogprobs) => cost targets targetLogprobs sample sampleLogprobs

end

end TheanoLM
