import Verif.Model.Interpolation
import Verif.Model.Optimizer
import Verif.Model.OutputLayer
/-!
# Model of theanolm/training/cost.py, theanolm/network/samplingoutputlayer.py and the choice of noise (network.py:296-362)

The elements of tensors are floating point numbers with the special values, but without rounding, overflow and underflow.
Broadcasting is written out: a tensor with an empty dimension is repeated along the dimension.
-/
namespace TheanoLM

section
variable {S : Type} [Field S] [LinearOrder S]

/-- `x - y` -/
def Flt.sub (x y : Flt S) : Flt S := x.add y.neg

/-- `x / y`: a number divided by zero is an infinity, or nan if it is zero. -/
def Flt.div : Flt S → Flt S → Flt S
  | .nan, _ => .nan
  | _, .nan => .nan
  | .fin a, .fin b => if b = 0 then if a = 0 then .nan else if 0 < a then .posInf else .negInf else .fin (a / b)
  | .fin _, _ => .fin 0
  | .posInf, .fin b => if b < 0 then .negInf else .posInf
  | .negInf, .fin b => if b < 0 then .posInf else .negInf
  | _, _ => .nan

/-- `tensor.nnet.softplus`: the logarithm of one plus the exponential. -/
def Flt.softplus (F : ProbFun S) (x : Flt S) : Flt S := Flt.log F ((Flt.fin 1).add (x.exp F.exp))

/-! ## The cost of a mini-batch -/

/-- operations.py:135-147 `l1_norm`. -/
def l1Norm (tensors : List (List S)) : S := (tensors.map fun x => (x.map fun v => max v (-v)).sum).sum

/-- cost.py:80-82: one where the cost is computed, zero elsewhere. -/
def costMask (exclude : Option Nat) (mask : List (List Bool)) (targets : List (List Nat)) : List (List Nat) :=
  let mask := mask.map (List.map fun m => if m then 1 else 0)
  match exclude with
  | none => mask
  | some e => List.zipWith (List.zipWith fun m w => m * if w ≠ e then 1 else 0) mask targets

/-- cost.py:62-97 `get_tensor`: the cost and the number of words. -/
def costTensor (exclude : Option Nat) (l1Weight l2Weight : Option S) (params : List (List S)) (mask : List (List Bool))
    (targets : List (List Nat)) (logprobs : List (List (Flt S))) : Flt S × Nat :=
  let mask := costMask exclude mask targets
  let logprobs := List.zipWith (List.zipWith Flt.mulMask) logprobs mask                       -- 85
  let numWords := mask.flatten.sum                                                            -- 86
  let cost := ((Flt.sum logprobs.flatten).neg).div (.fin numWords)                            -- 87
  let cost := match l1Weight with                                                             -- 92-93
    | none => cost
    | some w => cost.add (.fin (w * l1Norm params))
  let cost := match l2Weight with                                                             -- 94-95
    | none => cost
    | some w => cost.add (.fin (w * sumOfSquares params))
  (cost, numWords)

/-! ## Log probabilities -/

/-- cost.py:121-130 `CrossEntropyCost._get_logprobs`; `probs` are the probabilities of the target classes. -/
def crossEntropyLogprobs (F : ProbFun S) (probs : List (List S)) : List (List (Flt S)) :=
  probs.map (List.map fun p => Flt.log F (.fin p))

/-- A class: its probability in the noise distribution, and the logarithm of its unnormalized probability. -/
structure NoiseClass (S : Type) where
  prior : S
  logprob : S
  deriving DecidableEq

/-- cost.py:159-192 `NCECost._get_logprobs` in one position of the mini-batch. -/
def nceLogprob (F : ProbFun S) (epsilon : S) (target : NoiseClass S) (sample : List (NoiseClass S)) : Flt S :=
  let G := (Flt.fin target.logprob).sub (Flt.log F (.fin (target.prior + epsilon)))           -- 173-177
  let targetLogH := (Flt.softplus F G.neg).neg                                                -- 178
  let sampleLog := sample.map fun c =>
    let G := (Flt.fin c.logprob).sub (Flt.log F (.fin (c.prior + epsilon)))                   -- 184-190
    (Flt.softplus F G).neg                                                                    -- 191
  targetLogH.add (Flt.sum sampleLog)                                                          -- 192

/-- cost.py:231-237, 243-245: the unnormalized probability divided by the probability in the noise distribution. -/
def weightedProb (F : ProbFun S) (c : NoiseClass S) : Flt S := (Flt.fin (F.exp c.logprob)).div (.fin c.prior)

/-- cost.py:221-254 `BlackoutCost._get_logprobs` in one position of the mini-batch. -/
def blackoutLogprob (F : ProbFun S) (epsilon : S) (target : NoiseClass S) (sample : List (NoiseClass S)) : Flt S :=
  let denominator := (weightedProb F target).add (Flt.sum (sample.map (weightedProb F)))      -- 247-248
  let targetCost := (weightedProb F target).div denominator                                   -- 249
  let sampleCosts := sample.map fun c =>
    (Flt.fin 1).sub ((weightedProb F c).div denominator)                                      -- 250-251
  (Flt.log F (targetCost.add (.fin epsilon))).add                                             -- 252
    (Flt.sum (sampleCosts.map fun c => Flt.log F (c.add (.fin epsilon))))                     -- 253

/-! ## Noise -/

/-- The noise distributions of classdistribution.py. -/
inductive NoiseDistribution (S : Type)
  | uniform (support : Nat)
  | logUniform (support : Nat)
  | multinomial (probs : List S)
  deriving DecidableEq

/-- `noise_distribution.probs` of one class. -/
def noiseProb (F : ProbFun S) : NoiseDistribution S → Nat → Except Err S
  | .uniform support, c => .ok (uniformProb support c)
  | .logUniform support, c => .ok (logUniformProb F support c)
  | .multinomial probs, c => multinomialProb probs c

/-- network.py:326-345 `set_sampling`: the noise distribution.  `pow` is the power function.  A sum of zero gives nan probabilities:
not modelled. -/
def noiseDistribution (pow : S → S → S) (kind : Str) (dampening : S) (classPriors : List S) :
    Except Err (NoiseDistribution S) :=
  if kind = "uniform".toList ∨ (kind = "unigram".toList ∧ dampening = 0) then .ok (.uniform classPriors.length) -- 326-328
  else if kind = "log-uniform".toList then .ok (.logUniform classPriors.length)               -- 329-331
  else if kind = "unigram".toList then
    let probs := classPriors.map fun p => pow p dampening                                     -- 333
    .ok (.multinomial (probs.map fun p => p / probs.sum))                                     -- 334
  else .error .valueError                                                                     -- 343-345

/-- network.py:347-360 `set_sampling` and samplingoutputlayer.py:52-152: the noise classes in each position of a mini-batch.
`draw m n` is the result of `noise_distribution.sample(m, n)`, a matrix of m rows and n columns. -/
def noiseSamples (sharing : Option Str) (numTimeSteps numSequences numSamples : Nat) (draw : Nat → Nat → List (List Nat)) :
    Except Err (List (List (List Nat))) :=
  match sharing with
  | none => .ok (reshape2 numSequences numTimeSteps (draw (numTimeSteps * numSequences) numSamples)) -- 80-82
  | some sharing =>
    if sharing = "seq".toList then
      .ok ((reshape2 numSamples numTimeSteps (draw 1 (numTimeSteps * numSamples)).flatten).map
        fun sample => List.replicate numSequences sample)                                     -- 116-118
    else if sharing = "batch".toList then
      match (draw 1 numSamples)[0]? with                                                      -- 149-150
      | none => .error .indexError
      | some sample => .ok (List.replicate numTimeSteps (List.replicate numSequences sample)) -- 151
    else .error .valueError

/-- A class with its probability in the noise distribution, and the preactivation that `_get_target_preact`, `_get_target_seq_preact`
(samplingoutputlayer.py:184-214) and `_get_target_list_preact` (216-242) compute for it in one position. -/
def noiseClass (F : ProbFun S) (noise : NoiseDistribution S) (b : Basic S) (x : List S) (c : Nat) : Except Err (NoiseClass S) :=
  match noiseProb F noise c with
  | .error e => .error e
  | .ok q =>
    match targetPreact b.weights b.biases "input".toList x c with
    | .error e => .error e
    | .ok p => .ok ⟨q, p⟩

/-- One position of a mini-batch: the target and the sample are given to the function. -/
def samplingCell (F : ProbFun S) (noise : NoiseDistribution S) (b : Basic S) (f : NoiseClass S → List (NoiseClass S) → Flt S)
    (p : List S × Nat × List Nat) : Except Err (Flt S) :=
  match noiseClass F noise b p.1 p.2.1 with
  | .error e => .error e
  | .ok target =>
    match mapE (noiseClass F noise b p.1) p.2.2 with
    | .error e => .error e
    | .ok sample => .ok (f target sample)

/-- samplingoutputlayer.py:23-50 `_get_unnormalized_logprobs`, 52-152 the functions that return sample tensors, and cost.py:159-254,
for all positions of a mini-batch.  `b` is the softmax layer and `input` is its input.  With more than one device, there are no
preactivations (`None`), which cannot be subtracted from. -/
def samplingLogprobs (F : ProbFun S) (noise : NoiseDistribution S) (sharing : Option Str) (numSamples : Nat)
    (draw : Nat → Nat → List (List Nat)) (f : NoiseClass S → List (NoiseClass S) → Flt S) (b : Basic S)
    (input : List (List (List S))) (targets : List (List Nat)) : Except Err (List (List (Flt S))) :=
  if b.devices.length > 1 then .error .typeError                                              -- 43-44
  else
    match noiseSamples sharing input.length (numSequences input) numSamples draw with
    | .error e => .error e
    | .ok samples =>
      mapE (mapE (samplingCell F noise b f)) (List.zipWith List.zip input (List.zipWith List.zip targets samples))

end

end TheanoLM
