import Verif.Model.Vocabulary
/-!
# Model of the parameters of a layer and their division to devices

theanolm/network/basiclayer.py, theanolm/backend/parameters.py, and the use of the parameters in the pre-activations.

An array is modelled as the list of its slices on the **last** axis, the axis that is divided: a weight matrix is the list of its
columns, a bias vector the list of its elements, a convolution filter the list of the filters of each output.  The shapes of the
operands of a product match by construction (every layer creates its weights using the sizes of its inputs), so the model of a
product does not check them.
-/
namespace TheanoLM

/-- Parameters: path to value. -/
abbrev ParamDict (α : Type) := List (Str × List α)

section
variable {α : Type}

/-- basiclayer.py:131-149 `_param_path` (without the prefix that is common to all parameters of a layer). -/
def paramPath (name : Str) (device : Option Str) : Str :=
  match device with
  | none => name
  | some d => name ++ '/' :: d

/-- parameters.py:38-75 `Parameters.add`: `ValueError` if the path already exists.  Device memory is not modelled. -/
def addParam (path : Str) (value : List α) (d : ParamDict α) : Except Err (ParamDict α) :=
  if (dictGet? d path).isSome then .error .valueError                                         -- 53-54
  else .ok (d ++ [(path, value)])

/-- basiclayer.py:151-166 `_get_param`: `KeyError` if there is no such path. -/
def getParam (name : Str) (device : Option Str) (d : ParamDict α) : Except Err (List α) :=
  match dictGet? d (paramPath name device) with
  | some v => .ok v
  | none => .error .keyError

/-- basiclayer.py:281-286: the ranges `(start, end)` given the number `i` of the next device and the start. -/
def splitLoop (quotient remainder : Nat) : Nat → Nat → Nat → List (Nat × Nat)
  | 0, _, _ => []
  | left + 1, i, start =>
    let stop := i * quotient + min i remainder                                                -- 284
    (start, stop) :: splitLoop quotient remainder left (i + 1) stop

/-- basiclayer.py:261-292 `_split_per_device`.  A range is given by its start and end. -/
def splitPerDevice (numDevices totalSize : Nat) : Except Err (List (Nat × Nat)) :=
  if numDevices < 1 then .error .runtimeError                                                 -- 274-275
  else if totalSize < numDevices then .error .valueError                                      -- 276-278
  else
    let quotient := totalSize / numDevices
    let remainder := totalSize % numDevices
    let result := splitLoop quotient remainder numDevices 1 0
    if result.length = numDevices ∧ (result.map fun r => r.2 - r.1).sum = totalSize then .ok result   -- 288-290
    else .error .assertion

/-- basiclayer.py:214-217, 256-259: adds the part of every device. -/
def addParts (name : Str) (value : List α) : List (Option Str × (Nat × Nat)) → ParamDict α → Except Err (ParamDict α)
  | [], d => .ok d
  | (none, _) :: _, _ => .error .assertion                                                    -- 215
  | (some device, r) :: rest, d =>
    match addParam (paramPath name (some device)) ((value.take r.2).drop r.1) d with
    | .error e => .error e
    | .ok d' => addParts name value rest d'

/-- basiclayer.py:168-217 `_init_weight` and 219-259 `_init_bias`, given the initial value. -/
def initParam (devices : List (Option Str)) (split : Bool) (name : Str) (value : List α) (d : ParamDict α) :
    Except Err (ParamDict α) :=
  if split = false then addParam name value d                                                 -- 207-208
  else if devices = [none] then addParam name value d                                         -- 209-211
  else
    match splitPerDevice devices.length value.length with
    | .error e => .error e
    | .ok ranges => addParts name value (devices.zip ranges) d

/-- basiclayer.py:333-338, 381-386: concatenation of the results of the devices (`assert False` if there are none). -/
def concatResults (results : List (List α)) : Except Err (List α) :=
  match results with
  | [] => .error .assertion
  | r :: rs => .ok (r ++ rs.flatten)

end

section
variable {S : Type} [Add S] [Mul S] [Zero S]

/-- Inner product. -/
def dot (x w : List S) : S := (List.zipWith (· * ·) x w).sum

/-- basiclayer.py:325-331: one pass of the loop over the devices. -/
def devicePreact (weights : ParamDict (List S)) (biases : ParamDict S) (name : Str) (useBias : Bool) (x : List S)
    (device : Option Str) : Except Err (List S) :=
  match getParam (name ++ "/W".toList) device weights with
  | .error e => .error e
  | .ok weight =>
    let result := weight.map (dot x)
    if useBias then
      match getParam (name ++ "/b".toList) device biases with
      | .error e => .error e
      | .ok bias => .ok (List.zipWith (· + ·) result bias)
    else .ok result

/-- basiclayer.py:294-338 `_tensor_preact`, for the features of one element of the mini-batch. -/
def tensorPreact (devices : List (Option Str)) (weights : ParamDict (List S)) (biases : ParamDict S) (name : Str)
    (useBias : Bool) (x : List S) : Except Err (List S) :=
  match mapE (devicePreact weights biases name useBias x) devices with
  | .error e => .error e
  | .ok results => concatResults results

/-- The inner product of a region (a list of feature vectors) and a filter of the same size. -/
def dot2 (region filter : List (List S)) : S := (List.zipWith dot region filter).sum

/-- basiclayer.py:340-393 `_tensor_conv1d`, for the region of the input that produces one output element (`conv1d` with 'valid'
padding and without flipping the filter, operations.py:86-133).  Note that the bias is read without the device. -/
def tensorConv1d (devices : List (Option Str)) (weights : ParamDict (List (List S))) (biases : ParamDict S) (name : Str)
    (region : List (List S)) : Except Err (List S) :=
  match mapE (fun device => getParam (name ++ "/W".toList) device weights) devices with
  | .error e => .error e
  | .ok filters =>
    match concatResults (filters.map fun fs => fs.map (dot2 region)) with
    | .error e => .error e
    | .ok result =>
      match getParam (name ++ "/b".toList) none biases with                                   -- 392
      | .error e => .error e
      | .ok bias => .ok (List.zipWith (· + ·) result bias)

/-- samplingoutputlayer.py:154-182 `_get_target_preact`, for one element of the mini-batch and one target class. -/
def targetPreact (weights : ParamDict (List S)) (biases : ParamDict S) (name : Str) (x : List S) (target : Nat) :
    Except Err S :=
  match getParam (name ++ "/W".toList) none weights with                                      -- 172
  | .error e => .error e
  | .ok weight =>
    match getParam (name ++ "/b".toList) none biases with                                     -- 173
    | .error e => .error e
    | .ok bias =>
      match weight[target]?, bias[target]? with                                               -- 175, 180
      | some w, some b => .ok (dot x w + b)
      | _, _ => .error .indexError

/-- softmaxlayer.py:62-64, 95-101 with samplingoutputlayer.py:23-50: the pre-activation of a softmax layer, and the pre-activation
of the target class if there is at most one device. -/
def softmaxPreact (devices : List (Option Str)) (weights : ParamDict (List S)) (biases : ParamDict S) (x : List S)
    (target : Nat) : Except Err (List S × Option S) :=
  match tensorPreact devices weights biases "input".toList true x with
  | .error e => .error e
  | .ok preact =>
    if devices.length > 1 then .ok (preact, none)
    else
      match targetPreact weights biases "input".toList x target with
      | .error e => .error e
      | .ok logprob => .ok (preact, some logprob)

end

end TheanoLM
