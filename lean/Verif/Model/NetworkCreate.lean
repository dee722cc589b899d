import Verif.Model.Architecture
import Verif.Model.OutputLayer
/-!
# Model of the creation of a network from an architecture description

theanolm/network/network.py (`create_layer`, `Network.__init__`, `_layer_options_from_description`), and the constructors of the
layers.

* The initial values of the weights are random numbers, which are a parameter of the model (as well as their scale), and so is the
  singular value decomposition that is used for creating orthogonal matrices.
* A layer whose name is already in use replaces the earlier layer in the program.  That is not modelled: it is an error in the model.
* The option `reverse_time` given to a recurrent layer in the description is not modelled: it is an error in the model.
* A field called `input_layers` is not modelled.
* A negative size is an error when the parameters are created (NumPy does not create arrays of negative size); in the model it is an
  error already when the size is read.
-/
namespace TheanoLM

/-- What the constructor of a network reads from its environment. -/
structure CreateEnv (S : Type) where
  /-- `vocabulary.num_shortlist_words()` -/
  numWords : Nat
  /-- `vocabulary.num_classes()` -/
  numClasses : Nat
  /-- the class of `<unk>` -/
  unkClass : Nat
  /-- `numpy.log(class_prior_probs + 1e-10)` -/
  priorBias : Option (List S)
  defaultDevice : Option Str
  /-- `int(s)` -/
  parseInt : Str → Option ℤ
  /-- `float(x)` -/
  parseFloat : ArchVal → Option S
  /-- `0.9999` and `0.5` -/
  rateLimit : S
  defaultRate : S
  /-- initial values: layer name, parameter name, and indices -/
  rand : Str → Str → List Nat → S
  /-- `numpy.linalg.svd(a)[0]` of a square matrix -/
  svd : Nat → (Nat → Nat → S) → Nat → Nat → S

/-- A layer object: `name`, `output_size`, and what is needed for evaluating the layer. -/
structure Created (S : Type) where
  name : Str
  size : Nat
  layer : Layer S

/-- The layers in the order they were created, and the position of the output layer. -/
structure CreatedNetwork (S : Type) where
  layers : List (Created S)
  output : Nat

/-- network.py:42-67: the layer classes. -/
inductive LayerType where
  | projection | fullyConnected | addition | recurrent (kind : CellKind) | bidirectional (kind : CellKind) | highway | glu | softmax
  | hsoftmax | dropout
  deriving DecidableEq

/-- network.py:42-67 `create_layer`: the class of a layer. -/
def layerType (s : Str) : Option LayerType :=
  if s = "projection".toList then some .projection
  else if s = "fc".toList ∨ s = "tanh".toList then some .fullyConnected
  else if s = "add".toList then some .addition
  else if s = "lstm".toList then some (.recurrent .lstm)
  else if s = "gru".toList then some (.recurrent .gru)
  else if s = "blstm".toList then some (.bidirectional .lstm)
  else if s = "bgru".toList then some (.bidirectional .gru)
  else if s = "highway".toList ∨ s = "highwaytanh".toList then some .highway
  else if s = "glu".toList then some .glu
  else if s = "softmax".toList then some .softmax
  else if s = "hsoftmax".toList then some .hsoftmax
  else if s = "dropout".toList then some .dropout
  else none

/-- A value that has to be a string. -/
def strOption (d : ArchDict) (key : Str) : Except Err Str :=
  match dictGet? d key with
  | none => .error .keyError
  | some (.one (.str s)) => .ok s
  | some _ => .error .typeError

/-- An element of a list of names. -/
def strValue : ArchVal → Except Err Str
  | .str s => .ok s
  | .int _ => .error .typeError

/-- Iteration over a list of strings, or over the characters of a string. -/
def entryStrings : ArchEntry → Except Err (List Str)
  | .many vs => mapE strValue vs
  | .one (.str s) => .ok (s.map fun c => [c])
  | .one (.int _) => .error .typeError

/-- `int(value)` of a size. -/
def entrySize (parseInt : Str → Option ℤ) : ArchEntry → Except Err Nat
  | .many _ => .error .typeError
  | .one (.int i) => if i < 0 then .error .valueError else .ok i.toNat
  | .one (.str s) =>
    match parseInt s with
    | none => .error .valueError
    | some i => if i < 0 then .error .valueError else .ok i.toNat

/-- basiclayer.py:42-54. -/
def activationOption (d : ArchDict) : Except Err Activation :=
  match dictGet? d "activation".toList with
  | none => .ok .tanh
  | some e =>
    if e = .one (.str "tanh".toList) then .ok .tanh
    else if e = .one (.str "relu".toList) then .ok .relu
    else if e = .one (.str "leakyrelu".toList) then .ok .leakyrelu
    else .error .nameError                       -- 53: `InputError` is not imported

/-- Whether `reverse_time` has been given a true value (basiclayer.py:56-59). -/
def reverseTime (d : ArchDict) : Bool :=
  match dictGet? d "reverse_time".toList with
  | none => false
  | some e => !e.falsy

/-- The options of a layer after the names of its input layers have been resolved: the positions and output sizes of the input layers,
the devices, and the description. -/
structure LayerOptions where
  name : Str
  inputs : List Nat
  inputSizes : List Nat
  devices : List (Option Str)
  options : ArchDict

section
variable {S : Type} [Add S] [Mul S] [Sub S] [Div S] [Zero S] [One S] [Min S]

/-- weightfunctions.py:30-41, 67-74: an element of the matrix in column `j` of the concatenation of matrices that have the given
numbers of rows and columns. -/
def randomElement (env : CreateEnv S) (layer param : Str) (rows width i j : Nat) : S :=
  if rows = width then
    env.svd rows (fun a b => env.rand layer param [a, j / width * width + b]) i (j % width)                 -- 39-41, 67-70
  else env.rand layer param [i, j]                                                                          -- 24-28, 71-74

/-- weightfunctions.py:43-74 `random_matrix`, for a two-dimensional shape: the list of the columns.  It is a concatenation of
`columns / width` matrices whose shape is `rows` times `width`. -/
def randomMatrix (env : CreateEnv S) (layer param : Str) (rows columns : Nat) (width : Nat := columns) : List (List S) :=
  (List.range columns).map fun j => (List.range rows).map fun i => randomElement env layer param rows width i j

/-- The same for a three-dimensional shape: for each index on the last axis the matrix of the first two. -/
def randomTensor (env : CreateEnv S) (layer param : Str) (first second third : Nat) : List (List (List S)) :=
  (List.range third).map fun k => (List.range first).map fun i => (List.range second).map fun j => env.rand layer param [i, j, k]

/-- weightfunctions.py:76-103 `matrix_from_value`, for a one-dimensional shape and a list of values. -/
def matrixFromValues (size : Nat) (values : List S) : List S := values.flatMap fun v => List.replicate size v

/-- Several calls of `_init_weight` or `_init_bias`: `split_to_devices`, the name, and the initial value of each parameter. -/
def initParams {α : Type} (devices : List (Option Str)) : List (Bool × Str × List α) → ParamDict α → Except Err (ParamDict α)
  | [], d => .ok d
  | (split, name, value) :: rest, d =>
    match initParam devices split name value d with
    | .error e => .error e
    | .ok d' => initParams devices rest d'

/-- basiclayer.py:35-40: the output size. -/
def basicSize (env : CreateEnv S) (o : LayerOptions) : Except Err Nat :=
  match dictGet? o.options "size".toList with
  | some e => entrySize env.parseInt e
  | none => .ok o.inputSizes.sum

/-- A layer object with its parameters; basiclayer.py:30-54 and the calls of `_init_weight` and `_init_bias` (which are in the same
dictionary in the program; the paths of weights and biases differ). -/
def createBasic (o : LayerOptions) (size : Nat) (weights : List (Bool × Str × List (List S))) (biases : List (Bool × Str × List S)) :
    Except Err (Basic S) :=
  match activationOption o.options with
  | .error e => .error e
  | .ok activation =>
    match initParams o.devices weights [] with
    | .error e => .error e
    | .ok w =>
      match initParams o.devices biases [] with
      | .error e => .error e
      | .ok b => .ok ⟨o.inputs, o.devices, size, activation, w, b⟩

/-- The number of matrices that are concatenated in the weights of a recurrent layer (`num_gates + 1`). -/
def cellParts : CellKind → Nat
  | .lstm => 4
  | .gru => 3

/-- lstmlayer.py:50, grulayer.py:45: the initial biases. -/
def cellBias (kind : CellKind) (size : Nat) : List S :=
  match kind with
  | .lstm => matrixFromValues size [0 - 1, 1, 0 - 1, 0]
  | .gru => matrixFromValues size [0, 0, 0]

/-- lstmlayer.py:20-52, grulayer.py:21-47 `__init__`, given the name and the size of the layer. -/
def createRecurrent (env : CreateEnv S) (kind : CellKind) (o : LayerOptions) (name : Str) (size : Nat) : Except Err (Basic S) :=
  createBasic o size
    [(true, "layer_input/W".toList, randomMatrix env name "layer_input/W".toList o.inputSizes.sum (cellParts kind * size) size),
      (false, "step_input/W".toList, randomMatrix env name "step_input/W".toList size (cellParts kind * size) size)]
    [(true, "layer_input/b".toList, cellBias kind size)]

/-- additionlayer.py:34-39: the weights of the inputs whose size differs from the output size, starting from input number `index`. -/
def additionWeights (env : CreateEnv S) (name : Str) (size : Nat) : Nat → List Nat → List (Bool × Str × List (List S))
  | _, [] => []
  | index, inputSize :: rest =>
    let param := "input".toList ++ (toString index).toList ++ "/W".toList
    if inputSize ≠ size then (true, param, randomMatrix env name param inputSize size) :: additionWeights env name size (index + 1) rest
    else additionWeights env name size (index + 1) rest

/-- additionlayer.py:29-30: the output size is the size of the first input if not given. -/
def additionSize (env : CreateEnv S) (o : LayerOptions) : Except Err Nat :=
  match dictGet? o.options "size".toList with
  | some e => entrySize env.parseInt e
  | none =>
    match o.inputSizes with
    | [] => .error .indexError
    | s :: _ => .ok s

/-- dropoutlayer.py:32-38, 61-70: the factor applied to the units that are not dropped. -/
def dropoutScale (env : CreateEnv S) (o : LayerOptions) : Except Err S :=
  match dictGet? o.options "dropout_rate".toList with
  | none => .ok (1 / (1 - env.defaultRate))
  | some (.many _) => .error .typeError
  | some (.one v) =>
    match env.parseFloat v with
    | none => .error .valueError
    | some rate => .ok (1 / (1 - min env.rateLimit rate))

/-- glulayer.py:29-32. -/
def filterSizeOption (env : CreateEnv S) (o : LayerOptions) : Except Err Nat :=
  match dictGet? o.options "filter_size".toList with
  | some e => entrySize env.parseInt e
  | none => .ok 5

/-- The layer object without the parameters that are in `Basic` (its constructor given those). -/
def createSimple (o : LayerOptions) (size : Nat) (weights : List (Bool × Str × List (List S))) (biases : List (Bool × Str × List S))
    (make : Basic S → Layer S) : Except Err (Created S) :=
  match createBasic o size weights biases with
  | .error e => .error e
  | .ok b => .ok ⟨o.name, size, make b⟩

/-- glulayer.py:23-50 `__init__`. -/
def createGlu (env : CreateEnv S) (o : LayerOptions) (size : Nat) : Except Err (Created S) :=
  match filterSizeOption env o with
  | .error e => .error e
  | .ok filterSize =>
    match o.inputSizes with
    | [inputSize] =>
      match initParams o.devices [(true, "input/W".toList,
          randomTensor env o.name "input/W".toList filterSize inputSize (2 * size))] [] with                -- 41-42
      | .error e => .error e
      | .ok filters =>
        createSimple o size [] [(true, "input/b".toList, List.replicate (size * 2) 0)]                      -- 45
          fun b => .glu b filterSize inputSize filters
    | _ => .error .assertion                                                                                -- 35

/-- hsoftmaxlayer.py:20-57 `__init__`.  The parameters of the second level are a list of matrices (or bias vectors), one for each
branch of the first level.  They are divided on the last axis: it is an error if they cannot be divided to the devices. -/
def createHSoftmax (env : CreateEnv S) (o : LayerOptions) (size : Nat) : Except Err (Created S) :=
  match hsoftmaxLevels o.devices.length size with
  | .error e => .error e
  | .ok (level1, level2) =>
    createSimple o size
      [(true, "input/W".toList, randomMatrix env o.name "input/W".toList o.inputSizes.sum level1)]          -- 48
      [(true, "input/b".toList, List.replicate level1 0)]                                                   -- 49
      fun b => .hsoftmax b level1 level2
        ((List.range level1).map fun i => (List.range level2).map fun k => (List.range o.inputSizes.sum).map fun j =>
          env.rand o.name "level1/W".toList [i, j, k])                                                      -- 50-52
        (List.replicate level1 (List.replicate level2 0))                                                   -- 53

/-- bidirectionallayer.py:30-57 `__init__`. -/
def createBidirectional (env : CreateEnv S) (kind : CellKind) (o : LayerOptions) (size : Nat) : Except Err (Created S) :=
  let backwardSize := size / 2                                                                              -- 38
  let forwardSize := size - backwardSize                                                                    -- 39
  match createRecurrent env kind o (o.name ++ "/forward".toList) forwardSize with
  | .error e => .error e
  | .ok forward =>
    match createRecurrent env kind o (o.name ++ "/backward".toList) backwardSize with
    | .error e => .error e
    | .ok backward => .ok ⟨o.name, size, .bidirectional kind forward backward⟩

/-- The constructor of a layer, given its output size. -/
def createSized (env : CreateEnv S) (type : LayerType) (o : LayerOptions) (size : Nat) : Except Err (Created S) :=
  match type with
  | .projection =>                                                                                          -- projectionlayer.py:18-29
    createSimple o size [(true, "W".toList, randomMatrix env o.name "W".toList o.inputSizes.sum size)] [] .projection
  | .fullyConnected =>                                                                                      -- fullyconnectedlayer.py:16-28
    createSimple o size [(true, "input/W".toList, randomMatrix env o.name "input/W".toList o.inputSizes.sum size)]
      [(true, "input/b".toList, List.replicate size 0)] .fullyConnected
  | .addition =>                                                                                            -- additionlayer.py:17-41
    createSimple o size (additionWeights env o.name size 0 o.inputSizes) [] fun b => .addition b o.inputSizes
  | .recurrent kind =>
    if reverseTime o.options then .error .assertion        -- not modelled
    else
      match createRecurrent env kind o o.name size with
      | .error e => .error e
      | .ok b => .ok ⟨o.name, size, .recurrent kind b⟩
  | .bidirectional kind =>
    if reverseTime o.options then .error .assertion        -- not modelled
    else createBidirectional env kind o size
  | .highway =>                                                                                             -- highwaylayer.py:19-40
    if o.inputSizes.sum ≠ size then .error .valueError                                                      -- 28-30
    else
      createSimple o size [(true, "input/W".toList, randomMatrix env o.name "input/W".toList o.inputSizes.sum (2 * size) size)]
        [(true, "input/b".toList, matrixFromValues size [0, 0 - (1 + 1)])] .highway                         -- 38
  | .glu => createGlu env o size
  | .dropout =>                                                                                             -- dropoutlayer.py:26-48
    match dropoutScale env o with
    | .error e => .error e
    | .ok scale =>
      if o.inputSizes.sum ≠ size then .error .valueError                                                    -- 44-46
      else createSimple o size [] [] fun b => .dropout b scale
  | .softmax =>                                                                                             -- softmaxlayer.py:19-42
    createSimple o size [(true, "input/W".toList, randomMatrix env o.name "input/W".toList o.inputSizes.sum size)]
      [(true, "input/b".toList, env.priorBias.getD (List.replicate size 0))]                                -- 30-34
      fun b => .softmax b env.unkClass
  | .hsoftmax => createHSoftmax env o size

/-- network.py:36-67 `create_layer`. -/
def createLayer (env : CreateEnv S) (o : LayerOptions) : Except Err (Created S) :=
  match strOption o.options "type".toList with
  | .error e => .error e
  | .ok s =>
    match layerType s with
    | none => .error .valueError                                                                            -- 67
    | some type =>
      match (if type = .addition then additionSize env o else basicSize env o) with
      | .error e => .error e
      | .ok size => createSized env type o size

/-- `self.layers[x]`: `InputError` if the layer does not exist (network.py:531-538). -/
def findLayer (layers : List (Created S)) (name : Str) : Except Err Nat :=
  match layers.findIdx? (fun c => c.name = name) with
  | some i => .ok i
  | none => .error .inputError

/-- network.py:198-201: the devices of a layer. -/
def layerDevices (env : CreateEnv S) (d : ArchDict) : Except Err (List (Option Str)) :=
  match dictGet? d "devices".toList with
  | none => .ok [env.defaultDevice]
  | some e =>
    if e.falsy then .ok [env.defaultDevice]
    else
      match entryStrings e with
      | .error e => .error e
      | .ok ds => .ok (ds.map some)

/-- network.py:194-201, 516-541: the options of a layer.  The size of the output layer is set to the number of classes. -/
def layerOptions (env : CreateEnv S) (outputLayer : ArchVal) (layers : List (Created S)) (d : ArchDict) : Except Err LayerOptions :=
  match strOption d "name".toList with
  | .error e => .error e
  | .ok name =>
    match dictGet? d "inputs".toList with
    | none => .error .keyError                                                                              -- basiclayer.py:31
    | some e =>
      match entryStrings e with
      | .error e => .error e
      | .ok names =>
        match mapE (findLayer layers) names with                                                            -- 532-538
        | .error e => .error e
        | .ok inputs =>
          match layerDevices env d with
          | .error e => .error e
          | .ok devices =>
            .ok ⟨name, inputs, inputs.map fun i => (layers[i]?.map Created.size).getD 0, devices,
              if ArchVal.str name = outputLayer then dictSet d "size".toList (.one (.int env.numClasses)) else d⟩   -- 196-197

/-- network.py:192, 203: `self.layers[layer.name] = layer`, see the note on equal names. -/
def addLayer (layers : List (Created S)) (c : Created S) : Except Err (List (Created S)) :=
  if layers.any (fun c' => c'.name = c.name) then .error .assertion
  else .ok (layers ++ [c])

/-- networkinput.py:15-39 `NetworkInput.__init__`. -/
def createInput (env : CreateEnv S) (d : ArchDict) : Except Err (Created S) :=
  match strOption d "type".toList with
  | .error e => .error e
  | .ok type =>
    if type = "word".toList then
      match strOption d "name".toList, activationOption d with
      | .ok name, .ok _ => .ok ⟨name, env.numWords, .wordInput⟩
      | .error e, _ => .error e
      | _, .error e => .error e
    else if type = "class".toList then
      match strOption d "name".toList, activationOption d with
      | .ok name, .ok _ => .ok ⟨name, env.numClasses, .classInput⟩
      | .error e, _ => .error e
      | _, .error e => .error e
    else .error .valueError                                                                                 -- 31-33

/-- network.py:190-192. -/
def createInputs (env : CreateEnv S) : List ArchDict → List (Created S) → Except Err (List (Created S))
  | [], layers => .ok layers
  | d :: rest, layers =>
    match createInput env d with
    | .error e => .error e
    | .ok c =>
      match addLayer layers c with
      | .error e => .error e
      | .ok layers' => createInputs env rest layers'

/-- network.py:193-203. -/
def createLayers (env : CreateEnv S) (outputLayer : ArchVal) : List ArchDict → List (Created S) → Except Err (List (Created S))
  | [], layers => .ok layers
  | d :: rest, layers =>
    match layerOptions env outputLayer layers d with
    | .error e => .error e
    | .ok o =>
      match createLayer env o with
      | .error e => .error e
      | .ok c =>
        match addLayer layers c with
        | .error e => .error e
        | .ok layers' => createLayers env outputLayer rest layers'

/-- network.py:187-204: the layers of a network. -/
def createNetwork (env : CreateEnv S) (a : Architecture) : Except Err (CreatedNetwork S) :=
  match createInputs env a.inputs [] with
  | .error e => .error e
  | .ok inputs =>
    match createLayers env a.outputLayer a.layers inputs with
    | .error e => .error e
    | .ok layers =>
      match layers.findIdx? (fun c => ArchVal.str c.name = a.outputLayer) with                              -- 204
      | none => .error .keyError
      | some i => .ok ⟨layers, i⟩

end

end TheanoLM
