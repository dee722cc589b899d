import Verif.Model.NetworkCreate
import Verif.Model.Parameters
/-!
# Model of saving a network to a file, and of loading it

theanolm/network/network.py (`get_state`, `set_state`, `from_file`), basiclayer.py:84-103, bidirectionallayer.py:72-93.

The arrays are lists of slices in the model of the network (see Model/Devices.lean).  Here they are converted to a shape and a list of
elements.  The order of the elements is such that the last axis is the slowest to change; the order in an actual file cannot be
observed by the program.  The weights of a layer are written before its biases: in the program they are in the order of creation.
-/
namespace TheanoLM

section
variable {S : Type} [Add S] [Mul S] [Sub S] [Div S] [Zero S] [One S] [Min S]

/-- A vector. -/
def encVector (v : List S) : Arr S := ⟨[v.length], v⟩
def decVector (a : Arr S) : List S := a.data

/-- A matrix, given as a list of columns. -/
def encMatrix (w : List (List S)) : Arr S := ⟨[(w.headD []).length, w.length], w.flatten⟩
def decMatrix (a : Arr S) : List (List S) := reshape2 (a.shape.getD 0 0) (a.shape.getD 1 0) a.data

/-- A tensor with three axes, given as the list of matrices that are selected by the last axis. -/
def encTensor (w : List (List (List S))) : Arr S :=
  ⟨[(w.headD []).length, ((w.headD []).headD []).length, w.length], w.flatten.flatten⟩
def decTensor (a : Arr S) : List (List (List S)) :=
  reshape2 (a.shape.getD 0 0) (a.shape.getD 2 0) (reshape2 (a.shape.getD 1 0) (a.shape.getD 0 0 * a.shape.getD 2 0) a.data)

/-- The weights of the second level of a hierarchical softmax layer: the axes are the branch, the input and the output; given as a list
of lists of columns. -/
def encLevel (w : List (List (List S))) : Arr S :=
  ⟨[w.length, ((w.headD []).headD []).length, (w.headD []).length], w.flatten.flatten⟩
def decLevel (a : Arr S) : List (List (List S)) :=
  reshape2 (a.shape.getD 2 0) (a.shape.getD 0 0) (reshape2 (a.shape.getD 1 0) (a.shape.getD 0 0 * a.shape.getD 2 0) a.data)

/-- The parameters of a layer with their paths in the file (basiclayer.py:145 `_param_path`). -/
def dictParams {α : Type} (enc : List α → Arr S) (layer : Str) (d : ParamDict α) : List (Str × Arr S) :=
  d.map fun e => ("layers/".toList ++ layer ++ '/' :: e.1, enc e.2)

def Basic.params (layer : Str) (b : Basic S) : List (Str × Arr S) :=
  dictParams encMatrix layer b.weights ++ dictParams encVector layer b.biases

/-- The parameters of the second level of a hierarchical softmax layer are on the same device as those of the first level
(hsoftmaxlayer.py:50-53). -/
def levelPath (b : Basic S) (name : Str) : Str := paramPath name (b.devices.headD none)

/-- basiclayer.py:84-94 `get_state`, bidirectionallayer.py:72-83 `get_state`: what is written. -/
def Layer.params (name : Str) : Layer S → List (Str × Arr S)
  | .wordInput => []
  | .classInput => []
  | .projection b => b.params name
  | .fullyConnected b => b.params name
  | .addition b _ => b.params name
  | .recurrent _ b => b.params name
  | .bidirectional _ forward backward =>
    forward.params (name ++ "/forward".toList) ++ backward.params (name ++ "/backward".toList)
  | .highway b => b.params name
  | .glu b _ _ filters => dictParams encTensor name filters ++ b.params name
  | .dropout b _ => b.params name
  | .softmax b _ => b.params name
  | .hsoftmax b _ _ weights biases =>
    b.params name ++ dictParams encLevel name [(levelPath b "level1/W".toList, weights)] ++
      dictParams encMatrix name [(levelPath b "level1/b".toList, biases)]

/-- network.py:364-377 `get_state`, the layers. -/
def saveLayers : List (Created S) → List (Str × Arr S) → Except Err (List (Str × Arr S))
  | [], file => .ok file
  | c :: rest, file =>
    match saveParams (c.layer.params c.name) file with
    | .error e => .error e
    | .ok file' => saveLayers rest file'

/-- basiclayer.py:96-103 `set_state`: the parameters in a dictionary. -/
def restoreDict {α : Type} (enc : List α → Arr S) (dec : Arr S → List α) (file : List (Str × Arr S)) (layer : Str) (d : ParamDict α) :
    Except Err (ParamDict α) :=
  mapE (fun e => match restoreParam file ("layers/".toList ++ layer ++ '/' :: e.1, enc e.2) with
    | .error err => .error err
    | .ok r => .ok (e.1, dec r.2)) d

def Basic.restore (file : List (Str × Arr S)) (layer : Str) (b : Basic S) : Except Err (Basic S) :=
  match restoreDict encMatrix decMatrix file layer b.weights with
  | .error e => .error e
  | .ok weights =>
    match restoreDict encVector decVector file layer b.biases with
    | .error e => .error e
    | .ok biases => .ok ⟨b.inputs, b.devices, b.size, b.activation, weights, biases⟩

/-- A layer whose parameters are all in `Basic`. -/
def restoreSimple (file : List (Str × Arr S)) (layer : Str) (b : Basic S) (make : Basic S → Layer S) : Except Err (Layer S) :=
  match b.restore file layer with
  | .error e => .error e
  | .ok b => .ok (make b)

/-- The second level of a hierarchical softmax layer. -/
def restoreLevels (file : List (Str × Arr S)) (layer : Str) (b : Basic S) (weights : List (List (List S))) (biases : List (List S)) :
    Except Err (List (List (List S)) × List (List S)) :=
  match restoreDict encLevel decLevel file layer [(levelPath b "level1/W".toList, weights)] with
  | .error e => .error e
  | .ok w =>
    match restoreDict encMatrix decMatrix file layer [(levelPath b "level1/b".toList, biases)] with
    | .error e => .error e
    | .ok b => .ok ((w.map Prod.snd).headD [], (b.map Prod.snd).headD [])

/-- basiclayer.py:96-103 `set_state`, bidirectionallayer.py:85-93 `set_state`. -/
def Layer.restore (file : List (Str × Arr S)) (name : Str) : Layer S → Except Err (Layer S)
  | .wordInput => .ok .wordInput
  | .classInput => .ok .classInput
  | .projection b => restoreSimple file name b .projection
  | .fullyConnected b => restoreSimple file name b .fullyConnected
  | .addition b sizes => restoreSimple file name b fun b => .addition b sizes
  | .recurrent kind b => restoreSimple file name b (.recurrent kind)
  | .bidirectional kind forward backward =>
    match forward.restore file (name ++ "/forward".toList) with
    | .error e => .error e
    | .ok forward => restoreSimple file (name ++ "/backward".toList) backward (.bidirectional kind forward)
  | .highway b => restoreSimple file name b .highway
  | .glu b filterSize inputSize filters =>
    match restoreDict encTensor decTensor file name filters with
    | .error e => .error e
    | .ok filters => restoreSimple file name b fun b => .glu b filterSize inputSize filters
  | .dropout b scale => restoreSimple file name b fun b => .dropout b scale
  | .softmax b unk => restoreSimple file name b fun b => .softmax b unk
  | .hsoftmax b level1 level2 weights biases =>
    match restoreLevels file name b weights biases with
    | .error e => .error e
    | .ok (weights, biases) => restoreSimple file name b fun b => .hsoftmax b level1 level2 weights biases

/-- One layer. -/
def Created.restore (file : List (Str × Arr S)) (c : Created S) : Except Err (Created S) :=
  match c.layer.restore file c.name with
  | .error e => .error e
  | .ok layer => .ok ⟨c.name, c.size, layer⟩

/-- network.py:389-390 `set_state`, the layers. -/
def restoreLayers (file : List (Str × Arr S)) (layers : List (Created S)) : Except Err (List (Created S)) :=
  mapE (Created.restore file) layers

/-- networkinput.py:36-38: the constructor of a network input changes the description, which is written to the file. -/
def describedInput (env : CreateEnv S) (d : ArchDict) : ArchDict :=
  let size := if dictGet? d "type".toList = some (.one (.str "class".toList)) then env.numClasses else env.numWords
  dictSet (dictSet (dictSet d "size".toList (.one (.int size))) "input_layers".toList (.many [])) "devices".toList (.many [])

/-- The architecture of a network after it has been created. -/
def createdArchitecture (env : CreateEnv S) (a : Architecture) : Architecture := ⟨a.inputs.map (describedInput env), a.layers, a.outputLayer⟩

/-- The part of a model file that describes the network: the parameters and the architecture. -/
structure NetworkFile (S : Type) where
  params : List (Str × Arr S)
  arch : Option H5Arch

/-- network.py:364-377 `get_state`. -/
def saveNetwork (a : Architecture) (layers : List (Created S)) (file : NetworkFile S) : Except Err (NetworkFile S) :=
  match saveLayers layers file.params with
  | .error e => .error e
  | .ok params => .ok ⟨params, some (a.getState file.arch)⟩

/-- network.py:279-294 `from_file`: `env` describes the vocabulary of the file (and the random initial parameters). -/
def loadNetwork (env : CreateEnv S) (file : NetworkFile S) : Except Err (CreatedNetwork S) :=
  match Architecture.fromState file.arch with                                                 -- 289
  | .error e => .error e
  | .ok a =>
    match createNetwork env a with                                                            -- 290-291
    | .error e => .error e
    | .ok net =>
      match restoreLayers file.params net.layers with                                         -- 389-390
      | .error e => .error e
      | .ok layers =>
        match (createdArchitecture env a).checkState file.arch with                           -- 392-397
        | .error e => .error e
        | .ok () => .ok ⟨layers, net.output⟩

/-- gpu.py:10-74 `get_default_device`.  `contexts` are the names of the Theano contexts, or `none` if they cannot be listed. -/
def defaultDevice (contexts : Option (List (Option Str))) (requested : Option Str) : Except Err (Option Str) :=
  match contexts with
  | some names =>
    match requested with
    | none =>
      if none ∈ names then .ok none                                                           -- 45-46
      else .ok (names.headD none)                                                             -- 47-54
    | some device => if some device ∈ names then .ok (some device) else .error .valueError    -- 55-61
  | none =>
    match requested with
    | none => .ok none                                                                        -- 65-68
    | some device => if device = "cpu".toList then .ok (some device) else .error .valueError  -- 69-74

end

end TheanoLM
