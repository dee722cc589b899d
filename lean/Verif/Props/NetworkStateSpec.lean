import Verif.Model.NetworkState
import Mathlib.Data.List.Forall2
/-!
# Specification of networks that differ only in the values of their parameters
-/
namespace TheanoLM

section
variable {S : Type}

/-- Two vectors of the same size. -/
def SameVector (v v' : List S) : Prop := v.length = v'.length

/-- Two matrices (lists of columns) of the same shape. -/
def SameMatrix (w w' : List (List S)) : Prop := w.length = w'.length ∧ ∃ rows, ∀ c ∈ w ++ w', c.length = rows

/-- Two three-dimensional arrays (lists of matrices) of the same shape. -/
def SameTensor (w w' : List (List (List S))) : Prop :=
  w.length = w'.length ∧ ∃ m n, ∀ x ∈ w ++ w', x.length = m ∧ ∀ c ∈ x, c.length = n

/-- The same parameters, with values of the same shape. -/
def SameParams {α : Type} (same : List α → List α → Prop) (d d' : ParamDict α) : Prop :=
  List.Forall₂ (fun e e' => e.1 = e'.1 ∧ same e.2 e'.2) d d'

/-- The same options, and the same parameters with values of the same shape. -/
structure SameBasic (b b' : Basic S) : Prop where
  inputs : b.inputs = b'.inputs
  devices : b.devices = b'.devices
  size : b.size = b'.size
  activation : b.activation = b'.activation
  weights : SameParams SameMatrix b.weights b'.weights
  biases : SameParams SameVector b.biases b'.biases

/-- Two layers of the same type and options that differ only in the values of the parameters. -/
inductive SameLayer : Layer S → Layer S → Prop
  | wordInput : SameLayer .wordInput .wordInput
  | classInput : SameLayer .classInput .classInput
  | projection {b b'} : SameBasic b b' → SameLayer (.projection b) (.projection b')
  | fullyConnected {b b'} : SameBasic b b' → SameLayer (.fullyConnected b) (.fullyConnected b')
  | addition {b b' sizes} : SameBasic b b' → SameLayer (.addition b sizes) (.addition b' sizes)
  | recurrent {kind b b'} : SameBasic b b' → SameLayer (.recurrent kind b) (.recurrent kind b')
  | bidirectional {kind f f' b b'} : SameBasic f f' → SameBasic b b' → SameLayer (.bidirectional kind f b) (.bidirectional kind f' b')
  | highway {b b'} : SameBasic b b' → SameLayer (.highway b) (.highway b')
  | glu {b b' filterSize inputSize filters filters'} : SameBasic b b' → SameParams SameTensor filters filters' →
      SameLayer (.glu b filterSize inputSize filters) (.glu b' filterSize inputSize filters')
  | dropout {b b' scale} : SameBasic b b' → SameLayer (.dropout b scale) (.dropout b' scale)
  | softmax {b b' unk} : SameBasic b b' → SameLayer (.softmax b unk) (.softmax b' unk)
  | hsoftmax {b b' level1 level2 weights weights' biases biases'} : SameBasic b b' → SameTensor weights weights' →
      SameMatrix biases biases' → SameLayer (.hsoftmax b level1 level2 weights biases) (.hsoftmax b' level1 level2 weights' biases')

/-- Two networks that differ only in the values of the parameters. -/
def SameNetwork (layers layers' : List (Created S)) : Prop :=
  List.Forall₂ (fun c c' => c.name = c'.name ∧ c.size = c'.size ∧ SameLayer c.layer c'.layer) layers layers'

/-- The same vocabulary and the same default device; only the random initial values and the use of class probabilities may differ. -/
structure SameEnv (env env' : CreateEnv S) : Prop where
  numWords : env.numWords = env'.numWords
  numClasses : env.numClasses = env'.numClasses
  unkClass : env.unkClass = env'.unkClass
  defaultDevice : env.defaultDevice = env'.defaultDevice
  parseInt : env.parseInt = env'.parseInt
  parseFloat : env.parseFloat = env'.parseFloat
  rateLimit : env.rateLimit = env'.rateLimit
  defaultRate : env.defaultRate = env'.defaultRate

/-- The devices where the parameters of a layer are. -/
def Layer.devices : Layer S → List (Option Str)
  | .wordInput | .classInput => []
  | .projection b | .fullyConnected b | .addition b _ | .recurrent _ b | .highway b | .glu b _ _ _ | .dropout b _ | .softmax b _
  | .hsoftmax b _ _ _ _ => b.devices
  | .bidirectional _ f b => f.devices ++ b.devices

/-- No name of a layer or a device contains a slash. -/
def NoSlash (layers : List (Created S)) : Prop :=
  ∀ c ∈ layers, '/' ∉ c.name ∧ ∀ device, some device ∈ c.layer.devices → '/' ∉ device

end

end TheanoLM
