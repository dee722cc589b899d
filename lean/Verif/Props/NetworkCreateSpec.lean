import Verif.Model.NetworkCreate
import Verif.Props.LayerSpec
/-!
# Specification of the creation of a network (C80)
-/
namespace TheanoLM

section
variable {S : Type} [Add S] [Mul S] [Sub S] [Div S] [Zero S] [One S]

/-- `m` weight vectors of length `n`. -/
def Shaped {α : Type} (W : List (List α)) (m n : Nat) : Prop := W.length = m ∧ ∀ w ∈ W, w.length = n

/-- The values of the option `type` that create such a layer. -/
def Layer.typeNames : Layer S → List String
  | .wordInput => ["word"]
  | .classInput => ["class"]
  | .projection _ => ["projection"]
  | .fullyConnected _ => ["fc", "tanh"]
  | .addition _ _ => ["add"]
  | .recurrent .lstm _ => ["lstm"]
  | .recurrent .gru _ => ["gru"]
  | .bidirectional .lstm _ _ => ["blstm"]
  | .bidirectional .gru _ _ => ["bgru"]
  | .highway _ => ["highway", "highwaytanh"]
  | .glu _ _ _ _ => ["glu"]
  | .dropout _ _ => ["dropout"]
  | .softmax _ _ => ["softmax"]
  | .hsoftmax _ _ _ _ _ => ["hsoftmax"]

/-- The layers that a layer consists of. -/
def Layer.basics : Layer S → List (Basic S)
  | .wordInput => []
  | .classInput => []
  | .projection b => [b]
  | .fullyConnected b => [b]
  | .addition b _ => [b]
  | .recurrent _ b => [b]
  | .bidirectional _ forward backward => [forward, backward]
  | .highway b => [b]
  | .glu b _ _ _ => [b]
  | .dropout b _ => [b]
  | .softmax b _ => [b]
  | .hsoftmax b _ _ _ _ => [b]

/-- The value of the option `activation`. -/
def Activation.optionName : Activation → String
  | .tanh => "tanh"
  | .relu => "relu"
  | .leakyrelu => "leakyrelu"

/-- The initial biases of a recurrent layer of `n` units.  The LSTM input, forget, and output gates are biased by -1, 1, and -1. -/
def InitialBias (kind : CellKind) (n : Nat) (bias : List S) : Prop :=
  match kind with
  | .lstm => bias = List.replicate n (0 - 1) ++ List.replicate n 1 ++ List.replicate n (0 - 1) ++ List.replicate n 0
  | .gru => bias = List.replicate (3 * n) 0

/-- The parameters of a recurrent layer of `n` units whose input has `m` features. -/
def RecurrentShapes (kind : CellKind) (b : Basic S) (m n : Nat) : Prop :=
  b.size = n ∧ ∃ W bias U, RecurrentParams kind b W bias U ∧ Shaped W (kind.parts * n) m ∧ Shaped U (kind.parts * n) n ∧
    InitialBias kind n bias

/-- The parameters of a layer have the shapes that its output size and the sizes `ins` of its inputs require, and the biases have their
initial values; `prior` is the bias computed from the prior probabilities of the classes. -/
def ParamShapes (prior : Option (List S)) (ins : List Nat) (c : Created S) : Prop :=
  match c.layer with
  | .wordInput => True
  | .classInput => True
  | .projection b => b.size = c.size ∧ ∃ W, HasProjection b W ∧ Shaped W c.size ins.sum
  | .fullyConnected b => b.size = c.size ∧ ∃ W, HasAffine b "input".toList W (List.replicate c.size 0) ∧ Shaped W c.size ins.sum
  | .addition b sizes => b.size = c.size ∧ sizes = ins ∧ ∀ (i n : Nat), ins[i]? = some n → n ≠ c.size →
      ∃ W, HasWeights b ("input".toList ++ (toString i).toList) W ∧ Shaped W c.size n
  | .recurrent kind b => RecurrentShapes kind b ins.sum c.size
  | .bidirectional kind f b => ∃ m n, m + n = c.size ∧ (m = n ∨ m = n + 1) ∧ RecurrentShapes kind f ins.sum m ∧
      RecurrentShapes kind b ins.sum n ∧ b.inputs = f.inputs
  | .highway b => b.size = c.size ∧ ins.sum = c.size ∧ ∃ W, Shaped W (2 * c.size) c.size ∧
      HasAffine b "input".toList W (List.replicate c.size 0 ++ List.replicate c.size (0 - (1 + 1)))
  | .glu b filterSize inputSize filters => b.size = c.size ∧ ins = [inputSize] ∧
      (b.devices = [none] → ∃ F, HasFilters b filters F (List.replicate (2 * c.size) 0) ∧ F.length = 2 * c.size ∧
        ∀ f ∈ F, Shaped f filterSize inputSize)
  | .dropout b _ => b.size = c.size ∧ ins.sum = c.size
  | .softmax b _ => b.size = c.size ∧ ∃ W, HasAffine b "input".toList W (prior.getD (List.replicate c.size 0)) ∧ Shaped W c.size ins.sum
  | .hsoftmax b l1 l2 ws bs => b.size = c.size ∧ hsoftmaxLevels 1 c.size = .ok (l1, l2) ∧ ws.length = l1 ∧
      (∀ w ∈ ws, Shaped w l2 ins.sum) ∧ bs = List.replicate l1 (List.replicate l2 0) ∧
      ∃ W, HasAffine b "input".toList W (List.replicate l1 0) ∧ Shaped W l1 ins.sum

/-- The parameters of a layer have the shapes that its output size and the sizes `ins` of its inputs require, whatever their values
are. -/
def LayerShapes (ins : List Nat) (c : Created S) : Prop :=
  match c.layer with
  | .wordInput => True
  | .classInput => True
  | .projection b => b.size = c.size ∧ ∃ W, HasProjection b W ∧ Shaped W c.size ins.sum
  | .fullyConnected b => b.size = c.size ∧ ∃ W bias, HasAffine b "input".toList W bias ∧ Shaped W c.size ins.sum
  | .addition b sizes => b.size = c.size ∧ sizes = ins ∧ ∀ (i n : Nat), ins[i]? = some n → n ≠ c.size →
      ∃ W, HasWeights b ("input".toList ++ (toString i).toList) W ∧ Shaped W c.size n
  | .recurrent kind b => b.size = c.size ∧ ∃ W bias U, RecurrentParams kind b W bias U
  | .bidirectional kind f b => f.size + b.size = c.size ∧ b.inputs = f.inputs ∧ (∃ W bias U, RecurrentParams kind f W bias U) ∧
      ∃ W bias U, RecurrentParams kind b W bias U
  | .highway b => b.size = c.size ∧ ins.sum = c.size ∧ ∃ W bias, Shaped W (2 * c.size) c.size ∧ HasAffine b "input".toList W bias
  | .glu b _ inputSize filters => b.size = c.size ∧ ins = [inputSize] ∧
      (b.devices = [none] → ∃ F bias, HasFilters b filters F bias ∧ F.length = 2 * c.size ∧ bias.length = 2 * c.size)
  | .dropout b _ => b.size = c.size ∧ ins.sum = c.size
  | .softmax b _ => b.size = c.size ∧ ∃ W bias, HasAffine b "input".toList W bias ∧ Shaped W c.size ins.sum
  | .hsoftmax b l1 l2 ws bs => b.size = c.size ∧ hsoftmaxLevels 1 c.size = .ok (l1, l2) ∧ ws.length = l1 ∧
      (∀ w ∈ ws, w.length = l2) ∧ bs.length = l1 ∧ (∀ v ∈ bs, v.length = l2) ∧
      ∃ W bias, HasAffine b "input".toList W bias ∧ W.length = l1

/-- The sizes of the input layers of a layer. -/
def inputSizesOf (layers : List (Created S)) (c : Created S) : List Nat :=
  c.layer.inputs.map fun i => (layers[i]?.map Created.size).getD 0

/-- Layer number `k` of the network is what the description `d` says. -/
structure Described [Min S] (env : CreateEnv S) (outputLayer : ArchVal) (layers : List (Created S)) (k : Nat) (d : ArchDict) (c : Created S) :
    Prop where
  name : dictGet? d "name".toList = some (.one (.str c.name))
  type : ∃ s ∈ c.layer.typeNames, dictGet? d "type".toList = some (.one (.str s.toList))
  /-- the inputs are the earlier layers with the given names -/
  inputs : ∀ names : List Str, dictGet? d "inputs".toList = some (.many (names.map .str)) →
    List.Forall₂ (fun name i => i < k ∧ (layers[i]?.map Created.name) = some name) names c.layer.inputs
  /-- the output layer has the size of the number of classes -/
  outputSize : ArchVal.str c.name = outputLayer → c.size = env.numClasses
  givenSize : ∀ z : ℤ, ArchVal.str c.name ≠ outputLayer → dictGet? d "size".toList = some (.one (.int z)) → (c.size : ℤ) = z
  /-- by default the size is the total size of the inputs; in an addition layer, the size of the first input -/
  defaultSize : ArchVal.str c.name ≠ outputLayer → dictGet? d "size".toList = none → ¬ (∃ b s, c.layer = .addition b s) →
    c.size = (inputSizesOf layers c).sum
  additionSize : ∀ b s, ArchVal.str c.name ≠ outputLayer → dictGet? d "size".toList = none → c.layer = .addition b s →
    (inputSizesOf layers c).head? = some c.size
  activation : ∀ b ∈ c.layer.basics, dictGet? d "activation".toList = some (.one (.str b.activation.optionName.toList)) ∨
    dictGet? d "activation".toList = none ∧ b.activation = .tanh
  /-- the devices are the given ones, or the default device -/
  devices : ∀ names : List Str, dictGet? d "devices".toList = some (.many (names.map .str)) →
    ∀ b ∈ c.layer.basics, b.devices = if names = [] then [env.defaultDevice] else names.map some
  /-- when a fraction of the features is dropped, the rest are scaled to keep the expectation -/
  dropout : ∀ b scale, c.layer = .dropout b scale →
    (dictGet? d "dropout_rate".toList = none → scale = 1 / (1 - env.defaultRate)) ∧
    ∀ v rate, dictGet? d "dropout_rate".toList = some (.one v) → env.parseFloat v = some rate →
      scale = 1 / (1 - min env.rateLimit rate)
  /-- by default the convolution filters have the length of five time steps -/
  filter : ∀ b length inputSize filters, c.layer = .glu b length inputSize filters →
    (dictGet? d "filter_size".toList = none → length = 5) ∧
    ∀ z : ℤ, dictGet? d "filter_size".toList = some (.one (.int z)) → (length : ℤ) = z
  unk : ∀ b unk, c.layer = .softmax b unk → unk = env.unkClass

/-- A network input is what the description `d` says. -/
structure DescribedInput (env : CreateEnv S) (d : ArchDict) (c : Created S) : Prop where
  name : dictGet? d "name".toList = some (.one (.str c.name))
  type : (dictGet? d "type".toList = some (.one (.str "word".toList)) ∧ c.layer = .wordInput ∧ c.size = env.numWords) ∨
    (dictGet? d "type".toList = some (.one (.str "class".toList)) ∧ c.layer = .classInput ∧ c.size = env.numClasses)

/-- Network inputs produce word or class IDs. -/
def Layer.IsInput : Layer S → Prop
  | .wordInput => True
  | .classInput => True
  | _ => False

/-- Output layers produce probabilities. -/
def Layer.IsOutput : Layer S → Prop
  | .softmax _ _ => True
  | .hsoftmax _ _ _ _ _ => True
  | _ => False

/-- There is at least one input, and the inputs are layers that produce features. -/
def FeatureInputs (layers : List (Created S)) (inputs : List Nat) : Prop :=
  inputs ≠ [] ∧ ∀ i ∈ inputs, ∃ c, layers[i]? = some c ∧ ¬ c.layer.IsInput ∧ ¬ c.layer.IsOutput

/-- The layer can process the output of its inputs: the only input of a projection layer is a network input, the inputs of the other
layers produce features, and the filter size of a convolution layer is positive. -/
def Connected (layers : List (Created S)) (c : Created S) : Prop :=
  match c.layer with
  | .wordInput => True
  | .classInput => True
  | .projection b => ∃ i c', b.inputs = [i] ∧ layers[i]? = some c' ∧ c'.layer.IsInput
  | .glu b filterSize _ _ => FeatureInputs layers b.inputs ∧ 0 < filterSize
  | layer => FeatureInputs layers layer.inputs

/-- The layer supports the devices it has been assigned to: a convolution or a hierarchical softmax layer, or a softmax layer on one
device, has not been assigned to a specific device. -/
def Placed (c : Created S) : Prop :=
  match c.layer with
  | .glu b _ _ _ => b.devices = [none]
  | .softmax b _ => b.devices.length = 1 → b.devices = [none]
  | .hsoftmax b _ _ _ _ => b.devices = [none]
  | _ => True

/-- The output of the layer in one position: an ID of a network input, as many features as is the output size of the layer, or as many
probabilities as is the output size of an output layer. -/
def Produces (c : Created S) : Elem S → Prop
  | .id n => c.layer.IsInput ∧ n < c.size
  | .vec x => ¬ c.layer.IsInput ∧ ¬ c.layer.IsOutput ∧ x.length = c.size
  | .probs p => c.layer.IsOutput ∧ p.length = c.size

/-- The IDs in a mini-batch are IDs of words in the shortlist and classes. -/
def ValidBatch (env : CreateEnv S) (batch : List (List InputCell)) : Prop :=
  ∀ t s c, posAt batch t s = some c → c.word < env.numWords ∧ c.cls < env.numClasses

end

end TheanoLM
