import Verif.Model.Devices
import Verif.Model.RecurrentState
/-!
# Model of the neural network (theanolm/network)

What Theano computes from the symbolic graph of a network is modelled as a function of the inputs and the parameters.

* Numbers are elements of an arbitrary type `S` (the reals, when real arithmetic is needed), and the elementary functions are given
  as a record `Act`.  Rounding is not modelled.
* A mini-batch is a list of time steps, each of which is a list of sequences.  Theano's matrix operations are written row by row:
  an elementwise operation on matrices whose rows are sequences is done for each sequence, and `mask[:, None]` selects the rows.
* The outputs of the layers that have been evaluated are kept for every position of the mini-batch, in the order of the layers.  A
  layer refers to its inputs by the positions of the layers in that order (`Network._layer_options_from_description` resolves
  the names).
* The random numbers of dropout layers are a parameter.
-/
namespace TheanoLM

/-- The elementary functions of the backend. -/
structure Act (S : Type) where
  tanh : S → S
  sigmoid : S → S
  relu : S → S
  leakyRelu : S → S
  exp : S → S

/-- basiclayer.py:42-54 the activation functions. -/
inductive Activation where
  | tanh | relu | leakyrelu
  deriving DecidableEq

/-- The output of a layer in one position of the mini-batch: a word or class ID (`NetworkInput`), a feature vector, or the
probabilities of the classes (output layers, which do not have the attribute `output`). -/
inductive Elem (S : Type) where
  | id (n : Nat)
  | vec (x : List S)
  | probs (p : List S)
  deriving DecidableEq

/-- The input in one position of the mini-batch. -/
structure InputCell where
  word : Nat
  cls : Nat
  mask : Bool
  deriving DecidableEq

/-- A position of the mini-batch, and the outputs of the layers evaluated so far. -/
structure Entry (S : Type) where
  cell : InputCell
  outs : List (Elem S)
  deriving DecidableEq

/-- A position of the mini-batch, and the outputs of the input layers of the layer that is being evaluated. -/
abbrev Pos (S : Type) := InputCell × List (Option (Elem S))

/-- The attributes and the parameters of `BasicLayer`. -/
structure Basic (S : Type) where
  inputs : List Nat
  devices : List (Option Str)
  size : Nat
  activation : Activation
  weights : ParamDict (List S)
  biases : ParamDict S

inductive CellKind where
  | lstm | gru
  deriving DecidableEq

/-- The layers (network.py:36-67 `create_layer`). -/
inductive Layer (S : Type) where
  | wordInput
  | classInput
  | projection (b : Basic S)
  | fullyConnected (b : Basic S)
  | addition (b : Basic S) (inputSizes : List Nat)
  | recurrent (kind : CellKind) (b : Basic S)
  | bidirectional (kind : CellKind) (forward backward : Basic S)
  | highway (b : Basic S)
  | glu (b : Basic S) (filterSize inputSize : Nat) (filters : ParamDict (List (List S)))
  | dropout (b : Basic S) (scale : S)
  | softmax (b : Basic S) (unkClass : Nat)
  | hsoftmax (b : Basic S) (level1Size level2Size : Nat) (level1Weights : List (List (List S))) (level1Biases : List (List S))

/-- Options of the evaluation: whether the network is training (`is_training`), whether `<unk>` is excluded, and for a dropout layer
(by its number in the network), time step, and sequence, which features are kept. -/
structure EvalOptions where
  training : Bool
  excludeUnk : Bool
  keep : Nat → Nat → Nat → List Bool

section
variable {S : Type} [Add S] [Mul S] [Sub S] [Div S] [Zero S] [One S]

/-- The positions of the input layers of a layer. -/
def Layer.inputs : Layer S → List Nat
  | .wordInput => []
  | .classInput => []
  | .projection b => b.inputs
  | .fullyConnected b => b.inputs
  | .addition b _ => b.inputs
  | .recurrent _ b => b.inputs
  | .bidirectional _ forward _ => forward.inputs
  | .highway b => b.inputs
  | .glu b _ _ _ => b.inputs
  | .dropout b _ => b.inputs
  | .softmax b _ => b.inputs
  | .hsoftmax b _ _ _ _ => b.inputs

def applyActivation (act : Act S) : Activation → S → S
  | .tanh => act.tanh
  | .relu => act.relu
  | .leakyrelu => act.leakyRelu

/-- `x.output` of an input layer that should be a 3-dimensional tensor. -/
def elemVec : Option (Elem S) → Except Err (List S)
  | some (.vec x) => .ok x
  | some (.id _) => .error .typeError        -- the output of a network input has two dimensions
  | some (.probs _) => .error .attributeError
  | none => .error .inputError               -- network.py:533-538

/-- `tensor.concatenate([x.output for x in self._input_layers], axis=2)`. -/
def concatInputs (ins : List (Option (Elem S))) : Except Err (List S) :=
  match ins with
  | [] => .error .valueError
  | _ =>
    match mapE elemVec ins with
    | .error e => .error e
    | .ok xs => .ok xs.flatten

/-- weightfunctions.py:105-133 `get_submatrix`, for one row. -/
def submatrix (x : List S) (index size : Nat) (endIndex : Option Nat := none) : List S :=
  (x.take ((endIndex.getD index + 1) * size)).drop (index * size)

def vadd (x y : List S) : List S := List.zipWith (· + ·) x y
def vmul (x y : List S) : List S := List.zipWith (· * ·) x y
def oneMinus (x : List S) : List S := x.map (fun v => 1 - v)

/-- The input of a layer in one position, transformed by the weights and the bias of the layer. -/
def inputPreact (b : Basic S) (name : Str) (ins : List (Option (Elem S))) : Except Err (List S) :=
  match concatInputs ins with
  | .error e => .error e
  | .ok x => tensorPreact b.devices b.weights b.biases name true x

/-! ## Layers whose output in one position depends on their input in that position -/

/-- networkinput.py:41-54. -/
def inputElem (classes : Bool) (c : InputCell) : Elem S := .id (if classes then c.cls else c.word)

/-- An element of a vector by index: `IndexError` if out of range. -/
def indexE (column : List S) (n : Nat) : Except Err S :=
  match column[n]? with
  | some v => .ok v
  | none => .error .indexError

/-- projectionlayer.py:53: a row of the part of the projection matrix on one device. -/
def projectDevice (b : Basic S) (n : Nat) (device : Option Str) : Except Err (List S) :=
  match getParam "W".toList device b.weights with
  | .error e => .error e
  | .ok columns => mapE (fun column => indexE column n) columns

/-- projectionlayer.py:31-58. -/
def projectionElem (b : Basic S) (ins : List (Option (Elem S))) : Except Err (Elem S) :=
  match ins with
  | [some (.id n)] =>
    match mapE (projectDevice b n) b.devices with
    | .error e => .error e
    | .ok rows => .ok (.vec rows.flatten)
  | [some (.vec _)] => .error .typeError
  | [some (.probs _)] => .error .attributeError
  | [none] => .error .inputError
  | _ => .error .assertion                                                                    -- 42

/-- fullyconnectedlayer.py:30-40. -/
def fullyConnectedElem (act : Act S) (b : Basic S) (ins : List (Option (Elem S))) : Except Err (Elem S) :=
  match inputPreact b "input".toList ins with
  | .error e => .error e
  | .ok preact => .ok (.vec (preact.map (applyActivation act b.activation)))

/-- additionlayer.py:52-64, the rest of the loop: `index` is the number of the next input, `output` the sum so far. -/
def additionLoop (b : Basic S) : Nat → List (Option (Elem S) × Nat) → Option (List S) → Except Err (Option (List S))
  | _, [], output => .ok output
  | index, (e, inputSize) :: rest, output =>
    match elemVec e with
    | .error e => .error e
    | .ok x =>
      match (if inputSize = b.size then .ok x                                                 -- 54-55
             else tensorPreact b.devices b.weights b.biases ("input".toList ++ (toString index).toList) false x) with
      | .error e => .error e
      | .ok y =>
        match output with
        | none => additionLoop b (index + 1) rest (some y)                                    -- 61-62
        | some sum => additionLoop b (index + 1) rest (some (vadd sum y))                     -- 64

/-- additionlayer.py:43-64. -/
def additionElem (b : Basic S) (inputSizes : List Nat) (ins : List (Option (Elem S))) : Except Err (Elem S) :=
  match additionLoop b 0 (ins.zip inputSizes) none with
  | .error e => .error e
  | .ok none => .error .attributeError
  | .ok (some y) => .ok (.vec y)

/-- highwaylayer.py:42-55. -/
def highwayElem (act : Act S) (b : Basic S) (ins : List (Option (Elem S))) : Except Err (Elem S) :=
  match concatInputs ins with
  | .error e => .error e
  | .ok x =>
    match tensorPreact b.devices b.weights b.biases "input".toList true x with
    | .error e => .error e
    | .ok preact =>
      let h := (submatrix preact 0 b.size).map (applyActivation act b.activation)             -- 53
      let t := (submatrix preact 1 b.size).map act.sigmoid                                    -- 54
      .ok (.vec (vadd (vmul h t) (vmul x (oneMinus t))))                                      -- 55

/-- dropoutlayer.py:50-72, with `keep` for the comparisons `sample < pass_rate`. -/
def dropoutElem (training : Bool) (scale : S) (keep : List Bool) (ins : List (Option (Elem S))) : Except Err (Elem S) :=
  match concatInputs ins with
  | .error e => .error e
  | .ok x =>
    if training then .ok (.vec (List.zipWith (fun v k => v * scale * (if k then 1 else 0)) x keep))
    else .ok (.vec x)

/-- `tensor.nnet.softmax` on one row, given the exponentials of the activations.  (Theano subtracts the maximum of the activations
before the exponentials, which changes only the rounding.) -/
def normalize (exps : List S) : List S := exps.map (· / exps.sum)

/-- softmaxlayer.py:75-79: the exponentials of the pre-activations.  The pre-activation of the class of `<unk>` is set to minus
infinity, whose exponential is zero, if `<unk>` is excluded. -/
def softmaxExps (act : Act S) (excludeUnk : Bool) (unkClass : Nat) (preact : List S) : List S :=
  preact.mapIdx fun i v => if excludeUnk && i == unkClass then 0 else act.exp v

/-- softmaxlayer.py:44-101, `output_probs`.  With at most one device also the pre-activations of the target classes are constructed,
from the parameters that are not on a named device. -/
def softmaxElem (act : Act S) (excludeUnk : Bool) (b : Basic S) (unkClass : Nat) (ins : List (Option (Elem S))) :
    Except Err (Elem S) :=
  match concatInputs ins with
  | .error e => .error e
  | .ok x =>
    match tensorPreact b.devices b.weights b.biases "input".toList true x with
    | .error e => .error e
    | .ok preact =>
      match (if b.devices.length > 1 then .ok []                                              -- 99
             else getParam "input/W".toList none b.weights) with                              -- samplingoutputlayer.py:172
      | .error e => .error e
      | .ok _ =>
        match (if b.devices.length > 1 then .ok []
               else getParam "input/b".toList none b.biases) with                             -- samplingoutputlayer.py:173
        | .error e => .error e
        | .ok _ => .ok (.probs (normalize (softmaxExps act excludeUnk unkClass preact)))

/-- Theano's `h_softmax(…, target=None)`: the probabilities of the first `outputSize` outputs, `classProbs` being the probabilities
on the first level. -/
def hierarchicalProbs (outputSize : Nat) (classProbs : List S) (outputProbs : List (List S)) : List S :=
  ((List.zipWith (fun p row => row.map (p * ·)) classProbs outputProbs).flatten).take outputSize

/-- The probabilities on the first level. -/
def level1Probs (act : Act S) (weight : List (List S)) (bias : List S) (x : List S) : List S :=
  normalize ((vadd (weight.map (dot x)) bias).map act.exp)

/-- The probabilities on the second level, given each branch on the first level. -/
def level2Probs (act : Act S) (weights : List (List (List S))) (biases : List (List S)) (x : List S) : List (List S) :=
  List.zipWith (fun weight bias => normalize ((vadd (weight.map (dot x)) bias).map act.exp)) weights biases

/-- hsoftmaxlayer.py:59-99, `output_probs`.  `level1Weights` contains a weight matrix for each branch on the first level.  The
parameters are read without the device (79-82). -/
def hsoftmaxElem (act : Act S) (b : Basic S) (level1Weights : List (List (List S))) (level1Biases : List (List S))
    (ins : List (Option (Elem S))) : Except Err (Elem S) :=
  match concatInputs ins with
  | .error e => .error e
  | .ok x =>
    match getParam "input/W".toList none b.weights with
    | .error e => .error e
    | .ok weight =>
      match getParam "input/b".toList none b.biases with
      | .error e => .error e
      | .ok bias =>
        .ok (.probs (hierarchicalProbs b.size (level1Probs act weight bias x) (level2Probs act level1Weights level1Biases x)))

/-- The output of a layer in one position, when it only depends on the input in that position; `none` for the other layers.
`layerIndex`, `time` and `seq` identify the random numbers. -/
def pointElem (act : Act S) (opts : EvalOptions) (layer : Layer S) (layerIndex time seq : Nat) (p : Pos S) :
    Option (Except Err (Elem S)) :=
  match layer with
  | .wordInput => some (.ok (inputElem false p.1))
  | .classInput => some (.ok (inputElem true p.1))
  | .projection b => some (projectionElem b p.2)
  | .fullyConnected b => some (fullyConnectedElem act b p.2)
  | .addition b inputSizes => some (additionElem b inputSizes p.2)
  | .highway b => some (highwayElem act b p.2)
  | .dropout _ scale => some (dropoutElem opts.training scale (opts.keep layerIndex time seq) p.2)
  | .softmax b unkClass => some (softmaxElem act opts.excludeUnk b unkClass p.2)
  | .hsoftmax b _ _ ws bs => some (hsoftmaxElem act b ws bs p.2)
  | .recurrent _ _ => none
  | .bidirectional _ _ _ => none
  | .glu _ _ _ _ => none

/-! ## Recurrent layers -/

/-- The state of a sequence in a recurrent layer: cell state (only in LSTM) and hidden state. -/
structure SeqState (S : Type) where
  c : List S
  h : List S
  deriving DecidableEq

/-- lstmlayer.py:146-208 `_create_time_step`, for one sequence. -/
def lstmStep (act : Act S) (b : Basic S) (hWeights : List (List S)) (mask : Bool) (xPreact : List S) (st : SeqState S) :
    SeqState S :=
  let preact := vadd (hWeights.map (dot st.h)) xPreact                                        -- 190-191
  let i := (submatrix preact 0 b.size).map act.sigmoid
  let f := (submatrix preact 1 b.size).map act.sigmoid
  let o := (submatrix preact 2 b.size).map act.sigmoid
  let candidate := (submatrix preact 3 b.size).map act.tanh                                   -- 199
  let c := vadd (vmul f st.c) (vmul i candidate)                                              -- 200
  let h := vmul o (c.map (applyActivation act b.activation))                                  -- 201
  ⟨if mask then c else st.c, if mask then h else st.h⟩                                        -- 205-206

/-- grulayer.py:130-193 `_create_time_step`, for one sequence. -/
def gruStep (act : Act S) (b : Basic S) (hWeights : List (List S)) (mask : Bool) (xPreact : List S) (st : SeqState S) :
    SeqState S :=
  let hPreact := hWeights.map (dot st.h)                                                      -- 170
  let gates := vadd (submatrix hPreact 0 b.size (some 1)) (submatrix xPreact 0 b.size (some 1))   -- 171-172
  let r := (submatrix gates 0 b.size).map act.sigmoid
  let u := (submatrix gates 1 b.size).map act.sigmoid
  let candidate := vadd (vmul (submatrix hPreact 2 b.size) r) (submatrix xPreact 2 b.size)    -- 181-183
  let h := vadd (vmul (oneMinus u) st.h) (vmul u (candidate.map act.tanh))                    -- 187
  ⟨[], if mask then h else st.h⟩                                                              -- 191

def cellStep (act : Act S) (kind : CellKind) (b : Basic S) (hWeights : List (List S)) (mask : Bool) (xPreact : List S)
    (st : SeqState S) : SeqState S :=
  match kind with
  | .lstm => lstmStep act b hWeights mask xPreact st
  | .gru => gruStep act b hWeights mask xPreact st

/-- The step of a recurrent layer for all the sequences. -/
def rowStep (act : Act S) (kind : CellKind) (b : Basic S) (hWeights : List (List S)) (row : List (Bool × List S))
    (sts : List (SeqState S)) : List (SeqState S) :=
  List.zipWith (fun x st => cellStep act kind b hWeights x.1 x.2 st) row sts

/-- `theano.scan`: the states after each of the steps. -/
def scan {α β : Type} (step : α → β → β) : β → List α → List β
  | _, [] => []
  | st, x :: xs => step x st :: scan step (step x st) xs

/-- lstmlayer.py:98-101, grulayer.py:93-94: `tensor.zeros`. -/
def zeroState (kind : CellKind) (size : Nat) : SeqState S :=
  ⟨match kind with | .lstm => List.replicate size 0 | .gru => [], List.replicate size 0⟩

/-- The mask and the input pre-activations of one time step. -/
def preactRow (b : Basic S) (row : List (Pos S)) : Except Err (List (Bool × List S)) :=
  mapE (fun p => match inputPreact b "layer_input".toList p.2 with
    | .error e => .error e
    | .ok x => .ok (p.1.mask, x)) row

/-- The number of sequences, `layer_input.shape[1]`. -/
def numSequences {α : Type} (g : List (List α)) : Nat := (g.headD []).length

/-- lstmlayer.py:82-89, grulayer.py:77-84: the pre-activations shifted left by two time steps, the last two being zero.  The zeros
have the shape of the pre-activations of a time step. -/
def shiftLeft (xs : List (List (List S))) : List (List (List S)) :=
  xs.drop 2 ++ List.replicate 2 ((xs.headD []).map fun x => List.replicate x.length 0)

/-- The mask of each time step with its pre-activation; `theano.scan` uses as many as there are time steps (`n_steps`), from the
end when going backwards. -/
def backwardRows (rows : List (List (Bool × List S))) : List (List (Bool × List S)) :=
  let masks := rows.map fun row => row.map Prod.fst
  let preacts := shiftLeft (rows.map fun row => row.map Prod.snd)
  List.zipWith (fun m x => m.zip x) masks.reverse preacts.reverse

/-- The output of the time steps of a recurrent layer: the hidden states. -/
def hiddenOutput (sts : List (SeqState S)) : List (Elem S) := sts.map fun st => .vec st.h

/-- lstmlayer.py:54-116, grulayer.py:49-109 `create_structure` when processing a mini-batch. -/
def recurrentLayer (act : Act S) (kind : CellKind) (b : Basic S) (reverseTime : Bool) (g : List (List (Pos S))) :
    Except Err (List (List (SeqState S))) :=
  match mapE (preactRow b) g with
  | .error e => .error e
  | .ok rows =>
    match getParam "step_input/W".toList none b.weights with
    | .error e => .error e
    | .ok hWeights =>
      let initial := List.replicate (numSequences g) (zeroState kind b.size)
      if reverseTime then .ok (scan (rowStep act kind b hWeights) initial (backwardRows rows)).reverse
      else .ok (scan (rowStep act kind b hWeights) initial rows)

/-! ## Convolution layer -/

/-- glulayer.py:65-83, the output of one time step given the input of the `filterSize` last time steps. -/
def gluElem (act : Act S) (b : Basic S) (filters : ParamDict (List (List S))) (region : List (List S)) : Except Err (Elem S) :=
  match tensorConv1d b.devices filters b.biases "input".toList region with
  | .error e => .error e
  | .ok preact =>
    .ok (.vec (vmul (submatrix preact 0 b.size) ((submatrix preact 1 b.size).map act.sigmoid)))   -- 80-83

/-- The windows of `k` successive elements: `conv1d` with 'valid' padding produces an output from each. -/
def windows {α : Type} (k : Nat) (xs : List α) : List (List α) :=
  (List.range (xs.length + 1 - k)).map fun t => (xs.drop t).take k

/-- The vectors of one sequence, given those of all sequences at each time step. -/
def column {α : Type} (seq : Nat) (xs : List (List α)) : List α := xs.filterMap fun row => row[seq]?

/-- The input of a convolution layer at one time step: it has just one input layer (glulayer.py:35, 65). -/
def gluInputRow (row : List (Pos S)) : Except Err (List (List S)) :=
  mapE (fun p => match p.2 with
    | [e] => elemVec e
    | _ => .error .assertion) row

/-- glulayer.py:52-83 `create_structure`. -/
def gluLayer (act : Act S) (b : Basic S) (filterSize inputSize : Nat) (filters : ParamDict (List (List S)))
    (g : List (List (Pos S))) : Except Err (List (List (Elem S))) :=
  if filterSize = 0 then .error .valueError      -- a negative padding size
  else
    match mapE gluInputRow g with
    | .error e => .error e
    | .ok xs =>
      let n := numSequences g
      let padding := List.replicate (filterSize - 1) (List.replicate n (List.replicate inputSize 0))   -- 73-74
      mapE (fun window => mapE (fun seq => gluElem act b filters (column seq window)) (List.range n))
        (windows filterSize (padding ++ xs))

/-! ## The network -/

/-- The inputs of a layer in the positions of one time step. -/
def gatherRow (inputs : List Nat) (row : List (Entry S)) : List (Pos S) :=
  row.map fun e => (e.cell, inputs.map fun k => e.outs[k]?)

def gather (inputs : List Nat) (table : List (List (Entry S))) : List (List (Pos S)) := table.map (gatherRow inputs)

/-- The output of a pointwise layer for the sequences of one time step, starting from sequence number `seq`. -/
def pointRow (f : Nat → Pos S → Except Err (Elem S)) : Nat → List (Pos S) → Except Err (List (Elem S))
  | _, [] => .ok []
  | seq, p :: row =>
    match f seq p with
    | .error e => .error e
    | .ok x =>
      match pointRow f (seq + 1) row with
      | .error e => .error e
      | .ok xs => .ok (x :: xs)

/-- The output of a pointwise layer for the time steps, starting from time step `time`. -/
def pointRows (f : Nat → Nat → Pos S → Except Err (Elem S)) : Nat → List (List (Pos S)) → Except Err (List (List (Elem S)))
  | _, [] => .ok []
  | time, row :: rows =>
    match pointRow (f time) 0 row with
    | .error e => .error e
    | .ok x =>
      match pointRows f (time + 1) rows with
      | .error e => .error e
      | .ok xs => .ok (x :: xs)

/-- The function applied by a pointwise layer. -/
def pointFun (act : Act S) (opts : EvalOptions) (layer : Layer S) (layerIndex time seq : Nat) (p : Pos S) :
    Except Err (Elem S) :=
  (pointElem act opts layer layerIndex time seq p).getD (.error .assertion)

/-- `create_structure` of a layer when processing a mini-batch: the outputs in all positions. -/
def evalLayer (act : Act S) (opts : EvalOptions) (layer : Layer S) (layerIndex : Nat) (g : List (List (Pos S))) :
    Except Err (List (List (Elem S))) :=
  match layer with
  | .recurrent kind b =>
    match recurrentLayer act kind b false g with
    | .error e => .error e
    | .ok sts => .ok (sts.map hiddenOutput)
  | .bidirectional kind forward backward =>                                                   -- bidirectionallayer.py:59-70
    match recurrentLayer act kind forward false g with
    | .error e => .error e
    | .ok fs =>
      match recurrentLayer act kind backward true g with
      | .error e => .error e
      | .ok bs => .ok (List.zipWith (List.zipWith fun f b => .vec (f.h ++ b.h)) fs bs)
  | .glu b filterSize inputSize filters => gluLayer act b filterSize inputSize filters g
  | _ => pointRows (pointFun act opts layer layerIndex) 0 g

/-- Adds the outputs of a layer. -/
def addOutputs (row : List (Entry S)) (outs : List (Elem S)) : List (Entry S) :=
  List.zipWith (fun e x => ⟨e.cell, e.outs ++ [x]⟩) row outs

/-- network.py:253-254: the layers in order, starting from layer number `layerIndex`. -/
def evalLayers (act : Act S) (opts : EvalOptions) : Nat → List (Layer S) → List (List (Entry S)) →
    Except Err (List (List (Entry S)))
  | _, [], table => .ok table
  | layerIndex, layer :: layers, table =>
    match evalLayer act opts layer layerIndex (gather layer.inputs table) with
    | .error e => .error e
    | .ok outs => evalLayers act opts (layerIndex + 1) layers (List.zipWith addOutputs table outs)

/-- The outputs of all layers for a mini-batch. -/
def evalNetwork (act : Act S) (opts : EvalOptions) (layers : List (Layer S)) (batch : List (List InputCell)) :
    Except Err (List (List (Entry S))) :=
  evalLayers act opts 0 layers (batch.map fun row => row.map fun c => ⟨c, []⟩)

/-! ## One time step (text generation and lattice decoding) -/

/-- network.py:417-443 `add_recurrent_state`: the sizes of the state variables of a layer, in the order they are added.  The
variables of a layer have successive indices. -/
def Layer.stateSizes : Layer S → List Nat
  | .recurrent .lstm b => [b.size, b.size]
  | .recurrent .gru b => [b.size]
  | .bidirectional .lstm forward backward => [forward.size, forward.size, backward.size, backward.size]
  | .bidirectional .gru forward backward => [forward.size, backward.size]
  | _ => []

/-- `recurrent_state_input[index][0]`. -/
def stateInput (state : List (Arr3 S)) (index : Nat) : Except Err (List (List S)) :=
  match state[index]? with
  | none => .error .indexError
  | some a =>
    match a.data with
    | rows :: _ => .ok rows
    | [] => .error .indexError

/-- The states of the sequences in a layer whose first state variable has index `index`. -/
def readStates (kind : CellKind) (state : List (Arr3 S)) (index : Nat) : Except Err (List (SeqState S)) :=
  match kind with
  | .lstm =>
    match stateInput state index with
    | .error e => .error e
    | .ok cs =>
      match stateInput state (index + 1) with
      | .error e => .error e
      | .ok hs => .ok (List.zipWith SeqState.mk cs hs)
  | .gru =>
    match stateInput state index with
    | .error e => .error e
    | .ok hs => .ok (hs.map fun h => ⟨[], h⟩)

/-- The state variables of a layer (lstmlayer.py:136-143, grulayer.py:123-127). -/
def writeStates (kind : CellKind) (size : Nat) (sts : List (SeqState S)) : List (Arr3 S) :=
  match kind with
  | .lstm => [⟨1, sts.length, size, [sts.map SeqState.c]⟩, ⟨1, sts.length, size, [sts.map SeqState.h]⟩]
  | .gru => [⟨1, sts.length, size, [sts.map SeqState.h]⟩]

/-- `create_structure` of a layer when processing one time step: the outputs for each sequence and the new values of its state
variables.  `index` is the index of the first state variable of the layer.  The mask is all ones (network.py:240): it is given in
the positions. -/
def stepLayer (act : Act S) (opts : EvalOptions) (layer : Layer S) (layerIndex time : Nat) (state : List (Arr3 S)) (index : Nat)
    (row : List (Pos S)) : Except Err (List (Elem S) × List (Arr3 S)) :=
  match layer with
  | .recurrent kind b =>
    match preactRow b row with
    | .error e => .error e
    | .ok x =>
      match getParam "step_input/W".toList none b.weights with
      | .error e => .error e
      | .ok hWeights =>
        match readStates kind state index with
        | .error e => .error e
        | .ok sts =>
          let sts' := rowStep act kind b hWeights x sts
          .ok (hiddenOutput sts', writeStates kind b.size sts')
  | .bidirectional _ _ _ => .error .runtimeError
  | .glu _ _ _ _ => .error .runtimeError                                                      -- glulayer.py:61-63
  | _ =>
    match pointRow (pointFun act opts layer layerIndex time) 0 row with
    | .error e => .error e
    | .ok outs => .ok (outs, [])

/-- The layers in order: the outputs of the layers for each sequence, and the new values of the state variables. -/
def stepLayers (act : Act S) (opts : EvalOptions) (time : Nat) (state : List (Arr3 S)) : Nat → Nat → List (Layer S) →
    List (Entry S) → Except Err (List (Entry S) × List (Arr3 S))
  | _, _, [], row => .ok (row, [])
  | layerIndex, index, layer :: layers, row =>
    match stepLayer act opts layer layerIndex time state index (gatherRow layer.inputs row) with
    | .error e => .error e
    | .ok (outs, new) =>
      match stepLayers act opts time state (layerIndex + 1) (index + layer.stateSizes.length) layers (addOutputs row outs) with
      | .error e => .error e
      | .ok (row', new') => .ok (row', new ++ new')

/-- network.py:185, 417-443: `recurrent_state_size`. -/
def networkStateSizes (layers : List (Layer S)) : List Nat := layers.flatMap Layer.stateSizes

/-- A call of the function that evaluates one time step, and setting the recurrent state to the output of the function
(textsampler.py:93-95, 112-123, latticedecoder.py:639-653). -/
def stepNetwork (act : Act S) (opts : EvalOptions) (layers : List (Layer S)) (time : Nat) (state : RecState S) (cells : List InputCell) :
    Except Err (List (Entry S) × RecState S) :=
  match stepLayers act opts time state.vars 0 0 layers (cells.map fun c => ⟨{ c with mask := true }, []⟩) with
  | .error e => .error e
  | .ok (row, new) =>
    match state.set new with
    | .error e => .error e
    | .ok state' => .ok (row, state')

/-- Several time steps, passing the recurrent state from each call to the next. -/
def stepsNetwork (act : Act S) (opts : EvalOptions) (layers : List (Layer S)) : Nat → RecState S → List (List InputCell) →
    Except Err (List (List (Entry S)) × RecState S)
  | _, state, [] => .ok ([], state)
  | time, state, cells :: rest =>
    match stepNetwork act opts layers time state cells with
    | .error e => .error e
    | .ok (row, state') =>
      match stepsNetwork act opts layers (time + 1) state' rest with
      | .error e => .error e
      | .ok (rows, state'') => .ok (row :: rows, state'')

end

end TheanoLM
