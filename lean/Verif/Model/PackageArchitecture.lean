import Verif.Model.Architecture
/-!
# Model of the selection of the architecture in `train`, and of the architecture files that come with the program

theanolm/commands/train.py:407-411, theanolm/network/architecture.py:171-190, theanolm/architectures/lstm300.arch,
theanolm/architectures/lstm1500.arch.
-/
namespace TheanoLM

/-- theanolm/architectures/lstm300.arch:1-5: the lines of the file. -/
def lstm300Lines : List Str := [
  "input type=class name=class_input\n".toList,
  "layer type=projection name=projection_layer input=class_input size=100\n".toList,
  "layer type=lstm name=hidden_layer_1 input=projection_layer size=300\n".toList,
  "layer type=tanh name=hidden_layer_2 input=hidden_layer_1 size=300\n".toList,
  "layer type=softmax name=output_layer input=hidden_layer_2\n".toList]

/-- theanolm/architectures/lstm1500.arch:1-8: the lines of the file. -/
def lstm1500Lines : List Str := [
  "input type=class name=class_input\n".toList,
  "layer type=projection name=projection_layer input=class_input size=500\n".toList,
  "layer type=dropout name=dropout_layer_1 input=projection_layer dropout_rate=0.25\n".toList,
  "layer type=lstm name=hidden_layer_1 input=dropout_layer_1 size=1500\n".toList,
  "layer type=dropout name=dropout_layer_2 input=hidden_layer_1 dropout_rate=0.25\n".toList,
  "layer type=tanh name=hidden_layer_2 input=dropout_layer_1 input=dropout_layer_2 size=1500\n".toList,
  "layer type=dropout name=dropout_layer_3 input=hidden_layer_2 dropout_rate=0.25\n".toList,
  "layer type=softmax name=output_layer input=dropout_layer_3\n".toList]

/-- The files in the directory theanolm/architectures, without the file extension. -/
def packageFile (name : Str) : Option (List Str) :=
  if name = "lstm300".toList then some lstm300Lines
  else if name = "lstm1500".toList then some lstm1500Lines
  else none

/-- architecture.py:171-190 `from_package`. -/
def Architecture.fromPackage (parseInt : Str → Option ℤ) (name : Str) : Except Err Architecture :=
  match packageFile name with
  | none => .error .ioError
  | some lines => Architecture.fromDescription parseInt lines

/-- train.py:407-411: the architecture that is given on the command line.  `files` are the contents of the files of the user. -/
def trainArchitecture (parseInt : Str → Option ℤ) (files : Str → Option (List Str)) (argument : Str) : Except Err Architecture :=
  if argument = "lstm300".toList ∨ argument = "lstm1500".toList then Architecture.fromPackage parseInt argument      -- 407-408
  else
    match files argument with                                                                                        -- 410
    | none => .error .ioError
    | some lines => Architecture.fromDescription parseInt lines                                                      -- 411

end TheanoLM
