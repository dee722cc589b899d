import Verif.Model.NetworkState
import Verif.Model.TrainerState
import Verif.Model.LanguageModel
import Verif.Model.ScoreOutput
import Verif.Model.Vocabulary
/-!
# Model: the score command, from the model file to the report

`network.py` `from_file` and `score.py` `score`: everything that is needed for scoring is read from the model file.
-/
namespace TheanoLM

section
variable {S : Type} [Field S] [LinearOrder S]

/-- network.py:134-221 (the sizes of the vocabulary), softmaxlayer.py:36-37: what the constructor of a network reads from the vocabulary.  `e` describes the rest: the
default device, how numbers are parsed, and the random initial values.  Simplified: the class of `<unk>` is read even if there is no
softmax layer. -/
def vocabularyEnv (e : CreateEnv S) (v : Vocab) : Except Err (CreateEnv S) :=
  match v.wordToId unk with
  | none => .error .keyError
  | some i =>
    match v.classOf[i]? with
    | none => .error .indexError
    | some c => .ok { e with numWords := v.numShortlist, numClasses := v.numClasses, unkClass := c }

/-- network.py:256-294 `from_file`: the vocabulary and the network are created from the model file.  No class probabilities are given to
the constructor (290-291). -/
def networkFromFile (e : CreateEnv S) (file : StateFile S) : Except Err (Vocab × CreatedNetwork S) :=
  match vocabFromState file.vocab with                                                        -- 280
  | .error e => .error e
  | .ok v =>
    match vocabularyEnv { e with priorBias := none } v with
    | .error e => .error e
    | .ok env =>
      match loadNetwork env ⟨file.data, file.arch⟩ with                                       -- 289-293
      | .error e => .error e
      | .ok net => .ok (v, net)

/-- score.py:111-131 `score`, with the model file and the text. -/
def scoreModel (act : Act S) (logOf : S → Flt S) (cast : ℚ → S) (showNum : Flt S → Str)
    (log : Nat → S) (e : CreateEnv S) (file : StateFile S) (useShortlist excludeUnk : Bool) (logBase : Option Nat) (marking : Marking)
    (output : Str) (fuel : Nat) (text : Str) : Except Err (Option (Str × Option Err)) :=
  match networkFromFile e file with                                                           -- 112-113
  | .error e => .error e
  | .ok (v, net) =>
    match v.wordToId unk with                                                                 -- textscorer.py:61
    | none => .error .keyError
    | some unkId =>
      .ok (scoreCommand (networkScorer act logOf cast v unkId (net.layers.map Created.layer) net.output useShortlist excludeUnk)
        showNum log logBase marking output fuel text)                                         -- 116-131

end

end TheanoLM
