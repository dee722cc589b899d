import Verif.Model.Statistics
import Verif.Model.Trainer
/-!
# Model of theanolm/commands/train.py

A text file is the list of its lines.  Logging is not modelled.
-/
namespace TheanoLM

/-- The HDF5 file that is given to the command, as far as the vocabulary is concerned: the group `vocabulary`, and
whether the file contains anything else. -/
structure ModelFile where
  vocabulary : Option VocabState
  other : Bool
  deriving DecidableEq

/-- `state.keys()` is not empty (train.py:247). -/
def ModelFile.hasKeys (f : ModelFile) : Bool := f.vocabulary.isSome || f.other

/-- `require_group('vocabulary')`: the group, empty if it did not exist (vocabulary.py:409). -/
def ModelFile.group (f : ModelFile) : VocabState := f.vocabulary.getD ⟨none, none, none, none⟩

/-- `result.get_state(state)` (train.py:264, 270, 291). -/
def saveVocabulary (v : Vocab) (f : ModelFile) : Except Err (Vocab × ModelFile) :=
  match v.getState f.group with
  | .error e => .error e
  | .ok st => .ok (v, { f with vocabulary := some st })

/-- train.py:224-299 `_read_vocabulary`.  The options are the lines and the format of the vocabulary file, the number of
classes, and the lines of the training files.  The result is the vocabulary and the file afterwards.  The keys of a
dictionary are listed in the order of insertion. -/
def readVocabulary (P : Parsers) (vocabulary : Option (List Str)) (format : VocFormat) (numClasses : Option Nat)
    (training : List (List Str)) (f : ModelFile) : Except Err (Vocab × ModelFile) :=
  if f.hasKeys then                                                                   -- 247
    match vocabFromState f.vocabulary with                                            -- 249
    | .error e => .error e
    | .ok v =>
      match v.unigram with                                                            -- 250
      | some _ => .ok (v, f)
      | none =>
        let wordCounts := computeWordCounts training                                  -- 254
        let oosWords := (wordCounts.map Prod.fst).filter (fun x => decide (x ∉ v.idToWord))   -- 255-258
        match computeProbs { v with idToWord := v.idToWord ++ oosWords } wordCounts false with -- 259-263
        | .error e => .error e
        | .ok v => saveVocabulary v f                                                 -- 264
  else
    let wordCounts := computeWordCounts training                                      -- 268, 274
    match vocabulary with
    | none =>                                                                         -- 266
      match vocabFromWordCounts wordCounts numClasses with                            -- 269
      | .error e => .error e
      | .ok v => saveVocabulary v f                                                   -- 270
    | some lines =>
      match vocabFromFile P lines format (wordCounts.map Prod.fst) with               -- 275-279
      | .error e => .error e
      | .ok v =>
        match computeProbs v wordCounts (decide (format = .classes)) with             -- 281-290
        | .error e => .error e
        | .ok v => saveVocabulary v f                                                 -- 291

/-- What the command tells about its result (train.py:359-361, 366, 372-373, 476-477, 481). -/
inductive TrainMessage (S : Type)
  | manyNoiseSamples
  | manyWeights
  | manySampling
  | notTrained
  | best (perplexity : S)
  deriving DecidableEq

/-- train.py:368-370: the weights of the training files. -/
def trainWeights {S : Type} [One S] (numFiles : Nat) (weights : List S) : List S :=
  weights.zipIdx.foldl (fun a p => a.set p.2 p.1) (List.replicate numFiles 1)

/-- train.py:358-374: the checks that are made before training; the result is the weights of the training files. -/
def checkArguments {S : Type} [One S] (numNoiseSamples numClasses numFiles : Nat) (weights sampling : List S) :
    Except (TrainMessage S) (List S) :=
  if numClasses < numNoiseSamples then .error .manyNoiseSamples                       -- 358-362
  else if numFiles < weights.length then .error .manyWeights                          -- 364-367
  else if numFiles < sampling.length then .error .manySampling                        -- 371-374
  else .ok (trainWeights numFiles weights)                                            -- 368-370

/-- train.py:355-374: the beginning of `train`.  The file is closed, and its new content is written, also when
`sys.exit` ends the command inside the `with` statement. -/
def startTrain {S : Type} [One S] (P : Parsers) (vocabulary : Option (List Str)) (format : VocFormat)
    (numClasses : Option Nat) (training : List (List Str)) (numNoiseSamples : Nat) (weights sampling : List S)
    (f : ModelFile) : Except Err (ModelFile × Except (TrainMessage S) (Vocab × List S)) :=
  match readVocabulary P vocabulary format numClasses training f with
  | .error e => .error e
  | .ok (v, f') =>
    match checkArguments numNoiseSamples v.numClasses training.length weights sampling with
    | .error m => .ok (f', .error m)
    | .ok ws => .ok (f', .ok (v, ws))

/-- train.py:475-481: what is printed after training.  The file contains the group `layers` exactly when the trainer has
saved its state there. -/
def finishTrain {S X I J B : Type} (env : TrainEnv S X I J B) (t : Trainer S X I J) : Except Err (Option (TrainMessage S)) :=
  match t.file with
  | none => .ok (some .notTrained)                                                    -- 475-477
  | some f =>
    if env.hasValidation then                                                         -- 478
      match env.perplexity f.params with                                              -- 479-480
      | .error e => .error e
      | .ok p => .ok (some (.best p))                                                 -- 481
    else .ok none

end TheanoLM
