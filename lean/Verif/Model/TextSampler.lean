import Verif.Model.Network
import Verif.Model.Parsing
/-!
# Model of text generation (theanolm/textsampler.py, theanolm/commands/sample.py)

The random numbers are a parameter: for each time step and sequence, which of the classes is drawn given the probabilities of the
classes, and which of the words of a class is drawn given the class.
-/
namespace TheanoLM

/-- Random outcomes, given the time step and the sequence: the number of a class, and the number of a word in its class. -/
structure Draws (S : Type) where
  cls : Nat → Nat → List S → Nat
  word : Nat → Nat → WordClass → Nat

/-- wordclass.py:85-97 `sample`, `index` being the index of the word that is drawn.  A draw from a class without words has no nonzero
element (96). -/
def WordClass.sample (c : WordClass) (index : Nat) : Except Err Nat :=
  match c.probs[index]? with
  | some p => .ok p.1
  | none => .error .assertion

section
variable {S : Type} [Add S] [Mul S] [Sub S] [Div S] [Zero S] [One S]

/-- The class and the word for one sequence (vocabulary.py:504-505). -/
def sampleWord (v : Vocab) (R : Draws S) (time : Nat) (x : Nat × Nat) : Except Err InputCell :=
  match v.classes[x.1]? with
  | none => .error .indexError
  | some c =>
    match c.sample (R.word time x.2 c) with
    | .error e => .error e
    | .ok w => .ok ⟨w, x.1, true⟩

/-- vocabulary.py:493-505 `class_ids_to_word_ids`: a word from each of the given classes, with the class. -/
def sampleWords (v : Vocab) (R : Draws S) (time : Nat) (classIds : List Nat) : Except Err (List InputCell) :=
  mapE (sampleWord v R time) classIds.zipIdx

/-- textsampler.py:38-46, network.py:445-455: the class drawn for one sequence.  `output` is the position of the output layer.  Only
softmax and hierarchical softmax layers have output probabilities. -/
def sampleClass (output : Nat) (R : Draws S) (time : Nat) (x : Entry S × Nat) : Except Err Nat :=
  match x.1.outs[output]? with
  | some (.probs p) => .ok (R.cls time x.2 p)
  | _ => .error .runtimeError

def sampleClasses (output : Nat) (R : Draws S) (time : Nat) (row : List (Entry S)) : Except Err (List Nat) :=
  mapE (sampleClass output R time) row.zipIdx

/-- `result[time_step] = word_ids`. -/
def setRow (result : List (List Nat)) (time : Nat) (row : List Nat) : Except Err (List (List Nat)) :=
  if time < result.length then .ok (result.set time row) else .error .indexError

/-- textsampler.py:37-58 `step_function`, and setting the state: the drawn classes and the new state. -/
def samplerStep (act : Act S) (opts : EvalOptions) (layers : List (Layer S)) (output : Nat) (R : Draws S) (time : Nat) (state : RecState S)
    (input : List InputCell) : Except Err (List Nat × RecState S) :=
  match stepNetwork act opts layers (time - 1) state input with
  | .error e => .error e
  | .ok (row, state') =>
    match sampleClasses output R time row with
    | .error e => .error e
    | .ok classIds => .ok (classIds, state')

/-- textsampler.py:92-108, the loop over the seed from time step `time` on. -/
def seedLoop (act : Act S) (opts : EvalOptions) (layers : List (Layer S)) (output : Nat) (v : Vocab) (R : Draws S) (numSequences : Nat) :
    Nat → List Str → RecState S → List InputCell → List (List Nat) → Except Err (RecState S × List InputCell × List (List Nat))
  | _, [], state, input, result => .ok (state, input, result)
  | time, token :: tokens, state, input, result =>
    match samplerStep act opts layers output R time state input with                                 -- 93-95
    | .error e => .error e
    | .ok (_, state') =>
      match v.wordToId token with                                                             -- 96
      | none => .error .keyError
      | some tokenId =>
        match v.classOf[tokenId]? with                                                        -- 97-98
        | none => .error .indexError
        | some tokenClass =>
          let input' := List.replicate numSequences ⟨tokenId, tokenClass, true⟩               -- 99-104
          match setRow result time (input'.map InputCell.word) with                           -- 105-106
          | .error e => .error e
          | .ok result' => seedLoop act opts layers output v R numSequences (time + 1) tokens state' input' result'

/-- textsampler.py:110-123, the loop that samples, `left` time steps from time step `time` on. -/
def sampleLoop (act : Act S) (opts : EvalOptions) (layers : List (Layer S)) (output : Nat) (v : Vocab) (R : Draws S) :
    Nat → Nat → RecState S → List InputCell → List (List Nat) → Except Err (RecState S × List InputCell × List (List Nat))
  | 0, _, state, input, result => .ok (state, input, result)
  | left + 1, time, state, input, result =>
    match samplerStep act opts layers output R time state input with                                 -- 112-114
    | .error e => .error e
    | .ok (classIds, state') =>
      match sampleWords v R time classIds with                                                -- 115-119
      | .error e => .error e
      | .ok input' =>                                                                         -- 121-122
        match setRow result time (input'.map InputCell.word) with                             -- 120
        | .error e => .error e
        | .ok result' => sampleLoop act opts layers output v R left (time + 1) state' input' result'

/-- `id_to_word[word_id]`. -/
def idWord (v : Vocab) (wordId : Nat) : Except Err Str :=
  match v.idToWord[wordId]? with
  | some w => .ok w
  | none => .error .indexError

/-- textsampler.py:61-125 `generate`.  Negative lengths and numbers of sequences are not modelled. -/
def generate (act : Act S) (opts : EvalOptions) (layers : List (Layer S)) (output : Nat) (v : Vocab) (R : Draws S) (length numSequences : Nat)
    (seed : Str) : Except Err (List (List Str)) :=
  let seedTokens := pySplit seed                                                              -- 77
  match v.wordToId sos with                                                                   -- 78
  | none => .error .keyError
  | some sosId =>
    match v.classOf[sosId]? with                                                              -- 79
    | none => .error .indexError
    | some sosClass =>
      let input := List.replicate numSequences ⟨sosId, sosClass, true⟩                        -- 81-84
      let result := List.replicate (seedTokens.length + length) (List.replicate numSequences sosId)   -- 85-87
      match mkRecState (networkStateSizes layers) numSequences none with                      -- 88-89
      | .error e => .error e
      | .ok state =>
        match seedLoop act opts layers output v R numSequences 1 seedTokens state input result with
        | .error e => .error e
        | .ok (state, input, result) =>
          match sampleLoop act opts layers output v R (length - 1) (seedTokens.length + 1) state input result with
          | .error e => .error e
          | .ok (_, _, result) =>
            mapE (mapE (idWord v)) ((List.range numSequences).map fun s => column s result)   -- 125

/-- commands/sample.py:95-99: the words that are written of a sequence. -/
def sampleWritten (sequence : List Str) : List Str :=
  match sequence.idxOf? eos with
  | some pos => sequence.take (pos + 1)
  | none => sequence

/-- commands/sample.py:93-100: the lines that are written. -/
def sampleCommand (act : Act S) (opts : EvalOptions) (layers : List (Layer S)) (output : Nat) (v : Vocab) (R : Draws S) (length numSequences : Nat)
    (seed : Str) : Except Err (List Str) :=
  match generate act opts layers output v R length numSequences seed with
  | .error e => .error e
  | .ok sequences => .ok (sequences.map fun sequence => joinSp (sampleWritten sequence))

end

end TheanoLM
