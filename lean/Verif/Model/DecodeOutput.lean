import Verif.Model.DecodeCommand
import Verif.Model.RescoredLattice
import Verif.Model.SlfWrite
import Verif.Model.KaldiLattice
import Verif.Model.WordClassFile
/-!
# Model of the output of theanolm/commands/decode.py
-/
namespace TheanoLM

variable {S St : Type}

/-- The arguments `--output` and `--n-best` (commands/decode.py:66-77). -/
structure OutputArgs where
  output : Str
  nBest : ℤ
  deriving DecidableEq

/-- What is needed for writing: text of numbers (`"{}".format(x)`), `vocabulary.id_to_word`, `batch.kaldi_word_to_id`,
and the limit of the depth of recursion. -/
structure OutEnv (S : Type) where
  num : NumText S
  slf : SlfShow S
  idToWord : Nat → Option Str
  kaldiWordToId : Str → Option ℤ
  depth : Nat

/-- commands/decode.py:259: `final_tokens[:min(args.n_best, len(final_tokens))]`; a negative number is counted from the
end. -/
def bestTokens {α : Type} (nBest : ℤ) (tokens : List α) : List α :=
  let m := min nBest tokens.length
  if 0 ≤ m then tokens.take m.toNat else tokens.take (tokens.length - (-m).toNat)

section
variable [Field S] [LinearOrder S]

/-- commands/decode.py:202; `log` is the natural logarithm. -/
def outputScale (log : Nat → S) (args : DecodeArgs S) : S :=
  match args.logBase with
  | none => 1
  | some b => log b

/-- commands/decode.py:268-312 `format_token`, and latticedecoder.py:155-169 `history_words`.  Division by zero (with base
one) is not modelled.  With any other format the name `args` is not found (311). -/
def formatToken (showScore : S → Str) (idToWord : Nat → Option Str) (logScale : S) (utteranceId : Str) (output : Str)
    (t : Token S St) : Except Err Str :=
  match historyWords idToWord t.history with                                            -- 297
  | .error e => .error e
  | .ok words =>
    if output = "ref".toList then .ok (utteranceId ++ ' ' :: joinSp words)              -- 298-299
    else if output = "trn".toList then                                                  -- 300-301
      .ok (joinSp words ++ ' ' :: '(' :: (utteranceId ++ [')']))
    else if output = "full".toList then                                                 -- 302-309
      .ok (utteranceId ++ ' ' :: (showScore (t.ac / logScale) ++ ' ' :: (showScore (t.graph / logScale) ++ ' ' ::
        (showScore (t.total / logScale) ++ ' ' :: (decimal words.length ++ ' ' :: joinSp words)))))
    else .error .nameError                                                              -- 310-312

/-- commands/decode.py:259-265: what has been written, and the exception if there was one. -/
def writeTokens (format : Token S St → Except Err Str) : List (Token S St) → Str × Option Err
  | [] => ([], none)
  | t :: ts =>
    match format t with
    | .error e => ([], some e)
    | .ok line =>
      let r := writeTokens format ts
      (line ++ '\n' :: r.1, r.2)

/-- commands/decode.py:244-265: the output for one lattice, and the exception if there was one.  What `write_kaldi` has
written before it fails is not modelled. -/
def decodeOutput (D : Decoder S St) (E : OutEnv S) (log : Nat → S) (args : DecodeArgs S) (out : OutputArgs)
    (L : Lattice S) (utteranceId : Str) : Str × Option Err :=
  match decode D L with                                                                 -- 244
  | .error e => ([], some e)
  | .ok (finals, recombs) =>
    if out.output = "slf".toList ∨ out.output = "kaldi".toList then                     -- 245
      match rescoredLattice L E.depth E.idToWord finals recombs with                    -- 246-249
      | .error e => ([], some e)
      | .ok N =>
        let N : Lattice S := { N with lmScale := args.lmScale, wiPenalty := args.wiPenalty }   -- 250-251
        if out.output = "slf".toList then (writeSlf E.slf N, none)                      -- 252-253
        else match writeKaldi E.num E.kaldiWordToId N with                              -- 254-257
          | .error e => ([], some e)
          | .ok lines => (lines.flatMap (fun l => l ++ ['\n']), none)
    else
      writeTokens (formatToken E.num.showScore E.idToWord (outputScale log args) utteranceId out.output)
        (bestTokens out.nBest finals)                                                   -- 258-265

/-- commands/decode.py:236-237: the utterance ID, by default the number of the lattice. -/
def utteranceName (number : Nat) (L : Lattice S) : Str := L.utteranceId.getD (decimal number)

/-- commands/decode.py:235-266: the output for the lattices that are numbered from `number`. -/
def decodeLoop (D : Decoder S St) (E : OutEnv S) (log : Nat → S) (args : DecodeArgs S) (out : OutputArgs) :
    Nat → List (Lattice S) → Str × Option Err
  | _, [] => ([], none)
  | number, L :: rest =>
    let u := utteranceName number L
    match decodeOutput D E log args out { L with utteranceId := some u } u with
    | (text, some e) => (text, some e)
    | (text, none) =>
      let r := decodeLoop D E log args out (number + 1) rest
      (text ++ r.1, r.2)

/-- commands/decode.py:166-266 `decode`, given the model and the lattices of the job: the text that is written to the output
file, and the exception if there was one. -/
def decodeCommand (V : DecVocab S) (net : DecNet S St) (lin : S → S → S → S) (E : OutEnv S) (log : Nat → S)
    (args : DecodeArgs S) (out : OutputArgs) (lattices : List (Lattice S)) : Str × Option Err :=
  match decoderInit V net lin (decodingOptions log args) with
  | .error e => ([], some e)
  | .ok D => decodeLoop D E log args out 0 lattices

end
end TheanoLM
