import Verif.Model.ScoreText
import Verif.Model.WordClassFile
import Verif.Model.SlfWrite
/-!
# Model of the output of theanolm/commands/score.py

`showNum` is `str` of a floating point number.  The functions return what has been written to the output file, and an error if
one was raised; the text written before the error stays in the file.
-/
namespace TheanoLM

section
variable {S : Type} [Field S]

/-- Division by the logarithm of the base, which is positive (bases greater than one). -/
def Flt.divBy (x : Flt S) (scale : S) : Flt S :=
  match x with
  | .fin a => .fin (a / scale)
  | y => y

/-- score.py:364-365, 372: a word as text. -/
def MergedWord.text : MergedWord → Str
  | .plain word => word
  | .parts subwords => joinSp subwords

/-- score.py:341-351 `word_info`. -/
def wordInfo (v : Vocab) (word : Str) : Str :=
  match v.wordToId word with
  | none => word ++ ":OOV".toList                                                       -- 345-346
  | some wordId =>
    if v.inShortlist wordId = true then word ++ ":shortlist".toList                     -- 347-349
    else word ++ ":OOS".toList                                                          -- 350-351

/-- score.py:369-374 -/
def MergedWord.info (v : Vocab) : MergedWord → Str
  | .plain word => wordInfo v word
  | .parts subwords => joinSp (subwords.map (wordInfo v))

/-- score.py:359-366: the history that is shown. -/
def shownHistory (words : List MergedWord) (index : Nat) : Str :=
  if 2 < index then                                                                     -- 359
    joinSp ("...".toList :: (((words.drop (index - 2)).take 3).map MergedWord.text))    -- 360-361
  else joinSp ((words.take (index + 1)).map MergedWord.text)                            -- 363

/-- score.py:376-381 -/
def wordScoreLine (v : Vocab) (showNum : Flt S → Str) (words : List MergedWord) (index : Nat) (predicted : MergedWord)
    (logprob : Option (Flt S)) : Str :=
  match logprob with
  | none => "p(".toList ++ predicted.text ++ " | ".toList ++ shownHistory words index ++ ") is not predicted  [".toList ++
      predicted.info v ++ "]\n".toList
  | some x => "log(p(".toList ++ predicted.text ++ " | ".toList ++ shownHistory words index ++ ")) = ".toList ++ showNum x ++
      "  [".toList ++ predicted.info v ++ "]\n".toList

/-- score.py:358-381, the loop of `_write_word_scores` from index `index`. -/
def wordScoreLines (v : Vocab) (showNum : Flt S → Str) (words : List MergedWord) :
    List (Option (Flt S)) → Nat → Str × Option Err
  | [], _ => ([], none)
  | logprob :: rest, index =>
    match words[index + 1]? with                                                        -- 368
    | none => ([], some .indexError)
    | some predicted =>
      let r := wordScoreLines v showNum words rest (index + 1)
      (wordScoreLine v showNum words index predicted logprob ++ r.1, r.2)

/-- score.py:320-381 `_write_word_scores`. -/
def writeWordScores (v : Vocab) (showNum : Flt S → Str) (logScale : S) (words : List MergedWord)
    (logprobs : List (Option (Flt S))) : Str × Option Err :=
  if logprobs.length + 1 ≠ words.length then ([], some .valueError)                     -- 353-355
  else wordScoreLines v showNum words (logprobs.map (fun x => x.map (fun x => x.divBy logScale))) 0     -- 357-381

/-- score.py:189-219, one sequence: what is written, and the counters (`scoreTextSequence`). -/
def writeSequence (v : Vocab) (exp : S → S) (showNum : Flt S → Str) (logScale : S) (marking : Marking) (wordLevel : Bool)
    (st : ScoreStats S) (numTokens : Nat) (words : List Str) (lps : List (Option (Flt S))) :
    Str × Except Err (ScoreStats S) :=
  match mergeSubwords words lps marking with                                            -- 190-192
  | .error e => ([], .error e)
  | .ok (mergedWords, mergedLps) =>
    let before := if wordLevel then
        "# Sentence ".toList ++ decimal (st.sentences + 1) ++ "\n".toList ++            -- 215
          (writeWordScores v showNum logScale mergedWords mergedLps).1                  -- 216-217
      else []
    match scoreTextSequence exp marking wordLevel st numTokens words lps with
    | .error e => (before, .error e)
    | .ok (st, some pp) => (before ++ "Sentence perplexity: ".toList ++ showNum pp ++ "\n\n".toList, .ok st)   -- 218-219
    | .ok (st, none) => (before, .ok st)

/-- score.py:185-219, the loop over the sequences of a mini-batch, which are numbered from `k`. -/
def writeSequences (v : Vocab) (exp : S → S) (showNum : Flt S → Str) (logScale : S) (marking : Marking) (wordLevel : Bool)
    (mask : List (List Nat)) (words : List (List Str)) : List (List (Option (Flt S))) → Nat → ScoreStats S →
    Str × Except Err (ScoreStats S)
  | [], _, st => ([], .ok st)
  | lps :: rest, k, st =>
    match words[k]? with                                                                -- 189
    | none => ([], .error .indexError)
    | some seqWords =>
      let numTokens := ((mask.filterMap (·[k]?)).filter (fun m => decide (m = 1))).length   -- 186-188, 200
      match writeSequence v exp showNum logScale marking wordLevel st numTokens seqWords lps with
      | (out, .error e) => (out, .error e)
      | (out, .ok st) =>
        let r := writeSequences v exp showNum logScale marking wordLevel mask words rest (k + 1) st
        (out ++ r.1, r.2)

/-- score.py:181-219, the loop over the mini-batches: word IDs, words and mask. -/
def writeBatches (sc : Scorer S) (showNum : Flt S → Str) (logScale : S) (marking : Marking) (wordLevel : Bool) :
    List (List (List Nat) × List (List Str) × List (List Nat)) → ScoreStats S → Str × Except Err (ScoreStats S)
  | [], st => ([], .ok st)
  | (wordIds, words, mask) :: rest, st =>
    match sc.cells wordIds mask with                                                    -- 182
    | .error e => ([], .error e)
    | .ok batch =>
      match sc.scoreBatch batch with                                                    -- 183-184
      | .error e => ([], .error e)
      | .ok lps =>
        match writeSequences sc.vocab sc.exp showNum logScale marking wordLevel mask words lps 0 st with
        | (out, .error e) => (out, .error e)
        | (out, .ok st) =>
          let r := writeBatches sc showNum logScale marking wordLevel rest st
          (out ++ r.1, r.2)

/-- score.py:172, 413; `log` is the natural logarithm.  The base is a natural number. -/
def scoreScale (log : Nat → S) (logBase : Option Nat) : S :=
  match logBase with
  | none => 1
  | some b => log b

/-- score.py:221-238: the end of the report. -/
def writeSummary (exp : S → S) (showNum : Flt S → Str) (log : Nat → S) (logBase : Option Nat) (st : ScoreStats S) :
    Str × Option Err :=
  let counts := "Number of sentences: ".toList ++ decimal st.sentences ++ "\n".toList ++        -- 221
    "Number of words: ".toList ++ decimal st.words ++ "\n".toList ++                            -- 222
    "Number of tokens: ".toList ++ decimal st.tokens ++ "\n".toList ++                          -- 223
    "Number of predicted probabilities: ".toList ++ decimal st.probs ++ "\n".toList ++          -- 224-225
    "Number of excluded (OOV) words: ".toList ++ decimal st.unks ++ "\n".toList ++              -- 226-227
    "Number of zero probabilities: ".toList ++ decimal st.zeroprobs ++ "\n".toList              -- 228-229
  if 0 < st.words then                                                                          -- 230
    if st.probs = 0 then (counts, some .zeroDivision)                                           -- 231
    else
      let crossEntropy := (st.total.neg).divNat st.probs                                        -- 231
      let perplexity := crossEntropy.exp exp                                                    -- 232
      let inBase := match logBase with                                                          -- 234-237
        | none => []
        | some b => "Cross entropy (base ".toList ++ decimal b ++ "): ".toList ++
            showNum (crossEntropy.divBy (scoreScale log logBase)) ++ "\n".toList
      (counts ++ "Cross entropy (base e): ".toList ++ showNum crossEntropy ++ "\n".toList ++ inBase ++
        "Perplexity: ".toList ++ showNum perplexity ++ "\n".toList, none)                       -- 233, 238
  else (counts, none)

/-- score.py:132-238 `_score_text`.  The mini-batches are prepared before they are scored, and not one by one; preparing them
does not fail with a vocabulary that has `<unk>`.  `none`: the iterator did not finish within `fuel` steps. -/
def scoreTextFile (sc : Scorer S) (showNum : Flt S → Str) (log : Nat → S) (logBase : Option Nat) (marking : Marking)
    (wordLevel : Bool) (fuel : Nat) (text : Str) : Option (Str × Option Err) :=
  match runPass (linearSource [text]) ⟨16, none⟩ fuel fuel linearInit with              -- 166-171, 181
  | none => none
  | some (batches, _) =>
    match mapE (prepareScoringBatch sc.vocab false) batches with
    | .error e => some ([], some e)
    | .ok batches =>
      match writeBatches sc showNum (scoreScale log logBase) marking wordLevel batches ScoreStats.zero with
      | (out, .error e) => some (out, some e)
      | (out, .ok st) =>
        let r := writeSummary sc.exp showNum log logBase st
        some (out ++ r.1, r.2)

/-- score.py:415-422, the loop of `_score_utterances` over the lines of the input file. -/
def scoreUtterancesLoop [LT S] [DecidableLT S] [DecidableEq S] (sc : Scorer S) (showNum : Flt S → Str) (logScale : S) :
    List Str → Str × Option Err
  | [] => ([], none)
  | line :: rest =>
    match sc.scoreLine line with                                                        -- 416
    | .error e => ([], some e)
    | .ok none => scoreUtterancesLoop sc showNum logScale rest                          -- 417-418
    | .ok (some x) =>
      let r := scoreUtterancesLoop sc showNum logScale rest
      (showNum (x.divBy logScale) ++ "\n".toList ++ r.1, r.2)                           -- 419-420

/-- score.py:383-431 `_score_utterances`.  Logging is not modelled. -/
def scoreUtterances [LT S] [DecidableLT S] [DecidableEq S] (sc : Scorer S) (showNum : Flt S → Str) (log : Nat → S)
    (logBase : Option Nat) (text : Str) : Str × Option Err :=
  scoreUtterancesLoop sc showNum (scoreScale log logBase) (fileLines text)

/-- score.py:85-131 `score`, from the point where the network has been loaded and the scorer has been built (119).  With any
other output format the program exits (130-131), which is `inputError`. -/
def scoreCommand [LT S] [DecidableLT S] [DecidableEq S] (sc : Scorer S) (showNum : Flt S → Str) (log : Nat → S)
    (logBase : Option Nat) (marking : Marking) (output : Str) (fuel : Nat) (text : Str) : Option (Str × Option Err) :=
  if output = "perplexity".toList then scoreTextFile sc showNum log logBase marking false fuel text             -- 120-122
  else if output = "word-scores".toList then scoreTextFile sc showNum log logBase marking true fuel text        -- 123-125
  else if output = "utterance-scores".toList then some (scoreUtterances sc showNum log logBase text)            -- 126-128
  else some ([], some .inputError)                                                                              -- 129-131

end

end TheanoLM
