import Verif.Model.MergeSubwords
import Verif.Model.TextScorer
/-!
# Model of `_score_text` of theanolm/commands/score.py
-/
namespace TheanoLM

instance {S : Type} [Add S] : Add (Flt S) := ⟨Flt.add⟩
instance {S : Type} [Zero S] : Zero (Flt S) := ⟨.fin 0⟩

/-- The counters of `_score_text` (score.py:174-180). -/
structure ScoreStats (S : Type) where
  total : Flt S
  sentences : Nat
  tokens : Nat
  words : Nat
  probs : Nat
  unks : Nat
  zeroprobs : Nat
  deriving DecidableEq

/-- score.py:174-180 -/
def ScoreStats.zero {S : Type} [Zero S] : ScoreStats S := ⟨.fin 0, 0, 0, 0, 0, 0, 0⟩

/-- score.py:195-196, 204-205: the log probabilities that are neither `None` nor minus infinity. -/
def predictedLogprobs {S : Type} (lps : List (Option (Flt S))) : List (Flt S) :=
  lps.filterMap (fun lp => match lp with
    | some .negInf => none
    | x => x)

/-- score.py:189-219, one sequence.  With `word_level` the sentence perplexity is written, which divides by the number of
predicted probabilities (the result is the last element).  `_write_word_scores` raises if the number of log probabilities is
wrong (353-355); what it writes is not modelled. -/
def scoreTextSequence {S : Type} [Field S] (exp : S → S) (marking : Marking) (wordLevel : Bool) (st : ScoreStats S)
    (numTokens : Nat) (words : List Str) (lps : List (Option (Flt S))) : Except Err (ScoreStats S × Option (Flt S)) :=
  match mergeSubwords words lps marking with                                              -- 190-192
  | .error e => .error e
  | .ok (mergedWords, mergedLps) =>
    let predicted := predictedLogprobs mergedLps
    let seqLogprob := Flt.sum predicted                                                   -- 195-196
    let st : ScoreStats S :=
      { total := st.total.add seqLogprob                                                  -- 198
        sentences := st.sentences + 1                                                     -- 212
        tokens := st.tokens + numTokens                                                   -- 200
        words := st.words + mergedWords.length                                            -- 202
        probs := st.probs + predicted.length                                              -- 204-206
        unks := st.unks + mergedLps.countP (fun lp => lp.isNone)                          -- 208
        zeroprobs := st.zeroprobs + mergedLps.countP (fun lp => match lp with | some .negInf => true | _ => false) }   -- 209-210
    if wordLevel then
      if mergedLps.length + 1 ≠ mergedWords.length then .error .valueError                -- 216-217
      else if predicted.length = 0 then .error .zeroDivision                              -- 218-219
      else .ok (st, some (((seqLogprob.neg).divNat predicted.length).exp exp))
    else .ok (st, none)

/-- score.py:185-219, the loop over the sequences of a mini-batch, which are numbered from `k`. -/
def scoreTextSequences {S : Type} [Field S] (exp : S → S) (marking : Marking) (wordLevel : Bool) (mask : List (List Nat))
    (words : List (List Str)) : List (List (Option (Flt S))) → Nat → ScoreStats S × List (Flt S) →
    Except Err (ScoreStats S × List (Flt S))
  | [], _, acc => .ok acc
  | lps :: rest, k, acc =>
    match words[k]? with                                                                  -- 189
    | none => .error .indexError
    | some seqWords =>
      let numTokens := ((mask.filterMap (·[k]?)).filter (fun m => decide (m = 1))).length   -- 186-188, 200
      match scoreTextSequence exp marking wordLevel acc.1 numTokens seqWords lps with
      | .error e => .error e
      | .ok (st, pp) => scoreTextSequences exp marking wordLevel mask words rest (k + 1) (st, acc.2 ++ pp.toList)

/-- score.py:181-219, the loop over the mini-batches: word IDs, words and mask. -/
def scoreTextBatches {S : Type} [Field S] (sc : Scorer S) (marking : Marking) (wordLevel : Bool) :
    List (List (List Nat) × List (List Str) × List (List Nat)) → ScoreStats S × List (Flt S) →
    Except Err (ScoreStats S × List (Flt S))
  | [], acc => .ok acc
  | (wordIds, words, mask) :: rest, acc =>
    match sc.cells wordIds mask with                                                      -- 182
    | .error e => .error e
    | .ok batch =>
      match sc.scoreBatch batch with                                                      -- 183-184
      | .error e => .error e
      | .ok lps =>
        match scoreTextSequences sc.exp marking wordLevel mask words lps 0 acc with
        | .error e => .error e
        | .ok acc => scoreTextBatches sc marking wordLevel rest acc

/-- What `_score_text` writes: the counters, the perplexity of each sentence (if requested), and the cross entropy and the
perplexity (which are not written if there are no words).  Conversion to another base is not modelled. -/
structure ScoreReport (S : Type) where
  stats : ScoreStats S
  sentencePerplexities : List (Flt S)
  crossEntropy : Option (Flt S)
  perplexity : Option (Flt S)
  deriving DecidableEq

/-- score.py:132-238 `_score_text`. -/
def scoreText {S : Type} [Field S] (sc : Scorer S) (marking : Marking) (wordLevel : Bool)
    (batches : List (List (List Nat) × List (List Str) × List (List Nat))) : Except Err (ScoreReport S) :=
  match scoreTextBatches sc marking wordLevel batches (ScoreStats.zero, []) with
  | .error e => .error e
  | .ok (st, pps) =>
    if 0 < st.words then                                                                  -- 230
      if st.probs = 0 then .error .zeroDivision                                           -- 231
      else
        let crossEntropy := (st.total.neg).divNat st.probs
        .ok ⟨st, pps, some crossEntropy, some (crossEntropy.exp sc.exp)⟩                  -- 231-238
    else .ok ⟨st, pps, none, none⟩

end TheanoLM
