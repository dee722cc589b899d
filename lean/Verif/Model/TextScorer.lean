import Verif.Model.Flt
import Verif.Model.PrepareBatch
/-!
# Model of theanolm/scoring/textscorer.py

A matrix is a list of rows (time steps).  The Theano functions are read as the functions of matrices they denote.  The word
IDs, class IDs, membership probabilities and mask of a mini-batch have the same shape; they are one matrix of `Cell`s.
-/
namespace TheanoLM

/-- One element of a mini-batch. -/
structure Cell where
  wordId : Nat
  classId : Nat
  prob : ℚ
  mask : Nat
  deriving DecidableEq

/-- What the scorer reads of the network (network.py:139-172, 225-243): the logarithm of `network.target_probs()` at a time
step and sequence is a function of the matrices of the input word IDs, input class IDs, target class IDs and mask.  `log` is
the logarithm of the arithmetic, and `exp` its exponential function. -/
structure Scorer (S : Type) where
  vocab : Vocab
  unkId : Nat
  net : List (List Nat) → List (List Nat) → List (List Nat) → List (List Nat) → Nat → Nat → Flt S
  log : ℚ → Flt S
  exp : S → S
  useShortlist : Bool
  excludeUnk : Bool

/-- network.py:165-177 `oos_logprobs`; the logarithm of nan is nan. -/
def Scorer.oosLogprobs {S : Type} (sc : Scorer S) : Option (List (Flt S)) :=
  sc.vocab.oosProbs.map (fun ps => ps.map (fun p => match p with
    | none => .nan
    | some p => sc.log p))

/-- textscorer.py:92-94, 97-101: the log probability of a target word before masking.  `lp` is the log probability that the
network predicts. -/
def Scorer.cellLogprob {S : Type} [Add S] (sc : Scorer S) (lp : Flt S) (c : Cell) : Except Err (Flt S) :=
  let logprob := lp.add (sc.log c.prob)                                         -- 92-94
  match sc.useShortlist, sc.oosLogprobs with
  | true, some oos =>                                                           -- 97
    match oos[c.wordId]? with
    | none => .error .indexError
    | some o => .ok (logprob.add o)                                             -- 101
  | _, _ => .ok logprob

/-- textscorer.py:96-108: the mask of a target word. -/
def Scorer.cellMask {S : Type} (sc : Scorer S) (c : Cell) : Nat :=
  if sc.useShortlist = true ∧ sc.oosLogprobs.isSome = true then
    c.mask * (if c.wordId ≠ sc.unkId then 1 else 0)                             -- 104
  else if sc.excludeUnk = true then
    c.mask * (if c.wordId ≠ sc.unkId then 1 else 0) *
      (if c.wordId < sc.vocab.numShortlist then 1 else 0)                       -- 107-108
  else c.mask

/-- textscorer.py:78-92: the log probabilities that the network predicts for the target words of a mini-batch. -/
def Scorer.predict {S : Type} (sc : Scorer S) (batch : List (List Cell)) : Nat → Nat → Flt S :=
  let input := batch.dropLast
  let target := batch.tail
  sc.net
    (input.map (·.map (fun c => if sc.vocab.numShortlist ≤ c.wordId then sc.unkId else c.wordId)))   -- 79-83
    (input.map (·.map (·.classId)))                                             -- 86
    (target.map (·.map (·.classId)))                                            -- 87
    (target.map (·.map (·.mask)))

/-- textscorer.py:92-101, the target cells of a mini-batch with the log probabilities (not masked). -/
def Scorer.targetLogprobs {S : Type} [Add S] (sc : Scorer S) (batch : List (List Cell)) :
    Except Err (List (List (Cell × Flt S))) :=
  mapE (fun (p : List Cell × Nat) => mapE (fun (q : Cell × Nat) =>
      match sc.cellLogprob (sc.predict batch p.2 q.2) q.1 with
      | .error e => .error e
      | .ok lp => .ok (q.1, lp)) p.1.zipIdx) batch.tail.zipIdx

/-- textscorer.py:112-122 and 188-195 for one sequence: the elements of the column where the mask is one, replaced with `None`
where the new mask is not one. -/
def Scorer.sequenceScores {S : Type} [Semiring S] (sc : Scorer S) (column : List (Cell × Flt S)) : List (Option (Flt S)) :=
  (column.filter (fun p => decide (p.1.mask = 1))).map (fun p =>
    if sc.cellMask p.1 = 1 then some (p.2.mulMask (sc.cellMask p.1)) else none)

/-- `matrix.shape[1]` (textscorer.py:188) -/
def numColumns (m : List (List α)) : Nat :=
  match m with
  | [] => 0
  | row :: _ => row.length

/-- textscorer.py:144-197 `score_batch`. -/
def Scorer.scoreBatch {S : Type} [Semiring S] (sc : Scorer S) (batch : List (List Cell)) :
    Except Err (List (List (Option (Flt S)))) :=
  match sc.targetLogprobs batch with
  | .error e => .error e
  | .ok rows =>
    .ok ((List.range (numColumns batch)).map (fun i => sc.sequenceScores (rows.filterMap (·[i]?))))     -- 188-195

/-- textscorer.py:127: the mask that also excludes words with zero class membership probability. -/
def Scorer.totalMask {S : Type} (sc : Scorer S) (c : Cell) : Nat := sc.cellMask c * (if c.prob ≠ 0 then 1 else 0)

/-- textscorer.py:124-138 `_total_logprob_function`: total log probability and number of words. -/
def Scorer.totalLogprob {S : Type} [Add S] [Zero S] (sc : Scorer S) (batch : List (List Cell)) :
    Except Err (Flt S × Nat) :=
  match sc.targetLogprobs batch with
  | .error e => .error e
  | .ok rows =>
    .ok (Flt.sum (rows.flatten.map (fun p => if sc.totalMask p.1 ≠ 0 then p.2 else .fin 0)),      -- 128
         (rows.flatten.map (fun p => sc.totalMask p.1)).sum)

/-- textscorer.py:237-245, 293-301: nan, minus infinity and positive log probabilities are errors. -/
def checkLogprob {S : Type} [Zero S] [LT S] [DecidableLT S] [DecidableEq S] (x : Flt S) : Except Err (Flt S) :=
  if x = .nan then .error .numberError
  else if x = .negInf then .error .numberError
  else if x.isPos then .error .numberError
  else .ok x

/-- Class IDs and membership probabilities of a matrix of word IDs (vocabulary.py:521-541), put together with the mask. -/
def Scorer.cells {S : Type} (sc : Scorer S) (wordIds mask : List (List Nat)) : Except Err (List (List Cell)) :=
  mapE (fun (p : List Nat × List Nat) => mapE (fun (q : Nat × Nat) =>
      match sc.vocab.classMembership q.1 with
      | .error e => .error e
      | .ok cp => .ok (Cell.mk q.1 cp.1 cp.2 q.2)) (p.1.zip p.2)) (wordIds.zip mask)

/-- textscorer.py:225-248, the loop over the mini-batches, which are pairs of word IDs and mask. -/
def Scorer.perplexityLoop {S : Type} [AddGroup S] [LT S] [DecidableLT S] [DecidableEq S] (sc : Scorer S) :
    List (List (List Nat) × List (List Nat)) → Flt S → Nat → Except Err (Flt S × Nat)
  | [], logprob, numWords => .ok (logprob, numWords)
  | (wordIds, mask) :: rest, logprob, numWords =>
    match sc.cells wordIds mask with                                            -- 226-228
    | .error e => .error e
    | .ok batch =>
      match sc.totalLogprob batch with                                          -- 232-236
      | .error e => .error e
      | .ok (batchLogprob, batchNumWords) =>
        match checkLogprob batchLogprob with                                    -- 237-245
        | .error e => .error e
        | .ok _ => sc.perplexityLoop rest (logprob.add batchLogprob) (numWords + batchNumWords)   -- 247-248

/-- textscorer.py:199-254 `compute_perplexity`. -/
def Scorer.computePerplexity {S : Type} [Field S] [LT S] [DecidableLT S] [DecidableEq S] (sc : Scorer S)
    (batches : List (List (List Nat) × List (List Nat))) : Except Err (Flt S) :=
  match sc.perplexityLoop batches (.fin 0) 0 with
  | .error e => .error e
  | .ok (logprob, numWords) =>
    if numWords = 0 then .error .valueError                                     -- 250-252
    else .ok (((logprob.neg).divNat numWords).exp sc.exp)                       -- 253-254

/-- textscorer.py:256-303 `score_sequence`.  The mask is all ones. -/
def Scorer.scoreSequence {S : Type} [Add S] [Zero S] [LT S] [DecidableLT S] [DecidableEq S] (sc : Scorer S)
    (sequence : List (Nat × Nat × ℚ)) : Except Err (Flt S) :=
  match sc.totalLogprob (sequence.map (fun p => [Cell.mk p.1 p.2.1 p.2.2 1])) with
  | .error e => .error e
  | .ok (logprob, _) => checkLogprob logprob

/-- textscorer.py:305-344 `score_line`; `None` for an empty line.  The counters `num_words` and `num_unks` are not modelled. -/
def Scorer.scoreLine {S : Type} [Add S] [Zero S] [LT S] [DecidableLT S] [DecidableEq S] (sc : Scorer S)
    (line : Str) : Except Err (Option (Flt S)) :=
  match utteranceFromLine line with                                             -- 330
  | .error e => .error e
  | .ok words =>
    if words = [] then .ok none                                                 -- 331-332
    else
      match sc.vocab.wordsToIds words with                                      -- 334
      | .error e => .error e
      | .ok wordIds =>
        match mapE (fun wordId =>                                               -- 339-342
            match sc.vocab.classOf[wordId]?, sc.vocab.getWordProb wordId with
            | none, _ => .error .indexError
            | _, .error e => .error e
            | some classId, .ok prob => .ok (wordId, classId, prob)) wordIds with
        | .error e => .error e
        | .ok sequence =>
          match sc.scoreSequence sequence with                                  -- 344
          | .error e => .error e
          | .ok lp => .ok (some lp)

end TheanoLM
