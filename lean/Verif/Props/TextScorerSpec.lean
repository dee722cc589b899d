import Verif.Model.TextScorer
import Verif.Props.VocabularySpec
import Mathlib.Data.List.Forall2
/-!
# Specification for the properties of text scoring, C38, C39 and C75
-/
namespace TheanoLM

/-- The matrix with the given elements. -/
def table (rows cols : Nat) (f : Nat → Nat → α) : List (List α) :=
  (List.range rows).map (fun t => (List.range cols).map (fun i => f t i))

/-- A mini-batch of `n` sequences with `steps + 1` time steps: word IDs and mask at each time step and sequence.  The words of
the time steps from 1 to `steps` are predicted. -/
structure MiniBatch where
  steps : Nat
  n : Nat
  word : Nat → Nat → Nat
  mask : Nat → Nat → Nat

/-- The matrices that are given to the scorer. -/
def MiniBatch.matrices (b : MiniBatch) : List (List Nat) × List (List Nat) :=
  (table (b.steps + 1) b.n b.word, table (b.steps + 1) b.n b.mask)

/-- Class ID and membership probability of a word ID (`C68`). -/
def memberOf (v : Vocab) (wordId : Nat) : Nat × ℚ :=
  match v.classMembership wordId with | .ok r => r | .error _ => (0, 0)

/-- The mini-batch contains IDs of words in the vocabulary, and the mask is zero or one. -/
structure MiniBatch.Valid (b : MiniBatch) (v : Vocab) : Prop where
  word : ∀ t i, t ≤ b.steps → i < b.n → b.word t i < v.numWords
  mask : ∀ t i, t ≤ b.steps → i < b.n → b.mask t i = 0 ∨ b.mask t i = 1

/-- The scorer knows the ID of `<unk>` (textscorer.py:60), and its vocabulary has been constructed by the program. -/
structure Scorer.Proper {S : Type} (sc : Scorer S) (P : Parsers) : Prop where
  vocab : Constructible P sc.vocab
  unk : sc.vocab.wordToId unk = some sc.unkId

/-- The log probability that the network predicts for the target word at time step `t + 1` of sequence `i`.  Input words
outside the shortlist are given to the network as `<unk>`. -/
def Scorer.networkScore {S : Type} (sc : Scorer S) (b : MiniBatch) (t i : Nat) : Flt S :=
  sc.net (table b.steps b.n (fun t i => if b.word t i < sc.vocab.numShortlist then b.word t i else sc.unkId))
    (table b.steps b.n (fun t i => (memberOf sc.vocab (b.word t i)).1))
    (table b.steps b.n (fun t i => (memberOf sc.vocab (b.word (t + 1) i)).1))
    (table b.steps b.n (fun t i => b.mask (t + 1) i)) t i

/-- The out-of-shortlist probabilities are used: it is requested and they are known. -/
def Scorer.UsesShortlist {S : Type} (sc : Scorer S) : Prop := sc.useShortlist = true ∧ sc.vocab.unigram ≠ none

instance {S : Type} (sc : Scorer S) : Decidable sc.UsesShortlist := by unfold Scorer.UsesShortlist; infer_instance

/-- `x` is the log probability of the target word at time step `t + 1` of sequence `i`: the sum of the log probabilities of the
class given the preceding words, of the word in its class, and, if a shortlist is used, of the word among the out-of-shortlist
words (`C17`; it is zero for shortlist words). -/
def Scorer.WordScore {S : Type} [Add S] (sc : Scorer S) (b : MiniBatch) (t i : Nat) (x : Flt S) : Prop :=
  (¬ sc.UsesShortlist → x = (sc.networkScore b t i).add (sc.log (memberOf sc.vocab (b.word (t + 1) i)).2)) ∧
  (sc.UsesShortlist → ∃ r q, sc.vocab.oosProbs = some r ∧ r[b.word (t + 1) i]? = some q ∧
    x = ((sc.networkScore b t i).add (sc.log (memberOf sc.vocab (b.word (t + 1) i)).2)).add
      (match q with | some q => sc.log q | none => .nan))

/-- The word is not predicted: with a shortlist this is so for `<unk>`, and without a shortlist, if so requested, for `<unk>`
and the words outside the shortlist. -/
def Scorer.Excluded {S : Type} (sc : Scorer S) (wordId : Nat) : Prop :=
  if sc.UsesShortlist then wordId = sc.unkId
  else sc.excludeUnk = true ∧ (wordId = sc.unkId ∨ sc.vocab.numShortlist ≤ wordId)

instance {S : Type} (sc : Scorer S) (w : Nat) : Decidable (sc.Excluded w) := by
  unfold Scorer.Excluded; infer_instance

/-- The target word at time step `t + 1` of sequence `i` is included in the perplexity: it is not masked, it is not excluded,
and its class membership probability is not zero. -/
def Scorer.Included {S : Type} (sc : Scorer S) (b : MiniBatch) (t i : Nat) : Prop :=
  b.mask (t + 1) i = 1 ∧ ¬ sc.Excluded (b.word (t + 1) i) ∧ (memberOf sc.vocab (b.word (t + 1) i)).2 ≠ 0

instance {S : Type} (sc : Scorer S) (b : MiniBatch) (t i : Nat) : Decidable (sc.Included b t i) := by
  unfold Scorer.Included; infer_instance

/-- The positions of the target words of a mini-batch. -/
def MiniBatch.positions (b : MiniBatch) : List (Nat × Nat) :=
  (List.range b.steps).flatMap (fun t => (List.range b.n).map (fun i => (t, i)))

/-- `xs` are the log probabilities of the included words of the mini-batch. -/
def Scorer.IncludedScores {S : Type} [Add S] (sc : Scorer S) (b : MiniBatch) (xs : List (Flt S)) : Prop :=
  List.Forall₂ (fun p x => sc.WordScore b p.1 p.2 x) (b.positions.filter (fun p => decide (sc.Included b p.1 p.2))) xs

/-- `ys` are the scores of sequence `i` of the mini-batch: one for every target word before the end of the sequence, `none` for
excluded words. -/
def Scorer.SequenceScores {S : Type} [Add S] (sc : Scorer S) (b : MiniBatch) (i : Nat) (ys : List (Option (Flt S))) : Prop :=
  List.Forall₂ (fun t y => (sc.Excluded (b.word (t + 1) i) → y = none) ∧
      (¬ sc.Excluded (b.word (t + 1) i) → ∃ x, y = some x ∧ sc.WordScore b t i x))
    ((List.range b.steps).filter (fun t => decide (b.mask (t + 1) i = 1))) ys

/-- A mini-batch with the words of one sentence. -/
def sentenceBatch (ids : List Nat) : MiniBatch :=
  ⟨ids.length - 1, 1, fun t _ => ids.getD t 0, fun _ _ => 1⟩

end TheanoLM
