import Verif.Model.ScoreText
import Verif.Props.TextScorerSpec
import Verif.Lemmas.TextScorer
/-!
# Specification for C76: the statistics that the score command reports
-/
namespace TheanoLM

instance {S : Type} [AddMonoid S] : AddMonoid (Flt S) where
  add_assoc := Flt.add_assoc'
  zero_add := Flt.zero_add'
  add_zero := Flt.add_zero'
  nsmul := nsmulRec

/-- A mini-batch together with the words of its sequences. -/
abbrev TextBatch := MiniBatch × List (List Str)

/-- What the batch iterator gives to the score command. -/
def TextBatch.given (b : TextBatch) : List (List Nat) × List (List Str) × List (List Nat) :=
  (b.1.matrices.1, b.2, b.1.matrices.2)

/-- Number of tokens of sequence `i`. -/
def MiniBatch.numTokens (b : MiniBatch) (i : Nat) : Nat :=
  ((List.range (b.steps + 1)).filter (fun t => decide (b.mask t i = 1))).length

/-- There is one list of words for each sequence of the mini-batch, and its length is the number of tokens, the first of which
is not predicted. -/
structure TextBatch.WellFormed (b : TextBatch) : Prop where
  count : b.2.length = b.1.n
  length : ∀ i ws, b.2[i]? = some ws → ws.length = b.1.numTokens i
  first : ∀ i, i < b.1.n → b.1.mask 0 i = 1

/-- The words and log probabilities of a sentence after merging subwords. -/
structure Sentence (S : Type) where
  tokens : Nat
  words : List MergedWord
  lps : List (Option (Flt S))

/-- `sents` are the sentences of the text, in order. -/
def TextSentences {S : Type} [AddMonoid S] (sc : Scorer S) (marking : Marking) (bs : List TextBatch)
    (sents : List (Sentence S)) : Prop :=
  List.Forall₂ (fun (p : TextBatch × Nat) s => ∃ ws ys, p.1.2[p.2]? = some ws ∧ sc.SequenceScores p.1.1 p.2 ys ∧
      mergeSubwords ws ys marking = .ok (s.words, s.lps) ∧ s.tokens = p.1.1.numTokens p.2)
    (bs.flatMap (fun b => (List.range b.1.n).map (fun i => (b, i)))) sents

/-- The log probabilities of a sentence that are predicted: those of the words that are not excluded and whose probability is
not zero. -/
def Sentence.predicted {S : Type} (s : Sentence S) : List (Flt S) :=
  s.lps.filterMap (fun lp => match lp with
    | none => none
    | some .negInf => none
    | some x => some x)

end TheanoLM
