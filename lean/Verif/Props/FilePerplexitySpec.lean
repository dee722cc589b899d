import Verif.Model.FilePerplexity
import Verif.Props.ScoreOutputSpec
/-!
# Specification for C110
-/
namespace TheanoLM
variable {S : Type} [Field S]

/-- `xs` are the log probabilities of the included words of a sequence, when it is scored alone. -/
def SequenceScored (sc : Scorer S) (seq : List Tok) (xs : List (Flt S)) : Prop :=
  ∃ ids, List.Forall₂ (fun p id => IdOf sc.vocab false sc.unkId p.1 id) seq ids ∧ sc.IncludedScores (sentenceBatch ids) xs

/-- `r` is the result of computing a perplexity from the log probabilities of words. -/
inductive PerplexityOf (exp : S → S) : List (Flt S) → Except Err (Flt S) → Prop
  | perplexity (xs : List S) : xs ≠ [] → PerplexityOf exp (xs.map .fin) (.ok (.fin (exp (-xs.sum / xs.length))))
  | noWords : PerplexityOf exp [] (.error .valueError)
  | notFinite (scores : List (Flt S)) : (∃ x ∈ scores, ∀ y, x ≠ .fin y) → PerplexityOf exp scores (.error .numberError)

/-- No word of a sequence that is scored alone has a probability greater than one. -/
def Scorer.NonPositive [LE S] (sc : Scorer S) : Prop :=
  ∀ (ids : List Nat) (t : Nat) (x : S), (sentenceBatch ids).Valid sc.vocab → t < (sentenceBatch ids).steps →
    sc.Included (sentenceBatch ids) t 0 → sc.WordScore (sentenceBatch ids) t 0 (.fin x) → x ≤ 0

end TheanoLM
