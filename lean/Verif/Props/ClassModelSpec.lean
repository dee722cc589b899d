import Mathlib.Algebra.BigOperators.Group.Finset.Basic
import Mathlib.Data.Real.Basic
import Verif.Model.Vocabulary
/-!
# Specification for C108: class bigram models

The words are the numbers below `n`, and `cl w` is the class of word `w`.
-/
namespace TheanoLM

/-- The classes that have words. -/
def usedClasses (n : Nat) (cl : Nat → Nat) : Finset Nat := (Finset.range n).image cl

/-- A class bigram model: `next a b` is the probability that the word after a word of class `a` is in class `b`, and
`member w` is the probability of the word `w` among the words of its class. -/
structure ClassBigram (n : Nat) (cl : Nat → Nat) where
  next : Nat → Nat → ℝ
  member : Nat → ℝ
  next_nonneg : ∀ a b, 0 ≤ next a b
  member_nonneg : ∀ w, 0 ≤ member w
  next_sum : ∀ a ∈ usedClasses n cl, ∑ b ∈ usedClasses n cl, next a b = 1
  member_sum : ∀ c ∈ usedClasses n cl, ∑ w ∈ Finset.range n with cl w = c, member w = 1

/-- The probability of the words of one utterance after its first word. -/
def ClassBigram.utteranceProb {n : Nat} {cl : Nat → Nat} (m : ClassBigram n cl) : List Nat → ℝ
  | v :: w :: ws => m.next (cl v) (cl w) * m.member w * m.utteranceProb (w :: ws)
  | _ => 1

/-- The probability of a text, which is given as the utterances. -/
def ClassBigram.textProb {n : Nat} {cl : Nat → Nat} (m : ClassBigram n cl) (text : List (List Nat)) : ℝ :=
  (text.map m.utteranceProb).prod

/-- No other word is in the class of the word `w`. -/
def AloneInClass (n : Nat) (cl : Nat → Nat) (w : Nat) : Prop := ∀ x < n, cl x = cl w → x = w

/-- The class of each word in a vocabulary. -/
def wordClasses (v : Vocab) : Nat → Nat := fun w => v.classOf.getD w 0

/-- The word `w` has a class of its own, and the class is not one of those that words are moved to. -/
def OwnClass (v : Vocab) (w : Nat) : Prop := AloneInClass v.numWords (wordClasses v) w ∧ v.numNormal ≤ wordClasses v w

end TheanoLM
