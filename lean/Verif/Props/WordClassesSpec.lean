import Verif.Model.WordClasses
import Mathlib.Algebra.BigOperators.Group.Finset.Basic
/-!
# Specification for the properties of word class optimization, C20 to C23

`n` is the number of words, `count w` the number of occurrences of word `w`, `ww v w` the number of times that word `w`
follows word `v`, and `cl w` the class of word `w`.
-/
namespace TheanoLM

/-- Number of occurrences of the words of class `c`. -/
def classCount (n : Nat) (count : Nat → ℤ) (cl : Nat → Nat) (c : Nat) : ℤ :=
  ∑ w ∈ Finset.range n with cl w = c, count w

/-- Number of times that a word of class `b` follows a word of class `a`. -/
def classPairCount (n : Nat) (ww : Nat → Nat → ℤ) (cl : Nat → Nat) (a b : Nat) : ℤ :=
  ∑ v ∈ Finset.range n with cl v = a, ∑ w ∈ Finset.range n with cl w = b, ww v w

/-- Number of times that the word `w` follows a word of class `a`. -/
def classWordCount (n : Nat) (ww : Nat → Nat → ℤ) (cl : Nat → Nat) (a w : Nat) : ℤ :=
  ∑ v ∈ Finset.range n with cl v = a, ww v w

/-- Number of times that a word of class `b` follows the word `v`. -/
def wordClassCount (n : Nat) (ww : Nat → Nat → ℤ) (cl : Nat → Nat) (v b : Nat) : ℤ :=
  ∑ w ∈ Finset.range n with cl w = b, ww v w

/-- The stored statistics are those of the stored class assignment. -/
structure ExactCounts (cfg : OptCfg) (s : OptSt) : Prop where
  cls : ∀ c, s.classCounts c = classCount cfg.vocabularySize cfg.wordCounts s.wordToClass c
  cc : ∀ a b, s.ccCounts a b = classPairCount cfg.vocabularySize cfg.wwCounts s.wordToClass a b
  cw : ∀ a w, w < cfg.vocabularySize → s.cwCounts a w = classWordCount cfg.vocabularySize cfg.wwCounts s.wordToClass a w
  wc : ∀ v b, v < cfg.vocabularySize → s.wcCounts v b = wordClassCount cfg.vocabularySize cfg.wwCounts s.wordToClass v b

/-- `x log x`, where `0 log 0` is zero. -/
noncomputable def xlogx (x : ℤ) : ℝ := x * Real.log x

/-- The class bigram log likelihood of a class assignment with `C` classes:
`Σ N(a,b) log N(a,b) + Σ N(w) log N(w) - 2 Σ N(c) log N(c)`. -/
noncomputable def classLL (n C : Nat) (count : Nat → ℤ) (ww : Nat → Nat → ℤ) (cl : Nat → Nat) : ℝ :=
  ∑ a ∈ Finset.range C, ∑ b ∈ Finset.range C, xlogx (classPairCount n ww cl a b) +
  ∑ w ∈ Finset.range n, xlogx (count w) - 2 * ∑ c ∈ Finset.range C, xlogx (classCount n count cl c)

/-- The assignment where `w` has been moved to class `c`. -/
def reassign (cl : Nat → Nat) (w c : Nat) : Nat → Nat := fun v => if v = w then c else cl v

end TheanoLM
