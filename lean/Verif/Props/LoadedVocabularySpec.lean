import Verif.Model.Vocabulary

/-!
# Specification: the vocabulary of a model file

A model file contains the list of words, the class IDs of the shortlist words, the membership probabilities of the
shortlist words and possibly unigram probabilities of all the words.  Nothing here refers to the way they are read.
-/

namespace TheanoLM

/-- The words with a probability that belong to class `c`. -/
def fileMembers (classOf : List Nat) (probs : List ℚ) (c : Nat) : List Nat :=
  (List.range probs.length).filter (fun i => decide (classOf[i]? = some c))

/-- The sum of the probabilities of the words of class `c`. -/
def fileMass (classOf : List Nat) (probs : List ℚ) (c : Nat) : ℚ :=
  ((fileMembers classOf probs c).map (fun i => probs.getD i 0)).sum

/-- The files that are considered: the shortlist consists of words, and the probabilities of a class that has words do not
sum to zero. -/
structure FileConsidered (words : List Str) (classOf : List Nat) (probs : List ℚ) : Prop where
  short : classOf.length ≤ words.length
  mass : ∀ c, fileMembers classOf probs c ≠ [] → fileMass classOf probs c ≠ 0

/-- The files that contain a vocabulary. -/
structure FileConsistent (words : List Str) (classOf : List Nat) (probs : List ℚ) (unigram : Option (List ℚ)) :
    Prop where
  /-- There are classes, and every class up to the largest class ID has a word with a probability. -/
  nonempty : classOf ≠ []
  used : ∀ d ∈ classOf, ∀ c ≤ d, ∃ i < probs.length, classOf[i]? = some c
  /-- Every probability belongs to a shortlist word. -/
  probs : probs.length ≤ classOf.length
  /-- The special tokens exist. -/
  sos : sos ∈ words
  eos : eos ∈ words
  unk : unk ∈ words
  /-- There are as many unigram probabilities as words. -/
  unigram : ∀ u, unigram = some u → u.length = words.length

end TheanoLM
