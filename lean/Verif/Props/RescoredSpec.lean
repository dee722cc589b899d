import Verif.Props.DecoderSpec
import Verif.Model.RescoredLattice
/-!
# Specifications for rescored lattices
-/
namespace TheanoLM

variable {S St : Type}

/-- The links lead from `a` to `b` through null links and finally a link with the word `w`. -/
def WordStep (L : Lattice S) (a : Nat) (w : Str) (seg : List (Link S)) (b : Nat) : Prop :=
  ∃ (ns : List (Link S)) (k : Link S), seg = ns ++ [k] ∧ (∀ x ∈ ns, x.word = none) ∧ k.word = some w ∧ L.Path a seg b

/-- There is at most one way from a node to a following word. -/
def Determinized (L : Lattice S) : Prop :=
  ∀ (a : Nat) (w : Str) (seg seg' : List (Link S)) (b b' : Nat), WordStep L a w seg b → WordStep L a w seg' b' →
    seg = seg' ∧ b = b'

/-- There are no null links. -/
def NoNulls (L : Lattice S) : Prop := ∀ k ∈ L.links, k.word ≠ none

/-- Links with the same word to the same node have the same acoustic score and transitions. -/
def ParallelSame [Zero S] (L : Lattice S) : Prop := ∀ k ∈ L.links, ∀ k' ∈ L.links, k.endNode = k'.endNode → k.word = k'.word →
  k.ac.getD 0 = k'.ac.getD 0 ∧ k.transitions = k'.transitions

/-- Links with the same word to the same node have the same language model score. -/
def ParallelLm [Zero S] (L : Lattice S) : Prop := ∀ k ∈ L.links, ∀ k' ∈ L.links, k.endNode = k'.endNode → k.word = k'.word →
  k.lm.getD 0 = k'.lm.getD 0

/-- Word texts of a history, as the vocabulary shows them. -/
def TextOf (idToWord : Nat → Option Str) (h : HistWord) (w : Str) : Prop :=
  (∀ i : Nat, h = .inl i → idToWord i = some w) ∧ (∀ t : Str, h = .inr t → t = w)

/-- The word IDs and the words of the vocabulary are inverses. -/
def VocabInverse (V : DecVocab S) (idToWord : Nat → Option Str) : Prop :=
  ∀ (w : Str) (i : Nat), V.wordToId w = some i → idToWord i = some w

end TheanoLM
