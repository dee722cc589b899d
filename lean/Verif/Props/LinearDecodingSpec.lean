import Verif.Props.DecoderSpec
import Mathlib.Analysis.SpecialFunctions.Log.Basic
/-!
# Specifications for lattice decoding with linear interpolation
-/
namespace TheanoLM

section
variable {S St : Type} [Field S] [LinearOrder S]

/-- The score of a complete path with linear interpolation, given the neural network score. -/
def linearScore (D : Decoder S St) (L : Lattice S) (ls : List (Link S)) (nn : S) : S :=
  acOf ls + D.lin nn (lmOf ls) D.nnlmWeight * (D.lmScale.or L.lmScale).getD 1 +
    (D.wiPenalty.or L.wiPenalty).getD 0 * ((pathText ls).length + 1)

/-- Linear interpolation, no limits on hypotheses, and only hypotheses with the same words are recombined.  The scores of unknown words do
not come from the lattice. -/
structure LinearUnlimited (D : Decoder S St) : Prop where
  linear : D.linear = true
  beam : D.beam = none
  maxTokens : D.maxTokens = none
  order : D.recombinationOrder = none ∨ D.recombinationOrder = some 0
  extra : D.pruneExtraLimit = none
  unk : D.unkFromLattice = false

/-- Paths to the same node with the same words have the same language model score. -/
def Lattice.LmByWords (L : Lattice S) (V : DecVocab S) : Prop :=
  ∀ (ls ls' : List (Link S)) (n : Nat) (ws : List HistWord), L.Path L.initial ls n → L.Path L.initial ls' n →
    List.Forall₂ (HistIs V) (pathText ls) ws → List.Forall₂ (HistIs V) (pathText ls') ws → lmOf ls = lmOf ls'

end

/-- Linear interpolation of probabilities that are given by their logarithms. -/
noncomputable def linearInterpolation (x y w : ℝ) : ℝ := Real.log (w * Real.exp x + (1 - w) * Real.exp y)

end TheanoLM
