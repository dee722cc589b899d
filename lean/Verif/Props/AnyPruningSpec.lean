import Verif.Props.BeamPruningSpec
/-!
# Specifications for any combination of the pruning options (C135)
-/
namespace TheanoLM

variable {S St : Type}

/-- How many times tighter the limits are in a lattice of the given size: one plus the number of nodes divided by the
option `prune_extra_limit` of the decoder, if it is given (the decode command never gives it, see C34). -/
def pruneFactor (D : Decoder S St) (numNodes : Nat) : Nat :=
  match D.pruneExtraLimit with
  | none => 1
  | some r => numNodes / r + 1

/-- The limit on the number of hypotheses that is used in a node, given the option. -/
def tokenLimit (D : Decoder S St) (L : Lattice S) (m : Nat) : Nat :=
  max (m / pruneFactor D L.nodes.length) D.absMinMaxTokens

section
variable [Field S] [LinearOrder S]

/-- The beam that is used in a node, given the option. -/
def beamWidth (D : Decoder S St) (L : Lattice S) (beam : S) : S :=
  max (beam / (pruneFactor D L.nodes.length : S)) D.absMinBeam

end

/-- The options leave room for a hypothesis: the relative limit is not zero, and the number of hypotheses is not limited to
zero. -/
def PruningLeaves (D : Decoder S St) (L : Lattice S) : Prop :=
  D.pruneExtraLimit ≠ some 0 ∧ ∀ m : Nat, D.maxTokens = some m → 1 ≤ tokenLimit D L m

end TheanoLM
