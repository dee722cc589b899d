import Verif.Props.DecoderSpec
/-!
# Specifications for beam pruning (C124)
-/
namespace TheanoLM

variable {S St : Type}

/-- The time stamps of a lattice: either no node has one, or all nodes have one and links do not go back in time. -/
def Lattice.TimesForward (L : Lattice S) : Prop :=
  (∀ n : Nat, n < L.nodes.length → L.time n = none) ∨
  ((∀ n : Nat, n < L.nodes.length → ∃ x : ℚ, L.time n = some x) ∧
    ∀ (a b : Nat) (x y : ℚ), L.Edge a b → L.time a = some x → L.time b = some y → x ≤ y)

/-- `m` is at the same time as `n` or later; without time stamps, `n` cannot be reached from `m`. -/
def Lattice.NotEarlier (L : Lattice S) (n m : Nat) : Prop :=
  (∀ x y : ℚ, L.time n = some x → L.time m = some y → x ≤ y) ∧
  (L.time n = none → ¬ Relation.TransGen L.Edge m n)

section
variable [Field S] [LinearOrder S]

/-- The score of a path that is not necessarily complete, given the neural network score. -/
def partialScore (D : Decoder S St) (L : Lattice S) (ls : List (Link S)) (nn : S) : S :=
  acOf ls + (D.nnlmWeight * nn + (1 - D.nnlmWeight) * lmOf ls) * (D.lmScale.or L.lmScale).getD 1 +
    (D.wiPenalty.or L.wiPenalty).getD 0 * (pathText ls).length

/-- The path stays within the beam: the score of no beginning `p` of the path `ls` is worse, by the width of the beam or
more, than the score of a path `q` that ends at the same time or later than `p`. -/
def WithinBeam (D : Decoder S St) (L : Lattice S) (beam : S) (ls : List (Link S)) : Prop :=
  ∀ (p q : List (Link S)) (n m : Nat) (hp hq : List HistWord) (x y : S), p <+: ls → L.Path L.initial p n →
    L.Path L.initial q m → L.NotEarlier n m → AddedPath D p hp x → AddedPath D q hq y →
    partialScore D L q y - beam < partialScore D L p x

/-- The only limit is the beam: interpolation is log-linear, and recombination makes no difference to the network. -/
structure BeamOnly (D : Decoder S St) (width : S) : Prop where
  linear : D.linear = false
  beam : D.beam = some width
  maxTokens : D.maxTokens = none
  extra : D.pruneExtraLimit = none
  absMin : D.absMinBeam ≤ width
  context : ContextLimited D

end

end TheanoLM
