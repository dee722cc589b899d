import Verif.Model.Lattice
import Mathlib.Logic.Relation
/-!
# Specifications for lattices
-/
namespace TheanoLM

variable {S : Type}

/-- Every link connects existing nodes and is registered, once, at the node where it starts and at the node where it
ends. -/
structure Lattice.WF (L : Lattice S) : Prop where
  initial : L.initial < L.nodes.length
  ends : ∀ k : Link S, k ∈ L.links → k.startNode < L.nodes.length ∧ k.endNode < L.nodes.length
  out_nodup : ∀ node : Node, node ∈ L.nodes → node.outLinks.Nodup
  out_iff : ∀ (n : Nat) (node : Node), L.nodes[n]? = some node → ∀ l : Nat,
    l ∈ node.outLinks ↔ ∃ k : Link S, L.links[l]? = some k ∧ k.startNode = n
  in_nodup : ∀ node : Node, node ∈ L.nodes → node.inLinks.Nodup
  in_iff : ∀ (n : Nat) (node : Node), L.nodes[n]? = some node → ∀ l : Nat,
    l ∈ node.inLinks ↔ ∃ k : Link S, L.links[l]? = some k ∧ k.endNode = n

/-- There is a link from `a` to `b`. -/
def Lattice.Edge (L : Lattice S) (a b : Nat) : Prop := ∃ k : Link S, k ∈ L.links ∧ k.startNode = a ∧ k.endNode = b

/-- There is a path of at least one link from `n` to `n`. -/
def Lattice.OnCycle (L : Lattice S) (n : Nat) : Prop := Relation.TransGen L.Edge n n

/-- `a` comes before `b` in the list. -/
def Before (r : List Nat) (a b : Nat) : Prop := ∃ l₁ l₂ : List Nat, r = l₁ ++ b :: l₂ ∧ a ∈ l₁

end TheanoLM
