import Verif.Model.MergeSubwords
import Mathlib.Data.List.Chain
/-!
# Specification for property C37: merging subwords to words
-/
namespace TheanoLM

/-- The sum of log probabilities; it is unknown (`none`) if one of the terms is. -/
def totalLogprob {S : Type} [Add S] [Zero S] : List (Option S) → Option S
  | [] => some 0
  | none :: _ => none
  | some a :: rest => (totalLogprob rest).map (a + ·)

/-- Two consecutive subwords belong to the same word in prefix-affix marking: the first one ends and the second one starts
with a plus sign. -/
def Joined (a b : Str) : Prop := (∃ x, a = x ++ ['+']) ∧ ∃ y, b = '+' :: y

/-- `AffixWords ps gs`: the groups `gs` are the words that the sequence `ps` of subwords and log probabilities consists of in
prefix-affix marking. -/
structure AffixWords {S : Type} (ps : List (Str × Option S)) (gs : List (List (Str × Option S))) : Prop where
  all : gs.flatten = ps
  nonempty : ∀ g ∈ gs, g ≠ []
  joined : ∀ g ∈ gs, g.IsChain (fun a b => Joined a.1 b.1)
  maximal : gs.IsChain (fun g h => ∀ a ∈ g.getLast?, ∀ b ∈ h.head?, ¬ Joined a.1 b.1)

/-- `BoundaryWords ps full last`: the sequence `ps` is cut at the boundary tokens `<w>` to the segments `full`, each with the
boundary that ends it, and the rest `last`. -/
structure BoundaryWords {S : Type} (ps : List (Str × Option S)) (full : List (List (Str × Option S) × (Str × Option S)))
    (last : List (Str × Option S)) : Prop where
  all : full.flatMap (fun s => s.1 ++ [s.2]) ++ last = ps
  ends : ∀ s ∈ full, s.2.1 = wordBoundaryToken
  inner : ∀ s ∈ full, ∀ p ∈ s.1, p.1 ≠ wordBoundaryToken
  innerLast : ∀ p ∈ last, p.1 ≠ wordBoundaryToken

/-- What is printed of a word in word-boundary marking: a word that contains `<unk>` is `<unk>`. -/
def shownWord {S : Type} (g : List (Str × Option S)) : List Str :=
  if unk ∈ g.map Prod.fst then [unk] else g.map Prod.fst

/-- The segments that contain a subword, each with its tokens including the boundary. -/
def nonemptySegments {S : Type} (full : List (List (Str × Option S) × (Str × Option S))) (last : List (Str × Option S)) :
    List (List (Str × Option S) × List (Str × Option S)) :=
  (full.map (fun s => (s.1, s.1 ++ [s.2])) ++ [(last, last)]).filter (fun s => decide (s.1 ≠ []))

end TheanoLM
