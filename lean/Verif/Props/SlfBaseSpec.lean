import Verif.Model.SlfLattice
import Mathlib.Analysis.SpecialFunctions.Pow.Real
/-!
# Specification: SLF lattices whose scores are given in different bases (C133)
-/
namespace TheanoLM

/-- The field has the given name. -/
def Named (f name : Str) (value : Str) : Prop := splitSlfField f = .ok (name, value)

/-- The probability that a score stands for.  Base zero means that the file contains probabilities. -/
noncomputable def slfProb (b x : ℝ) : ℝ := if b = 0 then x else b ^ x

/-- The names of the fields that contain scores. -/
def scoreNames : List Str :=
  ["acoustic".toList, "a".toList, "language".toList, "l".toList, "wdpenalty".toList]

/-- The fields of two lines are the same, apart from fields that declare the bases `b` and `b'`, and scores that are
given in these bases. -/
inductive SameFields (T : SlfText ℝ) (b b' : ℝ) : List Str → List Str → Prop
  | nil : SameFields T b b' [] []
  | other {f : Str} {fs fs' : List Str} : (∀ name value, Named f name value → name ∉ "base".toList :: scoreNames) →
      SameFields T b b' fs fs' → SameFields T b b' (f :: fs) (f :: fs')
  | score {f f' name v v' : Str} {x x' : ℝ} {fs fs' : List Str} : name ∈ scoreNames → Named f name v →
      Named f' name v' → T.parseScore v = some x → T.parseScore v' = some x' →
      0 < slfProb b x → slfProb b x = slfProb b' x' →
      SameFields T b b' fs fs' → SameFields T b b' (f :: fs) (f' :: fs')
  | left {f v : Str} {fs fs' : List Str} : Named f "base".toList v → T.parseScore v = some b →
      SameFields T b b' fs fs' → SameFields T b b' (f :: fs) fs'
  | right {f v : Str} {fs fs' : List Str} : Named f "base".toList v → T.parseScore v = some b' →
      SameFields T b b' fs fs' → SameFields T b b' fs (f :: fs')

/-- The first field of a line has the name. -/
def StartsWith (name : Str) (fs : List Str) : Prop := ∃ f v rest, fs = f :: rest ∧ Named f name v

/-- The line does not define a node or a link: it is empty or the first field has another name. -/
def NotItem (fs : List Str) : Prop := fs = [] ∨ ∃ name, StartsWith name fs ∧ name ∉ ["I".toList, "J".toList]

/-- Two lines are the same apart from the base.  Both begin with the same field, or neither defines a node or a link. -/
def SameLine (T : SlfText ℝ) (b b' : ℝ) (line line' : Str) : Prop :=
  ∃ fs fs', T.tok line = .ok fs ∧ T.tok line' = .ok fs' ∧ SameFields T b b' fs fs' ∧
    ((∃ name, StartsWith name fs ∧ StartsWith name fs') ∨
      (NotItem fs ∧ NotItem fs'))

/-- None of the fields has any of the names. -/
def NoField (names : List Str) (fs : List Str) : Prop :=
  ∀ f ∈ fs, ∀ name v, Named f name v → name ∉ names

/-- The header of the file declares the base: there is a field `base` before or on the line that completes the numbers
of nodes and links.  Natural logarithms do not have to be declared. -/
def Declares (T : SlfText ℝ) (b : ℝ) (lines : List Str) : Prop :=
  b = Real.exp 1 ∨ ∃ (head rest : List Str) (toks : List (List Str)) (last : List Str) (f v : Str),
    lines = head ++ rest ∧ List.Forall₂ (fun line fs => T.tok line = .ok fs) head (toks ++ [last]) ∧
    (NoField ["NODES".toList, "N".toList] toks.flatten ∨ NoField ["LINKS".toList, "L".toList] toks.flatten) ∧
    f ∈ toks.flatten ++ last ∧ Named f "base".toList v ∧ T.parseScore v = some b

end TheanoLM
