import Verif.Model.SlfWrite
import Verif.Props.SlfSpec
/-!
# Specifications for the text of SLF lattices
-/
namespace TheanoLM

variable {S : Type}

/-! ## The fields on a line -/

/-- Text inside double quotes and what it stands for.  The double quote and the backslash have to be escaped using a backslash; a
backslash in front of any other character stands for itself. -/
inductive QuotedText : Str → Str → Prop
  | nil : QuotedText [] []
  | char (c : Char) (t v : Str) : c ≠ '"' → c ≠ '\\' → QuotedText t v → QuotedText (c :: t) (c :: v)
  | escaped (c : Char) (t v : Str) : c = '"' ∨ c = '\\' → QuotedText t v → QuotedText ('\\' :: c :: t) (c :: v)
  | backslash (c : Char) (t v : Str) : c ≠ '"' → c ≠ '\\' → QuotedText t v → QuotedText ('\\' :: c :: t) ('\\' :: c :: v)

/-- Characters that separate the fields. -/
def SlfSpace (c : Char) : Prop := c = ' ' ∨ c = '\t' ∨ c = '\r' ∨ c = '\n'

/-- Text of a field and what it stands for: ordinary characters, escaped characters and quoted text. -/
inductive FieldText : Str → Str → Prop
  | nil : FieldText [] []
  | char (c : Char) (t v : Str) : ¬ SlfSpace c → c ≠ '#' → c ≠ '"' → c ≠ '\\' → FieldText t v → FieldText (c :: t) (c :: v)
  | escaped (c : Char) (t v : Str) : FieldText t v → FieldText ('\\' :: c :: t) (c :: v)
  | quoted (t v t' v' : Str) : QuotedText t v → FieldText t' v' → FieldText ('"' :: (t ++ '"' :: t')) (v ++ v')

/-- A field may be followed by a separator or a comment. -/
def FieldEnd (rest : Str) : Prop := ∀ c : Char, rest.head? = some c → SlfSpace c ∨ c = '#'

/-- The fields on a line. -/
inductive SlfFields : Str → List Str → Prop
  | nil : SlfFields [] []
  | space (c : Char) (cs : Str) (fields : List Str) : SlfSpace c → SlfFields cs fields → SlfFields (c :: cs) fields
  | comment (t : Str) : '\n' ∉ t → SlfFields ('#' :: t) []
  | commentLine (t cs : Str) (fields : List Str) : '\n' ∉ t → SlfFields cs fields → SlfFields ('#' :: (t ++ '\n' :: cs)) fields
  | field (t v rest : Str) (fields : List Str) : FieldText t v → t ≠ [] → FieldEnd rest → SlfFields rest fields →
      SlfFields (t ++ rest) (v :: fields)

/-! ## The round trip -/

/-- The text contains no separators, quotes, backslashes or hash signs. -/
def SlfPlain (s : Str) : Prop := ∀ c ∈ s, ¬ SlfSpace c ∧ c ≠ '#' ∧ c ≠ '"' ∧ c ≠ '\\'

/-- Numbers are written so that reading gives the same number back, as text that does not contain separators, quotes, backslashes or
hash signs. -/
structure SlfFaithful (W : SlfShow S) (T : SlfText S) : Prop where
  tok : ∀ line : Str, T.tok line = splitSlfLine line
  int : ∀ i : ℤ, T.parseInt (W.showInt i) = some i
  score : ∀ x : S, T.parseScore (W.showScore x) = some x
  time : ∀ t : ℚ, T.parseTime (W.showTime t) = some t
  int_text : ∀ i : ℤ, SlfPlain (W.showInt i)
  score_text : ∀ x : S, SlfPlain (W.showScore x)
  time_text : ∀ t : ℚ, SlfPlain (W.showTime t)

/-- An utterance ID that can be written in quotes. -/
def PlainUtterance (u : Str) : Prop := ∀ c ∈ u, c ≠ '"' ∧ c ≠ '\\' ∧ c ≠ '\n'

/-- A word that can be written: it contains no separators, quotes, backslashes or hash signs, and does not begin with `!`, which
marks special words. -/
def PlainWord (w : Str) : Prop := SlfPlain w ∧ ∀ t : Str, w ≠ '!' :: t

/-- The lattices have the same nodes, with the same times, the same links with the same words and scores, and the same header. -/
structure SameLattice (L L' : Lattice S) : Prop where
  times : L'.nodes.map Node.time = L.nodes.map Node.time
  finals : L'.nodes.map Node.final = L.nodes.map Node.final
  links : L'.links = L.links.map fun k => { k with transitions := [] }
  initial : L'.initial = L.initial
  utteranceId : L'.utteranceId = L.utteranceId
  lmScale : L'.lmScale = L.lmScale
  wiPenalty : L'.wiPenalty = L.wiPenalty

end TheanoLM
