import Verif.Model.KaldiLattice
import Verif.Props.LatticeSpec
import Verif.Props.Parsing
/-!
# Specifications for Kaldi lattices
-/
namespace TheanoLM

variable {S : Type}

/-- Numbers are written so that reading gives the same number back, as text that is not empty and contains no white
space or commas. -/
structure NumText.Faithful (T : NumText S) : Prop where
  int : ∀ i : ℤ, T.parseInt (T.showInt i) = some i
  score : ∀ x : S, T.parseScore (T.showScore x) = some x
  int_text : ∀ i : ℤ, T.showInt i ≠ [] ∧ ∀ c ∈ T.showInt i, isSpace c = false
  score_text : ∀ x : S, T.showScore x ≠ [] ∧ ∀ c ∈ T.showScore x, isSpace c = false ∧ c ≠ ','

/-- `s` is the text without the white space around it. -/
def Stripped (text s : Str) : Prop :=
  ∃ pre post : Str, text = pre ++ s ++ post ∧ (∀ c ∈ pre, isSpace c = true) ∧ (∀ c ∈ post, isSpace c = true) ∧
    (∀ c : Char, s.head? = some c → isSpace c = false) ∧ (∀ c : Char, s.getLast? = some c → isSpace c = false)

/-- The text contains something else than white space. -/
def HasText (s : Str) : Prop := ∃ c ∈ s, isSpace c = false

instance : DecidablePred HasText := fun _ => inferInstanceAs (Decidable (∃ _, _))

/-- The two mappings between words and Kaldi word IDs are inverses of each other, and contain the word `<eps>`. -/
structure WordMaps (idToWord : List (Option Str)) (wordToId : Str → Option ℤ) : Prop where
  to_id : ∀ (i : Nat) (w : Str), idToWord[i]? = some (some w) → wordToId w = some (i : ℤ)
  to_word : ∀ (w : Str) (j : ℤ), wordToId w = some j → ∃ i : Nat, j = (i : ℤ) ∧ idToWord[i]? = some (some w)
  eps : ∃ j : ℤ, wordToId "<eps>".toList = some j

/-- The score of a field: a number, or nothing, which means zero.  Weights are negative log probabilities. -/
inductive ScoreField [Zero S] [Neg S] (T : NumText S) : Option Str → S → Prop
  | missing : ScoreField T none (-0)
  | empty : ScoreField T (some []) (-0)
  | number (p : Str) (x : S) : p ≠ [] → T.parseScore p = some x → ScoreField T (some p) (-x)

/-- Reserved words that cannot label a link. -/
def Reserved (w : Str) : Prop := w = "<eps>".toList ∨ w = "#0".toList ∨ w = sos ∨ w = eos

/-- Element of a Python list; negative indices count from the end. -/
def PyItem {α : Type} (l : List α) (i : ℤ) (x : α) : Prop :=
  (∃ n : Nat, i = (n : ℤ) ∧ l[n]? = some x) ∨ (∃ n : Nat, i < 0 ∧ (n : ℤ) = (l.length : ℤ) + i ∧ l[n]? = some x)

/-- The word on a link with a word ID: a word of the vocabulary that is not reserved, or no word if the ID is that of
`<eps>` or a missing entry. -/
inductive WordField (idToWord : List (Option Str)) : ℤ → Option Str → Prop
  | word (i : ℤ) (w : Str) : PyItem idToWord i (some w) → ¬ Reserved w → WordField idToWord i (some w)
  | eps (i : ℤ) : PyItem idToWord i (some "<eps>".toList) → WordField idToWord i none
  | missing (i : ℤ) : PyItem idToWord i none → WordField idToWord i none

/-- A node given by a number; a negative number is some existing node. -/
def NodeField (numNodes : Nat) (state : ℤ) (node : Nat) : Prop := node < numNodes ∧ (0 ≤ state → (node : ℤ) = state)

/-- Fields separated by commas. -/
inductive CommaFields : Str → List Str → Prop
  | last (w : Str) : ',' ∉ w → CommaFields w [w]
  | cons (w rest : Str) (fields : List Str) : ',' ∉ w → CommaFields rest fields →
      CommaFields (w ++ ',' :: rest) (w :: fields)

/-- The weight field: graph score, acoustic score and transitions separated by commas. -/
structure WeightField [Zero S] [Neg S] (T : NumText S) (weight : Str) (k : Link S) : Prop where
  ex : ∃ (fields : List Str) (lm ac : S), CommaFields weight fields ∧ ScoreField T fields[0]? lm ∧
    ScoreField T fields[1]? ac ∧ k.lm = some lm ∧ k.ac = some ac ∧ k.transitions = (fields[2]?).getD []

/-- What a line with the given fields says about its link.  `final` is the ID of the final node. -/
inductive ArcLine [Zero S] [Neg S] (T : NumText S) (idToWord : List (Option Str)) (final : Nat) :
    List Str → Link S → Prop
  | finalState (a : Str) (s : ℤ) (k : Link S) : T.parseInt a = some s → NodeField final s k.startNode →
      k.endNode = final → k.word = none → WeightField T [] k → ArcLine T idToWord final [a] k
  | finalWeight (a w : Str) (s : ℤ) (k : Link S) : T.parseInt a = some s → NodeField final s k.startNode →
      k.endNode = final → k.word = none → WeightField T w k → ArcLine T idToWord final [a, w] k
  | arc (a b c w : Str) (s e i : ℤ) (k : Link S) : T.parseInt a = some s → T.parseInt b = some e →
      T.parseInt c = some i → NodeField final s k.startNode → NodeField final e k.endNode →
      WordField idToWord i k.word → WeightField T w k → ArcLine T idToWord final [a, b, c, w] k

end TheanoLM
