import Verif.Model.Recipes
import Verif.Props.Parsing
/-!
# Specification for the properties of the recipes, C93 and C94
-/
namespace TheanoLM

/-- The value that was given last to a key. -/
def lastOf {κ β : Type} [DecidableEq κ] (es : List (κ × β)) (k : κ) : Option β :=
  ((es.filter (fun e => decide (e.1 = k))).getLast?).map Prod.snd

/-- The number of the places of a sequence of words where an n-gram ends. -/
def ngramCount (g : List Str) (ws : List Str) : Nat :=
  ((List.range (ws.length + 1)).filter (fun k => decide (g <:+ ws.take k))).length

/-- What the lines of a file of n-gram counts say: the words before the first tab, and the number after it. -/
inductive CountLines (int : Str → Option ℤ) : List Str → List (List Str × ℤ) → Prop
  | nil : CountLines int [] []
  | cons (a b : Str) (lines : List Str) (ngram : List Str) (n : ℤ) (es : List (List Str × ℤ)) (ht : '\t' ∉ a)
      (hw : Words a ngram) (hn : int b = some n) (hr : CountLines int lines es) :
      CountLines int ((a ++ '\t' :: b) :: lines) ((ngram, n) :: es)

/-- What the lines of a file of class definitions say: the name of the class, the word and its probability. A line is
blank, it has a word and the number of its class, or it has the name of a class, a probability and a word. -/
inductive Definitions (float : Str → Option ℚ) : List Str → List ((Str × Str) × ℚ) → Prop
  | nil : Definitions float [] []
  | blank (line : Str) (lines : List Str) (ds : List ((Str × Str) × ℚ)) (hw : Words line [])
      (hr : Definitions float lines ds) : Definitions float (line :: lines) ds
  | mkcls (line : Str) (lines : List Str) (word number : Str) (ds : List ((Str × Str) × ℚ)) (hw : Words line [word, number])
      (hr : Definitions float lines ds) : Definitions float (line :: lines) (((mkclsName number, word), 0) :: ds)
  | srilm (line : Str) (lines : List Str) (name prob word : Str) (p : ℚ) (ds : List ((Str × Str) × ℚ))
      (hw : Words line [name, prob, word]) (hp : float prob = some p) (hr : Definitions float lines ds) :
      Definitions float (line :: lines) (((name, word), p) :: ds)

/-- A line that fix-class-probabilities writes: the name of the class, the probability and the word. -/
structure FixedLine where
  name : Str
  prob : ℚ
  word : Str
  deriving DecidableEq

/-- The text of a line. -/
def FixedLine.text (str : ℚ → Str) (l : FixedLine) : Str := joinSp [l.name, str l.prob, l.word] ++ ['\n']

/-- The unigram count of a word according to the file of counts. -/
def unigramCount (cs : List (List Str × ℤ)) (word : Str) : ℤ := (lastOf cs [word]).getD 0

/-- The total of the unigram counts of the words of a class. -/
def classTotal (cs : List (List Str × ℤ)) (out : List FixedLine) (name : Str) : ℤ :=
  ((out.filter (fun l => decide (l.name = name))).map (fun l => unigramCount cs l.word)).sum

/-- The total of the probabilities that the file of class definitions gives to the words of a class. -/
def givenTotal (ds : List ((Str × Str) × ℚ)) (out : List FixedLine) (name : Str) : ℚ :=
  ((out.filter (fun l => decide (l.name = name))).map (fun l => (lastOf ds (name, l.word)).getD 0)).sum

/-- The probability that a word of a class should have: its share of the unigram counts of the class if there are
any, otherwise its share of the given probabilities, and zero if there are none. -/
def fixedProb (ds : List ((Str × Str) × ℚ)) (cs : List (List Str × ℤ)) (out : List FixedLine) (name word : Str) : ℚ :=
  if classTotal cs out name ≠ 0 then (unigramCount cs word : ℚ) / (classTotal cs out name : ℚ)
  else if 0 < givenTotal ds out name then (lastOf ds (name, word)).getD 0 / givenTotal ds out name
  else 0

end TheanoLM
