import Verif.Props.Parsing
import Verif.Model.Vocabulary
/-!
# Specification for the properties of vocabularies, C11 to C18
-/
namespace TheanoLM

/-- The vocabularies that a program can obtain: by reading a file, from word counts, by computing probabilities from the
counts of a corpus, by reading a saved state, and by adding words outside the shortlist when there are no unigram
probabilities.  (The keys of a Python dictionary are distinct.) -/
inductive Constructible (P : Parsers) : Vocab → Prop
  | file (lines : List Str) (fmt : VocFormat) (oos : List Str) (v : Vocab)
      (h : vocabFromFile P lines fmt oos = .ok v) : Constructible P v
  | counts (wc : List (Str × Nat)) (n : Option Nat) (v : Vocab) (hk : (wc.map Prod.fst).Nodup)
      (h : vocabFromWordCounts wc n = .ok v) : Constructible P v
  | probs (v v' : Vocab) (wc : List (Str × Nat)) (upd : Bool) (hv : Constructible P v) (hk : (wc.map Prod.fst).Nodup)
      (h : computeProbs v wc upd = .ok v') : Constructible P v'
  | restored (v v' : Vocab) (st : VocabState) (hv : Constructible P v)
      (h : v.getState ⟨none, none, none, none⟩ = .ok st) (h' : vocabFromState (some st) = .ok v') : Constructible P v'
  | extended (v : Vocab) (rest : List Str) (hv : Constructible P v) (hu : v.unigram = none)
      (hn : (v.idToWord ++ rest).Nodup) : Constructible P { v with idToWord := v.idToWord ++ rest }

/-- What a non-blank line says, given its words: class in the file (if any), probability, and word. -/
inductive EntryOf (P : Parsers) : VocFormat → List Str → Option FileId × ℚ × Str → Prop
  | words (w : Str) : EntryOf P .words [w] (none, 1, w)
  | classes (w c : Str) (n : ℤ) (h : P.int c = some n) : EntryOf P .classes [w, c] (some (.num n), 1, w)
  | srilm (c p w : Str) (q : ℚ) (h : P.float p = some q) : EntryOf P .srilmClasses [c, p, w] (some (.name c), q, w)

/-- `Entries P fmt lines es`: every line is blank or well-formed, and `es` is what the non-blank lines say. -/
inductive Entries (P : Parsers) (fmt : VocFormat) : List Str → List (Option FileId × ℚ × Str) → Prop
  | nil : Entries P fmt [] []
  | blank (line : Str) (lines : List Str) (es : List (Option FileId × ℚ × Str)) (h : Words line [])
      (hr : Entries P fmt lines es) : Entries P fmt (line :: lines) es
  | cons (line : Str) (lines : List Str) (ws : List Str) (e : Option FileId × ℚ × Str)
      (es : List (Option FileId × ℚ × Str)) (hw : Words line ws) (h : EntryOf P fmt ws e)
      (hr : Entries P fmt lines es) : Entries P fmt (line :: lines) (e :: es)

/-- The word that an entry names. -/
def entryWord (e : Option FileId × ℚ × Str) : Str := e.2.2

/-- Two entries are in the same class according to the file: they have the same file ID. -/
def SameFileClass (e e' : Option FileId × ℚ × Str) : Prop := ∃ f, e.1 = some f ∧ e'.1 = some f

/-- Sum of the probabilities of the entries that are in the same class with entry number `i`. -/
def fileClassSum (es : List (Option FileId × ℚ × Str)) (e : Option FileId × ℚ × Str) : ℚ :=
  match e.1 with
  | none => e.2.1
  | some f => ((es.filter (fun e' => decide (e'.1 = some f))).map (fun e' => e'.2.1)).sum

/-- The tokens that the vocabulary adds after the listed words. -/
def missingSpecials (ws : List Str) : List Str := [sos, eos, unk].filter (fun t => decide (t ∉ ws))

/-- Membership probability as a number. -/
def probOf (v : Vocab) (i : Nat) : ℚ := match v.getWordProb i with | .ok p => p | .error _ => 0

/-- IDs of the shortlist words whose class is `c`. -/
def membersOf (v : Vocab) (c : Nat) : List Nat :=
  (List.range v.numShortlist).filter (fun i => decide (v.classOf[i]? = some c))

end TheanoLM
