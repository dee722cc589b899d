import Verif.Model.Decoder
import Verif.Props.LatticeSpec
import Mathlib.Data.List.Forall2
/-!
# Specifications for the lattice decoder
-/
namespace TheanoLM

variable {S St : Type}

/-- A path of links from the node `a`. -/
inductive Lattice.Path (L : Lattice S) (a : Nat) : List (Link S) → Nat → Prop
  | nil : Lattice.Path L a [] a
  | snoc (ls : List (Link S)) (k : Link S) : Lattice.Path L a ls k.startNode → k ∈ L.links →
      Lattice.Path L a (ls ++ [k]) k.endNode

/-- A final node. -/
def Lattice.Final (L : Lattice S) (n : Nat) : Prop := ∃ node : Node, L.nodes[n]? = some node ∧ node.final = true

/-- How a word of the lattice is shown in a history: as word ID, or as text if it is not in the vocabulary. -/
def HistIs (V : DecVocab S) (w : Str) (h : HistWord) : Prop :=
  (∀ i : Nat, V.wordToId w = some i → h = .inl i) ∧ (V.wordToId w = none → h = .inr w)

/-- The words on a path; null links do not have words. -/
def pathText (ls : List (Link S)) : List Str := ls.filterMap (fun k => k.word)

/-- Total acoustic score of a path; a missing score is zero. -/
def acOf [AddCommMonoid S] (ls : List (Link S)) : S := (ls.map (fun k => k.ac.getD 0)).sum

/-- Total language model score of a path in the lattice. -/
def lmOf [AddCommMonoid S] (ls : List (Link S)) : S := (ls.map (fun k => k.lm.getD 0)).sum

/-- The histories end in the same words: the given number of words is compared, or entire histories if it is not given
or is zero. -/
def SameRecent (order : Option Nat) (h h' : List HistWord) : Prop :=
  match order with
  | none => h = h'
  | some 0 => h = h'
  | some (n + 1) => h.reverse.take (n + 1) = h'.reverse.take (n + 1)

/-- Tokens in descending order of total log probability. -/
def Descending [LE S] (ts : List (Token S St)) : Prop := ts.Pairwise (fun a b => b.total ≤ a.total)

section
variable [Field S] [LinearOrder S]

/-- The word ID that the network knows: words outside the shortlist and the vocabulary are `<unk>`. -/
def netId (V : DecVocab S) : HistWord → Nat
  | .inl i => if V.inShortlist i = true then i else V.unk
  | .inr _ => V.unk

/-- The state of the network when it has read the given words. -/
def netState (D : Decoder S St) (words : List HistWord) : St :=
  words.foldl (fun s w => D.net.next s (netId D.vocab w) (D.vocab.classId (netId D.vocab w))) D.net.initial

/-- Log probability of the class of the word `w`, when it follows the words `before` and `prev`. -/
def classScore (D : Decoder S St) (before : List HistWord) (prev w : HistWord) : S :=
  D.net.logprob (netState D before) (netId D.vocab prev) (D.vocab.classId (netId D.vocab prev))
    (D.vocab.classId (netId D.vocab w))

/-- The network predicts the same from histories that recombination does not tell apart. -/
def ContextLimited (D : Decoder S St) : Prop :=
  ∀ (before before' : List HistWord) (prev prev' w : HistWord),
    SameRecent D.recombinationOrder (before ++ [prev]) (before' ++ [prev']) →
    classScore D before prev w = classScore D before' prev' w

/-- Log probability of a word within its class. -/
def memberScore (V : DecVocab S) (w : HistWord) : S := V.logMember (netId V w)

/-- The fraction of the `<unk>` probability that belongs to the word, if it is distributed. -/
def oosScore (V : DecVocab S) : HistWord → S
  | .inl i => match V.oosLogprob with
    | some oos => oos i
    | none => 0
  | .inr _ => 0

/-- Words for which an `<unk>` score is used if one is given: words outside the vocabulary, and words outside the
shortlist, unless the probability of `<unk>` is distributed among them. -/
def IsUnknown (V : DecVocab S) : HistWord → Prop
  | .inl i => V.oosLogprob = none ∧ V.inShortlist i = false
  | .inr _ => True

/-- The log probability of a word, given the preceding words, and the score that replaces it if the word is
unknown. -/
def WordScore (D : Decoder S St) (before : List HistWord) (prev w : HistWord) (unkScore : Option S) (x : S) : Prop :=
  (∀ y : S, unkScore = some y → IsUnknown D.vocab w → x = y) ∧
  (unkScore = none ∨ ¬ IsUnknown D.vocab w →
    x = classScore D before prev w + memberScore D.vocab w + oosScore D.vocab w)

/-- The score that is given for an unknown word on a link: the language model score of the link, or the penalty. -/
def UnkScore (D : Decoder S St) (k : Link S) (s : Option S) : Prop :=
  (D.unkFromLattice = true → s = k.lm) ∧ (D.unkFromLattice = false → s = D.unkPenalty)

/-- The history of a path (that starts with `<s>`) and the sum of the log probabilities of its words. -/
inductive NNPath (D : Decoder S St) : List (Link S) → List HistWord → S → Prop
  | nil : NNPath D [] [.inl D.vocab.sos] 0
  | null (ls : List (Link S)) (k : Link S) (h : List HistWord) (x : S) : NNPath D ls h x → k.word = none →
      NNPath D (ls ++ [k]) h x
  | word (ls : List (Link S)) (k : Link S) (before : List HistWord) (prev w : HistWord) (text : Str)
      (s : Option S) (x y : S) :
      NNPath D ls (before ++ [prev]) x → k.word = some text → HistIs D.vocab text w → UnkScore D k s →
      WordScore D before prev w s y → NNPath D (ls ++ [k]) (before ++ [prev, w]) (x + y)

/-- The sum of the log probabilities of the words of a complete path, including `</s>`. -/
def NNComplete (D : Decoder S St) (ls : List (Link S)) (z : S) : Prop :=
  ∃ (before : List HistWord) (prev : HistWord) (x y : S), NNPath D ls (before ++ [prev]) x ∧
    WordScore D before prev (.inl D.vocab.eos) none y ∧ z = x + y

/-- The score that the decoder adds for a word: the same as `WordScore`, but with the membership probability of the
preceding word. -/
def AddedScore (D : Decoder S St) (before : List HistWord) (prev w : HistWord) (unkScore : Option S) (x : S) : Prop :=
  (∀ y : S, unkScore = some y → IsUnknown D.vocab w → x = y) ∧
  (unkScore = none ∨ ¬ IsUnknown D.vocab w →
    x = classScore D before prev w + memberScore D.vocab prev + oosScore D.vocab w)

/-- The history of a path and the sum of the added scores. -/
inductive AddedPath (D : Decoder S St) : List (Link S) → List HistWord → S → Prop
  | nil : AddedPath D [] [.inl D.vocab.sos] 0
  | null (ls : List (Link S)) (k : Link S) (h : List HistWord) (x : S) : AddedPath D ls h x → k.word = none →
      AddedPath D (ls ++ [k]) h x
  | word (ls : List (Link S)) (k : Link S) (before : List HistWord) (prev w : HistWord) (text : Str)
      (s : Option S) (x y : S) :
      AddedPath D ls (before ++ [prev]) x → k.word = some text → HistIs D.vocab text w → UnkScore D k s →
      AddedScore D before prev w s y → AddedPath D (ls ++ [k]) (before ++ [prev, w]) (x + y)

/-- The sum of the added scores of a complete path, including `</s>`. -/
def AddedComplete (D : Decoder S St) (ls : List (Link S)) (z : S) : Prop :=
  ∃ (before : List HistWord) (prev : HistWord) (x y : S), AddedPath D ls (before ++ [prev]) x ∧
    AddedScore D before prev (.inl D.vocab.eos) none y ∧ z = x + y

/-- The score of a complete path, given the neural network score: the scores of the language models are interpolated,
and a penalty is added for each word and for `</s>`. -/
def pathScore (D : Decoder S St) (L : Lattice S) (ls : List (Link S)) (nn : S) : S :=
  acOf ls + (D.nnlmWeight * nn + (1 - D.nnlmWeight) * lmOf ls) * (D.lmScale.or L.lmScale).getD 1 +
    (D.wiPenalty.or L.wiPenalty).getD 0 * ((pathText ls).length + 1)

end

end TheanoLM
