import Verif.Model.ScoreOutput
import Verif.Props.ScoreTextSpec
import Verif.Props.PrepareBatch
/-!
# Specification for C88 and C89: what the score command writes
-/
namespace TheanoLM

section
variable {S : Type} [Field S]

/-- The network predicts the same log probabilities for the words of a sequence, whatever else there is in the mini-batch.
(`C59_partial`: this is the case unless there are bidirectional layers.) -/
def Scorer.BatchIndependent (sc : Scorer S) : Prop :=
  ∀ (b b' : MiniBatch) (i i' len : Nat), b.Valid sc.vocab → b'.Valid sc.vocab → i < b.n → i' < b'.n →
    len ≤ b.steps → len ≤ b'.steps →
    (∀ t, t ≤ len → b.word t i = b'.word t i' ∧ b.mask t i = 1 ∧ b'.mask t i' = 1) →
    ∀ t, t < len → sc.networkScore b t i = sc.networkScore b' t i'

/-- `s` is the sentence on a line: the words of the line with the sentence start and end tags, scored alone, and then subwords
have been merged (`C37`). -/
def SentenceOfLine (sc : Scorer S) (marking : Marking) (line : Str) (s : Sentence S) : Prop :=
  ∃ u ids ys, utteranceFromLine line = .ok u ∧ List.Forall₂ (IdOf sc.vocab false sc.unkId) u ids ∧
    sc.SequenceScores (sentenceBatch ids) 0 ys ∧ mergeSubwords u ys marking = .ok (s.words, s.lps) ∧ s.tokens = u.length

/-- The lines with something else than white space. -/
def linesWithWords (lines : List Str) : List Str := lines.filter (fun line => line.any (fun c => !isSpace c))

/-- The subwords of a word, or the word itself. -/
def MergedWord.fields : MergedWord → List Str
  | .plain word => [word]
  | .parts subwords => subwords

/-- Whether the word is in the vocabulary and in the shortlist. -/
inductive InfoOf (v : Vocab) (word : Str) : Str → Prop
  | unknown : word ∉ v.idToWord → InfoOf v word (word ++ ":OOV".toList)
  | shortlist (i : Nat) : v.idToWord[i]? = some word → i < v.numShortlist → InfoOf v word (word ++ ":shortlist".toList)
  | outOfShortlist (i : Nat) : v.idToWord[i]? = some word → v.numShortlist ≤ i → InfoOf v word (word ++ ":OOS".toList)

/-- What is shown of the words before the predicted one: all, if there are at most three, and otherwise the last three after
an ellipsis. -/
def HistoryShown (history : List MergedWord) (shown : List Str) : Prop :=
  (history.length ≤ 3 → shown = history.map (fun w => joinSp w.fields)) ∧
  (3 < history.length → ∃ older a b c, history = older ++ [a, b, c] ∧
    shown = ["...".toList, joinSp a.fields, joinSp b.fields, joinSp c.fields])

/-- The number `y` is the log probability `x` when the logarithm of the base is `scale`. -/
def InBase (scale : S) (x y : Flt S) : Prop :=
  (∀ a, x = .fin a → y = .fin (a / scale)) ∧ ((∀ a, x ≠ .fin a) → y = x)

/-- The line about the word after the first `i + 1` words of the sentence. -/
def WordLine (v : Vocab) (showNum : Flt S → Str) (scale : S) (s : Sentence S) (i : Nat) (line : Str) : Prop :=
  ∃ w shown info, s.words[i + 1]? = some w ∧ HistoryShown (s.words.take (i + 1)) shown ∧
    List.Forall₂ (InfoOf v) w.fields info ∧
    (s.lps[i]? = some none → line = "p(".toList ++ joinSp w.fields ++ " | ".toList ++ joinSp shown ++
      ") is not predicted  [".toList ++ joinSp info ++ "]\n".toList) ∧
    (∀ x, s.lps[i]? = some (some x) → ∃ y, InBase scale x y ∧ line = "log(p(".toList ++ joinSp w.fields ++ " | ".toList ++
      joinSp shown ++ ")) = ".toList ++ showNum y ++ "  [".toList ++ joinSp info ++ "]\n".toList)

/-- The negated mean of the log probabilities. -/
def crossEntropyOf (xs : List (Flt S)) : Flt S := (Flt.sum xs).neg.divNat xs.length

/-- The lines about the words of sentence number `k`. -/
def WordLines (v : Vocab) (showNum : Flt S → Str) (scale : S) (k : Nat) (s : Sentence S) (lines : List Str) : Prop :=
  ∃ ws, lines = ("# Sentence ".toList ++ decimal k ++ "\n".toList) :: ws ∧
    List.Forall₂ (fun i line => WordLine v showNum scale s i line) (List.range s.lps.length) ws

/-- The lines about sentence number `k`. -/
def SentenceLines (v : Vocab) (exp : S → S) (showNum : Flt S → Str) (scale : S) (k : Nat) (s : Sentence S)
    (lines : List Str) : Prop :=
  ∃ ws, WordLines v showNum scale k s ws ∧
    lines = ws ++ ["Sentence perplexity: ".toList ++ showNum ((crossEntropyOf s.predicted).exp exp) ++ "\n".toList,
      "\n".toList]

/-- The lines about the number of things. -/
def countLines (sents : List (Sentence S)) : List Str :=
  ["Number of sentences: ".toList ++ decimal sents.length ++ "\n".toList,
   "Number of words: ".toList ++ decimal (sents.map (fun s => s.words.length)).sum ++ "\n".toList,
   "Number of tokens: ".toList ++ decimal (sents.map Sentence.tokens).sum ++ "\n".toList,
   "Number of predicted probabilities: ".toList ++ decimal (sents.flatMap Sentence.predicted).length ++ "\n".toList,
   "Number of excluded (OOV) words: ".toList ++ decimal ((sents.flatMap Sentence.lps).countP (fun lp => lp.isNone)) ++
     "\n".toList,
   "Number of zero probabilities: ".toList ++ decimal ((sents.flatMap Sentence.lps).countP
     (fun lp => match lp with | some .negInf => true | _ => false)) ++ "\n".toList]

/-- The lines in the end of the report, if there are words in the text. -/
def EntropyLines (exp : S → S) (showNum : Flt S → Str) (log : Nat → S) (base : Option Nat) (xs : List (Flt S))
    (lines : List Str) : Prop :=
  ∃ inBase, lines = ["Cross entropy (base e): ".toList ++ showNum (crossEntropyOf xs) ++ "\n".toList] ++ inBase ++
      ["Perplexity: ".toList ++ showNum ((crossEntropyOf xs).exp exp) ++ "\n".toList] ∧
    (base = none → inBase = []) ∧
    ∀ b, base = some b → ∃ y, InBase (log b) (crossEntropyOf xs) y ∧
      inBase = ["Cross entropy (base ".toList ++ decimal b ++ "): ".toList ++ showNum y ++ "\n".toList]

/-- The report about the sentences. -/
def ReportLines (sc : Scorer S) (showNum : Flt S → Str) (log : Nat → S) (base : Option Nat) (scale : S) (wordLevel : Bool)
    (sents : List (Sentence S)) (lines : List Str) : Prop :=
  ∃ blocks entropy, lines = blocks.flatten ++ countLines sents ++ entropy ∧
    (wordLevel = false → blocks = []) ∧
    (wordLevel = true → List.Forall₂ (fun (p : Sentence S × Nat) ls =>
      SentenceLines sc.vocab sc.exp showNum scale (p.2 + 1) p.1 ls) sents.zipIdx blocks) ∧
    (sents = [] → entropy = []) ∧
    (sents ≠ [] → EntropyLines sc.exp showNum log base (sents.flatMap Sentence.predicted) entropy)

/-- `x` is the score of the line: the sum of the log probabilities of its words, leaving out those that are excluded and those
whose class membership probability is zero. -/
def UtteranceScore (sc : Scorer S) (line : Str) (x : Flt S) : Prop :=
  ∃ u ids ys, utteranceFromLine line = .ok u ∧ List.Forall₂ (IdOf sc.vocab false sc.unkId) u ids ∧
    sc.SequenceScores (sentenceBatch ids) 0 ys ∧
    x = Flt.sum ((ys.zip ids.tail).filterMap (fun p => if (memberOf sc.vocab p.2).2 = 0 then none else p.1))

end

end TheanoLM
