import Verif.Model.Vocabulary
import Verif.Model.WordClassFile
/-!
# recipes/common: n-gram counts, word class definitions and fix-class-probabilities.py
-/
namespace TheanoLM

/-! ## recipes/common/ngramcounts.py -/

/-- ngramcounts.py:9-10, the counts of n-grams: a dictionary in insertion order, whose keys are tuples of words. -/
abbrev NGramCounts := List (List Str × ℤ)

/-- `line.find('\t')`: `none` for -1. -/
def findTab : Str → Option Nat
  | [] => none
  | c :: cs => if c = '\t' then some 0 else (findTab cs).map (· + 1)

/-- ngramcounts.py:24-28, the n-gram and the text of the count of a line. When there is no tab, `line[:-1]` is the line
without its last character, and `line[0:]` is the whole line. -/
def countFields (line : Str) : List Str × Str :=
  match findTab line with
  | some tab => (pySplit (line.take tab), line.drop (tab + 1))
  | none => (pySplit line.dropLast, line)

/-- ngramcounts.py:18-31 `read`. `int` is Python's `int` of a text, which ignores the white space around the number. The
progress messages (21-23) are not modelled. -/
def NGramCounts.read (int : Str → Option ℤ) (maxOrder : Option ℤ) (minCount : Option ℤ) :
    List Str → NGramCounts → Except Err NGramCounts
  | [], counts => .ok counts
  | line :: lines, counts =>
    let (ngram, number) := countFields line                                            -- 24-25
    if maxOrder.any (fun m => decide (m < (ngram.length : ℤ))) then                          -- 26-27
      NGramCounts.read int maxOrder minCount lines counts
    else
      match int number with                                                            -- 28
      | none => .error .valueError
      | some count =>
        if minCount.any (fun m => decide (count < m)) then                             -- 29-30
          NGramCounts.read int maxOrder minCount lines counts
        else NGramCounts.read int maxOrder minCount lines (dictSet counts ngram count) -- 31

/-- ngramcounts.py:49-54 `increment`. -/
def NGramCounts.increment (counts : NGramCounts) (ngram : List Str) : NGramCounts :=
  match dictGet? counts ngram with
  | some n => dictSet counts ngram (n + 1)
  | none => dictSet counts ngram 1

/-- ngramcounts.py:39-43, one word of `from_text`: the new history and counts. `history[-i-1:]` are the last `i+1` words.
`max_order` is a natural number here. -/
def NGramCounts.addWord (maxOrder : Nat) (s : List Str × NGramCounts) (word : Str) : List Str × NGramCounts :=
  let history := s.1 ++ [word]                                                         -- 39
  let history := if maxOrder < history.length then history.drop 1 else history         -- 40-41
  (history, (List.range (min maxOrder history.length)).foldl
    (fun counts i => counts.increment (history.drop (history.length - (i + 1)))) s.2)  -- 42-43

/-- ngramcounts.py:33-43 `from_text`, given the lines of the text (`text.splitlines()`, 34). -/
def NGramCounts.fromText (lines : List Str) (maxOrder : Nat) (counts : NGramCounts) : NGramCounts :=
  (lines.foldl (fun s line => (pySplit line).foldl (NGramCounts.addWord maxOrder) s) ([], counts)).2

/-- ngramcounts.py:45-47 `write`: the text that is written; `str` writes an integer. -/
def NGramCounts.write (str : ℤ → Str) (counts : NGramCounts) : Str :=
  (counts.map (fun e => joinSp e.1 ++ '\t' :: (str e.2 ++ ['\n']))).flatten

/-- ngramcounts.py:56-59 `level`. -/
def NGramCounts.level (counts : NGramCounts) (n : Nat) : List (List Str) :=
  (counts.filter (fun e => decide (e.1.length = n))).map Prod.fst

/-- ngramcounts.py:61-65 `prune_count`. There is no variable `mydict`, which the loop uses: the first n-gram that should be
removed raises NameError. -/
def NGramCounts.pruneCount (counts : NGramCounts) (n : ℤ) : Except Err NGramCounts :=
  match (counts.filter (fun e => decide (e.2 ≤ n))).map Prod.fst with                  -- 63
  | [] => .ok counts
  | _ :: _ => .error .nameError                                                        -- 64-65

/-- ngramcounts.py:67-72 `num_contained`. -/
def NGramCounts.numContained (counts other : NGramCounts) : Nat :=
  (counts.filter (fun e => (dictGet? other e.1).isSome)).length

/-- ngramcounts.py:74-75 `num_ngrams`. -/
def NGramCounts.numNGrams (counts : NGramCounts) : Nat := counts.length

/-! ## recipes/common/wordclasses.py -/

/-- wordclasses.py:51-53, the classes: a dictionary from the name of a class to the dictionary of its words and their
probabilities (7-10). The probabilities are rational numbers. -/
abbrev ClassDefs := List (Str × List (Str × ℚ))

/-- `s.zfill(5)`: zeros are added in front of the text, after a sign if there is one. -/
def zfill5 (s : Str) : Str :=
  match s with
  | '+' :: cs => '+' :: (List.replicate (5 - s.length) '0' ++ cs)
  | '-' :: cs => '-' :: (List.replicate (5 - s.length) '0' ++ cs)
  | cs => List.replicate (5 - s.length) '0' ++ cs

/-- wordclasses.py:67, the name of a class in the mkcls format. -/
def mkclsName (number : Str) : Str := "CLASS-".toList ++ zfill5 number

/-- wordclasses.py:61-75, the definition on one line: name, word and probability; `none` for an empty line. -/
def classFields (float : Str → Option ℚ) (line : Str) : Except Err (Option (Str × Str × ℚ)) :=
  match pySplit line with
  | [] => .ok none                                                                     -- 62-63
  | [word, number] => .ok (some (mkclsName number, word, 0))                           -- 64-68
  | [name, prob, word] =>                                                              -- 69-73
    match float prob with
    | some p => .ok (some (name, word, p))
    | none => .error .valueError
  | _ => .error .runtimeError                                                          -- 74-75

/-- wordclasses.py:76-78 with 22-23 `add`. -/
def ClassDefs.add (classes : ClassDefs) (name word : Str) (prob : ℚ) : ClassDefs :=
  match dictGet? classes name with
  | some probs => dictSet classes name (dictSet probs word prob)
  | none => dictSet classes name (dictSet [] word prob)

/-- wordclasses.py:59-78 `read`. -/
def ClassDefs.read (float : Str → Option ℚ) : List Str → ClassDefs → Except Err ClassDefs
  | [], classes => .ok classes
  | line :: lines, classes =>
    match classFields float line with
    | .error e => .error e
    | .ok none => ClassDefs.read float lines classes
    | .ok (some (name, word, prob)) => ClassDefs.read float lines (classes.add name word prob)

/-- wordclasses.py:33-40 `normalize`. -/
def normalizeClass (probs : List (Str × ℚ)) : List (Str × ℚ) :=
  let total := (probs.map Prod.snd).sum                                                -- 34
  let factor := if 0 < total then 1 / total else 0                                     -- 35-38
  probs.map (fun e => (e.1, e.2 * factor))                                             -- 39-40

/-- wordclasses.py:42-49, what is written of a class; `str` writes a number. -/
def writeClass (str : ℚ → Str) (name : Str) (probs : List (Str × ℚ)) : Str :=
  (probs.map (fun e => name ++ ' ' :: (str e.2 ++ ' ' :: (e.1 ++ ['\n'])))).flatten

/-- wordclasses.py:80-83 `write`. -/
def ClassDefs.write (str : ℚ → Str) (classes : ClassDefs) : Str :=
  (classes.map (fun c => writeClass str c.1 (normalizeClass c.2))).flatten

/-- wordclasses.py:85-94 `create` when a name is not given: the name of the new class, the classes and the next id. `none`
when there was no free name within `fuel` attempts. -/
def ClassDefs.create (classes : ClassDefs) : Nat → Nat → Option (Str × ClassDefs × Nat)
  | 0, _ => none
  | fuel + 1, nextId =>
    let name := "CLASS-".toList ++ decimal5 nextId                                     -- 88
    if (dictGet? classes name).isSome then ClassDefs.create classes fuel (nextId + 1)  -- 89-91
    else some (name, dictSet classes name [], nextId + 1)                              -- 92-94

/-- wordclasses.py:96-100 `find_containing`: the name of the class. -/
def ClassDefs.findContaining (classes : ClassDefs) (word : Str) : Option Str :=
  (classes.find? (fun c => (dictGet? c.2 word).isSome)).map Prod.fst

/-- wordclasses.py:103-107, the dictionary of `WordsToClasses`. -/
def wordsToClasses (classes : ClassDefs) : List (Str × Str) :=
  classes.foldl (fun map c => c.2.foldl (fun map e => dictSet map e.1 c.1) map) []

/-! ## recipes/common/fix-class-probabilities.py -/

/-- fix-class-probabilities.py:25-35, the probabilities of the words of one class. `set_probability`
(wordclasses.py:28-31) finds every word, because the words are those of the class. -/
def fixClass (wordCounts : NGramCounts) (probs : List (Str × ℚ)) : List (Str × ℚ) :=
  let counts : List (Str × ℤ) := probs.map (fun e => (e.1, (dictGet? wordCounts [e.1]).getD 0))  -- 25-31
  let total := (counts.map Prod.snd).sum                                               -- 32
  if total ≠ 0 then counts.foldl (fun ps e => dictSet ps e.1 ((e.2 : ℚ) / (total : ℚ))) probs   -- 33-35
  else probs

/-- fix-class-probabilities.py:18-37, given the lines of the two files: the text that is written. -/
def fixClassProbabilities (P : Parsers) (str : ℚ → Str) (classLines countLines : List Str) : Except Err Str :=
  match ClassDefs.read P.float classLines [] with                                      -- 18-19
  | .error e => .error e
  | .ok classes =>
    match NGramCounts.read P.int none none countLines [] with                          -- 21-22
    | .error e => .error e
    | .ok wordCounts =>
      .ok (ClassDefs.write str (classes.map (fun c => (c.1, fixClass wordCounts c.2))))   -- 24-37

end TheanoLM
