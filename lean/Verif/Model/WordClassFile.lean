import Verif.Model.WordClasses
import Verif.Model.Schedule
import Verif.Model.SlfWrite
/-!
# Model of the output of wordclasses/wctool.py

The text of a number is Python's decimal notation for integers, and a parameter for floats.  Membership probabilities
are exact quotients.
-/
namespace TheanoLM

/-- numpybigramoptimizer.py:63-79, theanobigramoptimizer.py:85-103 `get_word_prob`. -/
def optWordProb (cfg : OptCfg) (s : OptSt) (w : Nat) : ℚ :=
  let wordCount := cfg.wordCounts w                                                   -- 73
  let classCount := s.classCounts (s.wordToClass w)                                   -- 74-75
  if classCount = 0 then 0 else (wordCount : ℚ) / (classCount : ℚ)                    -- 76-79

/-- bigramoptimizer.py:164-175 `words`.  The items of `word_to_id` are in the order of insertion, which is the order of
the IDs, as no word is repeated (property C11). -/
def optWords (cfg : OptCfg) (s : OptSt) : List (Str × Nat × ℚ) :=
  cfg.vocab.idToWord.zipIdx.map (fun p => (p.1, s.wordToClass p.2, optWordProb cfg s p.2))

/-- `'{}'.format(n)` -/
def decimal (n : Nat) : Str := (toString n).toList

/-- `'{:05d}'.format(n)` -/
def decimal5 (n : Nat) : Str := List.replicate (5 - (decimal n).length) '0' ++ decimal n

/-- wctool.py:35-38: what is written for one word; nothing, if the format is something else. -/
def classLine (showProb : ℚ → Str) (fmt : VocFormat) (e : Str × Nat × ℚ) : Str :=
  match fmt with
  | .classes => e.1 ++ ' ' :: decimal e.2.1 ++ ['\n']                                                       -- 36
  | .srilmClasses => "CLASS-".toList ++ decimal5 e.2.1 ++ ' ' :: showProb e.2.2 ++ ' ' :: e.1 ++ ['\n']     -- 38
  | _ => []

/-- An output file: whether it is seekable, and what has been written. -/
structure OutFile where
  seekable : Bool
  text : Str
  deriving DecidableEq

/-- wctool.py:14-38 `save`. -/
def saveClasses (showProb : ℚ → Str) (fmt : VocFormat) (cfg : OptCfg) (s : OptSt) (f : OutFile) : OutFile :=
  ⟨f.seekable, (if f.seekable then [] else f.text) ++                                                       -- 30-32
    ((optWords cfg s).map (classLine showProb fmt)).flatten⟩                                                -- 34-38

/-- wctool.py:149-152 -/
def saveIfScheduled (showProb : ℚ → Str) (fmt : VocFormat) (freq : Nat) (cfg : OptCfg) (s : OptSt) (numWords : Nat)
    (f : OutFile) : OutFile :=
  if wcIsScheduled numWords freq cfg.vocabularySize then saveClasses showProb fmt cfg s f else f

/-- wctool.py:132-152, one iteration over the words with the periodic saving: the number of moves, the new state and
the output file.  `numWords` is the number of words before.  A negative frequency and the logging are not modelled. -/
noncomputable def savingIteration (showProb : ℚ → Str) (fmt : VocFormat) (freq : Nat) (cfg : OptCfg) :
    List Str → Nat → OptSt → OutFile → Except Err (Nat × OptSt × OutFile)
  | [], _, s, f => .ok (0, s, f)
  | word :: words, numWords, s, f =>
    match moveToBestClass cfg s word with                                             -- 137
    | .error e => .error e
    | .ok (moved, s') =>
      match savingIteration showProb fmt freq cfg words (numWords + 1) s'
          (saveIfScheduled showProb fmt freq cfg s' (numWords + 1) f) with            -- 136, 149-152
      | .error e => .error e
      | .ok (n, s'', f'') => .ok ((if moved then 1 else 0) + n, s'', f'')             -- 138

/-- wctool.py:129-159, the optimization loop and the last saving.  The result `none` means that the loop did not end
within the given number of iterations. -/
noncomputable def wctoolLoop (showProb : ℚ → Str) (fmt : VocFormat) (freq : Nat) (cfg : OptCfg) :
    Nat → OptSt → OutFile → Option (Except Err (OptSt × OutFile))
  | 0, _, _ => none
  | fuel + 1, s, f =>
    match savingIteration showProb fmt freq cfg cfg.vocab.idToWord 0 s f with         -- 132-152
    | .error e => some (.error e)
    | .ok (n, s', f') =>
      if n = 0 then some (.ok (s', saveClasses showProb fmt cfg s' f'))               -- 154-155, 159
      else wctoolLoop showProb fmt freq cfg fuel s' f'                                -- 156

/-- wctool.py:105-127: the optimizer that is created for the training set, given the lines of the vocabulary file and its
format, or no vocabulary file. -/
def wctoolOptimizer (P : Parsers) (files : List (List Str)) (vocabulary : Option (List Str × VocFormat))
    (numClasses : Nat) (b : Backend) : Except Err (OptCfg × OptSt) :=
  let v := match vocabulary with
    | none => vocabFromWordCounts (computeWordCounts files) (some numClasses)         -- 105-110
    | some (lines, fmt) => vocabFromFile P lines fmt []                               -- 111-113
  match v with
  | .error e => .error e
  | .ok v =>
    match bigramStatistics v files with                                               -- 120
    | .error e => .error e
    | .ok st => newOptimizer b v st                                                   -- 122-127

end TheanoLM
