import Verif.Model.Vocabulary
/-!
# Model of theanolm/vocabulary/statistics.py

A text file is the list of the lines that iterating over the file object gives.  Numbers are exact integers: the
overflow of the 32-bit counters is not modelled.
-/
namespace TheanoLM

/-- statistics.py:28-31 -/
def countWord (result : List (Str × Nat)) (word : Str) : List (Str × Nat) :=
  match dictGet? result word with
  | none => dictSet result word 1                 -- 28-29
  | some n => dictSet result word (n + 1)         -- 30-31

/-- statistics.py:11-33 `compute_word_counts`. -/
def computeWordCounts (files : List (List Str)) : List (Str × Nat) :=
  files.foldl (fun result file =>                                          -- 25
    file.foldl (fun result line =>                                         -- 26
      (utterance line).foldl countWord result) result) []                  -- 24, 27

/-- `unigram_counts` (59) is an array indexed by word IDs.  `bigram_counts` (60-61) is a `dok_matrix`: a dictionary of
the non-zero elements.  Both are functions of the indices, and an index outside the bounds is not an error. -/
structure BigramStats where
  unigram : Nat → ℤ
  bigram : Nat → Nat → ℤ

/-- `array[index] += value` -/
def inc1 (a : Nat → ℤ) (i : Nat) (x : ℤ) : Nat → ℤ := fun j => if j = i then a j + x else a j

/-- `matrix[row,column] += value` -/
def inc2 (m : Nat → Nat → ℤ) (i j : Nat) (x : ℤ) : Nat → Nat → ℤ :=
  fun a b => if a = i ∧ b = j then m a b + x else m a b

/-- statistics.py:67-70; `unkId` is `vocabulary.word_to_id['<unk>']` (57). -/
def sequenceId (v : Vocab) (unkId : Nat) (word : Str) : Nat :=
  match v.wordToId word with
  | some i => i
  | none => unkId

/-- statistics.py:65-75, one line. -/
def addLine (v : Vocab) (unkId : Nat) (st : BigramStats) (line : Str) : BigramStats :=
  let sequence := (utterance line).map (sequenceId v unkId)                            -- 65-70
  let unigram := sequence.foldl (fun u i => inc1 u i 1) st.unigram                     -- 71-72
  let bigram := (sequence.dropLast.zip sequence.tail).foldl
    (fun m p => inc2 m p.1 p.2 1) st.bigram                                            -- 73-75
  ⟨unigram, bigram⟩

/-- statistics.py:39-76 `BigramStatistics.__init__`. -/
def bigramStatistics (v : Vocab) (files : List (List Str)) : Except Err BigramStats :=
  match v.wordToId unk with
  | none => .error .keyError                                                           -- 57
  | some unkId =>
    .ok (files.foldl (fun st file => file.foldl (addLine v unkId) st) ⟨fun _ => 0, fun _ _ => 0⟩)   -- 59-75

end TheanoLM
