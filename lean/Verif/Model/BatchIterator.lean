import Verif.Model.Parsing
import Mathlib.Data.List.Forall2
/-!
# Model of theanolm/parsing/{batchiterator,linearbatchiterator,shufflingbatchiterator}.py

`BatchIterator` is an abstract class: `_readline` and `_reset` come from the subclass.  They are collected in `Source`;
`linearSource` and `shufflingSource` are the two subclasses.  `ScoringBatchIterator` inherits everything but
`_prepare_batch` from `LinearBatchIterator`.
-/
namespace TheanoLM

/-- A word with the index of the file that it was read from (batchiterator.py:157). -/
abbrev Tok := Str × Nat

/-- What a subclass of `BatchIterator` provides: `_readline` (batchiterator.py:168-178) returns the next line and file
index or `None`; `_reset(shuffle)` (122-130) rewinds. -/
structure Source (σ : Type) where
  readline : σ → Option (Str × Nat) × σ
  reset : Bool → σ → σ

/-- `_batch_size` and `_max_sequence_length` (batchiterator.py:46-47). -/
structure IterCfg where
  batchSize : Nat
  maxLen : Option Nat
  deriving DecidableEq

/-- `_buffer`, `_end_of_file` (batchiterator.py:49-50) and the state of the subclass. -/
structure IterSt (σ : Type) where
  src : σ
  buffer : List Tok
  eof : Bool
  deriving DecidableEq

/-- batchiterator.py:160-166, the part of `_read_sequence` that takes a sequence from the buffer. -/
def takeSequence (cfg : IterCfg) (st : IterSt σ) : List Tok × IterSt σ :=
  match cfg.maxLen with
  | none => (st.buffer, { st with buffer := [] })                                       -- 160-162
  | some m => (st.buffer.take m, { st with buffer := st.buffer.drop m })                -- 163-165

/-- batchiterator.py:132-166 `_read_sequence`. -/
def readSequence (S : Source σ) (cfg : IterCfg) (st : IterSt σ) : Option (List Tok) × IterSt σ :=
  if st.buffer = [] then                                                                -- 150
    match S.readline st.src with                                                        -- 151
    | (none, s) => (none, { st with src := s })                                         -- 152-154
    | (some (line, fileId), s) =>
      let r := takeSequence cfg
        { st with src := s, buffer := (utterance line).map (fun w => (w, fileId)) }     -- 157-158
      (some r.1, r.2)
  else
    let r := takeSequence cfg st
    (some r.1, r.2)

/-- batchiterator.py:79-98, the loop of `__next__`.  The result `none` means that the loop did not end within the given
number of iterations; otherwise `(none, st)` is `StopIteration` and `(some b, st)` the batch `b` (the list of
sequences that is passed to `_prepare_batch`). -/
def nextLoop (S : Source σ) (cfg : IterCfg) :
    Nat → List (List Tok) → IterSt σ → Option (Option (List (List Tok)) × IterSt σ)
  | 0, _, _ => none
  | fuel + 1, sequences, st =>
    match readSequence S cfg st with                                                    -- 81
    | (none, st) =>                                                                     -- 82-83
      if sequences = [] then some (none, { st with src := S.reset true st.src })        -- 93-95
      else some (some sequences, { st with eof := true })                               -- 96-98
    | (some sequence, st) =>
      if sequence.length < 2 then nextLoop S cfg fuel sequences st                      -- 84-85
      else
        let sequences := sequences ++ [sequence]                                        -- 86
        if cfg.batchSize ≤ sequences.length then some (some sequences, st)              -- 87-88
        else nextLoop S cfg fuel sequences st

/-- batchiterator.py:55-98 `__next__`. -/
def next (S : Source σ) (cfg : IterCfg) (fuel : Nat) (st : IterSt σ) :
    Option (Option (List (List Tok)) × IterSt σ) :=
  if st.eof then some (none, { st with eof := false, src := S.reset true st.src })      -- 74-77
  else nextLoop S cfg fuel [] st

/-- `for batch in iterator`: calls `__next__` until `StopIteration`; returns the batches and the final state. -/
def runPass (S : Source σ) (cfg : IterCfg) (fuel : Nat) :
    Nat → IterSt σ → Option (List (List (List Tok)) × IterSt σ)
  | 0, _ => none
  | n + 1, st =>
    match next S cfg fuel st with
    | none => none
    | some (none, st) => some ([], st)
    | some (some b, st) =>
      match runPass S cfg fuel n st with
      | none => none
      | some (bs, st) => some (b :: bs, st)

/-- batchiterator.py:111-117, the loop of `__len__`. -/
def lenLoop (S : Source σ) (cfg : IterCfg) : Nat → Nat → IterSt σ → Option (Nat × IterSt σ)
  | 0, _, _ => none
  | fuel + 1, num, st =>
    match readSequence S cfg st with                                                    -- 112
    | (none, st) => some (num, st)                                                      -- 113-114
    | (some sequence, st) =>
      if sequence.length < 2 then lenLoop S cfg fuel num st                             -- 115-116
      else lenLoop S cfg fuel (num + 1) st                                              -- 117

/-- batchiterator.py:100-120 `__len__`.  Division by a zero batch size raises. -/
def iterLen (S : Source σ) (cfg : IterCfg) (fuel : Nat) (st : IterSt σ) : Option (Except Err Nat × IterSt σ) :=
  match lenLoop S cfg fuel 0 { st with src := S.reset false st.src } with               -- 108-117
  | none => none
  | some (num, st) =>
    let st := { st with src := S.reset false st.src }                                   -- 119
    if cfg.batchSize = 0 then some (.error .zeroDivision, st)
    else some (.ok ((num + cfg.batchSize - 1) / cfg.batchSize), st)                     -- 120

/-! ## LinearBatchIterator -/

/-- A newline character ends a line (`io.TextIOBase.readline`; universal newline translation is not modelled). -/
def isNl (c : Char) : Bool := c == '\n'

/-- The state of a linear iterator: `_file_id` and the position in the file `_input_file`. -/
structure LinSt where
  fileId : Nat
  pos : Nat
  deriving DecidableEq

/-- linearbatchiterator.py:79-86, the loop of `_readline` after the current file has ended; the arguments are the files
that follow and the index of the first of them. -/
def linSkip : List Str → Nat → Option (Str × Nat) × LinSt
  | [], fileId => (none, ⟨fileId, 0⟩)                                                   -- 81-82
  | f :: fs, fileId =>
    let line := readlineAt isNl f 0                                                     -- 83-85
    if line ≠ [] then (some (line, fileId), ⟨fileId, line.length⟩)                      -- 86
    else linSkip fs (fileId + 1)                                                        -- 80

/-- linearbatchiterator.py:69-86 `_readline`.  When `_file_id` is past the last file (after the end of the data) the
current file is the last file, whose end has been reached, and its `readline` returns the empty string. -/
def linReadline (files : List Str) (st : LinSt) : Option (Str × Nat) × LinSt :=
  let line := readlineAt isNl (files.getD st.fileId []) st.pos                          -- 78
  if line ≠ [] then (some (line, st.fileId), ⟨st.fileId, st.pos + line.length⟩)         -- 86
  else linSkip (files.drop (st.fileId + 1)) (st.fileId + 1)                             -- 79-85

/-- linearbatchiterator.py:57-86.  `_reset` ignores its argument and opens the first file. -/
def linearSource (files : List Str) : Source LinSt where
  readline := linReadline files
  reset := fun _ _ => ⟨0, 0⟩                                                            -- 65-67

/-- linearbatchiterator.py:45-55 with batchiterator.py:45-50: the state after construction. -/
def linearInit : IterSt LinSt := { src := ⟨0, 0⟩, buffer := [], eof := false }

/-- linearbatchiterator.py:45-50: the constructor rejects an empty list of files. -/
def linearNew (files : List Str) : Except Err (IterSt LinSt) :=
  if files = [] then .error .valueError else .ok linearInit

/-! ## ShufflingBatchIterator -/

/-- shufflingbatchiterator.py:43-58, `SentencePointers`: for each sentence the file index and the position, the files
in order.  (`mmap` raises `ValueError` for an empty file; the model keeps the one pointer that
`find_sentence_starts` returns.) -/
def sentencePointersAux : List Str → Nat → List (Nat × Nat)
  | [], _ => []
  | f :: fs, k => (findSentenceStarts isNl f).map (fun p => (k, p)) ++ sentencePointersAux fs (k + 1)

def sentencePointers (files : List Str) : List (Nat × Nat) := sentencePointersAux files 0

/-- shufflingbatchiterator.py:55-58 `pointer_ranges`: first and one past last pointer of each file. -/
def pointerRangesAux : List Str → Nat → List (Nat × Nat)
  | [], _ => []
  | f :: fs, start =>
    let stop := start + (findSentenceStarts isNl f).length
    (start, stop) :: pointerRangesAux fs stop

def pointerRanges (files : List Str) : List (Nat × Nat) := pointerRangesAux files 0

/-- State of the shuffling iterator: `_order`, `_next_line`, and the number of shuffles done so far (an index to the
outcomes of the random generator). -/
structure ShufSt where
  order : List Nat
  nextLine : Nat
  shuffles : Nat
  deriving DecidableEq

/-- shufflingbatchiterator.py:218-236 `_readline`.  An index in `_order` that is not a valid sentence index would raise
`IndexError`; here it reads as the end of the data (`C10_order_valid` shows that it does not happen). -/
def shufReadline (files : List Str) (st : ShufSt) : Option (Str × Nat) × ShufSt :=
  match st.order[st.nextLine]? with
  | none => (none, st)                                                                  -- 227-228
  | some sentenceIndex =>                                                               -- 230
    match (sentencePointers files)[sentenceIndex]? with                                 -- 231-232
    | none => (none, st)
    | some (subset, position) =>
      (some (readlineAt isNl (files.getD subset []) position, subset),                  -- 233-234, 236
        { st with nextLine := st.nextLine + 1 })                                        -- 235

/-- shufflingbatchiterator.py:191-216 `_reset`.  `rand k` is the order that the `k`th call with `shuffle=True` produces;
`ShuffleOutcome` in `Props.BatchIterator` states what 201-216 guarantee about it. -/
def shufReset (rand : Nat → List Nat) (shuffle : Bool) (st : ShufSt) : ShufSt :=
  let st := { st with nextLine := 0 }                                                   -- 200
  if shuffle then { st with order := rand st.shuffles, shuffles := st.shuffles + 1 }    -- 201-216
  else st

/-- shufflingbatchiterator.py:84-236 -/
def shufflingSource (files : List Str) (rand : Nat → List Nat) : Source ShufSt where
  readline := shufReadline files
  reset := shufReset rand

/-- shufflingbatchiterator.py:122-127: the number of lines sampled from each file on every epoch.  `fractions` is what
is left of the fraction iterator; when it is exhausted, 1.0 is used.  The fractions are exact rational numbers
instead of floats. -/
def sampleSizes : List ℚ → List (Nat × Nat) → List ℤ
  | _, [] => []
  | fractions, (start, stop) :: ranges =>
    pyRound (fractions.headD 1 * ((stop : ℚ) - start)) :: sampleSizes fractions.tail ranges   -- 125-127

/-- shufflingbatchiterator.py:204-216: what one call of `_reset(True)` does with the results of the random generator.
`choices` are the results of `random.choice` (212), one for each file, and `order` the result of the ten in-place
shuffles of their concatenation (214-216). -/
structure ShuffleOutcome (ranges : List (Nat × Nat)) (sizes : List ℤ) (order : List Nat) : Prop where
  ex : ∃ choices : List (List Nat),
    List.Forall₂ (fun (rs : (Nat × Nat) × ℤ) (c : List Nat) =>
        -- contract of numpy.random.choice(population, size, replace): `size` elements of the population, without
        -- repetition unless `replace`
        (c.length : ℤ) = rs.2 ∧ (∀ x ∈ c, rs.1.1 ≤ x ∧ x < rs.1.2) ∧
        (¬ (((rs.1.2 - rs.1.1 : Nat) : ℤ) < rs.2) → c.Nodup))
      (ranges.zip sizes) choices ∧
    -- contract of numpy.random.shuffle: a permutation
    order.Perm choices.flatten

/-- shufflingbatchiterator.py:120-134, the constructor.  `mmap` of an empty file, `random.choice` with a negative
size and `numpy.concatenate` of no arrays raise `ValueError`. -/
def shufNew (files : List Str) (sampling : List ℚ) (rand : Nat → List Nat) : Except Err (IterSt ShufSt) :=
  if files.any (fun f => f.isEmpty) then .error .valueError                             -- 45
  else if files = [] then .error .valueError                                            -- 214
  else if (sampleSizes sampling (pointerRanges files)).any (fun n => decide (n < 0)) then .error .valueError  -- 212
  else .ok { src := shufReset rand true ⟨[], 0, 0⟩, buffer := [], eof := false }          -- 129-134

/-- State saved by `get_state` (shufflingbatchiterator.py:136-157). -/
structure ShufSaved where
  order : List Nat
  nextLine : Nat
  deriving DecidableEq

/-- shufflingbatchiterator.py:136-157 `get_state`. -/
def shufGetState (st : IterSt ShufSt) : ShufSaved := ⟨st.src.order, st.src.nextLine⟩

/-- shufflingbatchiterator.py:159-189 `set_state`.  Note that it assigns only `_order` and `_next_line`.  A missing
group, dataset or attribute is represented by `none`. -/
def shufSetState (saved : Option ShufSaved) (st : IterSt ShufSt) : Except Err (IterSt ShufSt) :=
  match saved with
  | none => .error .incompatibleState                                                   -- 171-177, 183-185
  | some s =>
    if s.order = [] then .error .incompatibleState                                      -- 179-181
    else .ok { st with src := { st.src with order := s.order, nextLine := s.nextLine } }   -- 178, 186

end TheanoLM
