import Verif.Model.Vocabulary
import Verif.Model.BatchIterator
/-!
# Model of `_prepare_batch` of the batch iterators

A matrix is a list of rows (time steps).
-/
namespace TheanoLM

/-- Assignment `matrix[:len(column), i] = column`. -/
def setColumn (m : List (List α)) (i : Nat) (column : List α) : List (List α) :=
  m.mapIdx (fun t row => match column[t]? with
    | some x => row.set i x
    | none => row)

/-- The loop `for i, sequence in enumerate(sequences)` assigns the columns one by one. -/
def setColumns : List (List α) → Nat → List (List α) → List (List α)
  | [], _, m => m
  | column :: columns, i, m => setColumns columns (i + 1) (setColumn m i column)

/-- batchiterator.py:219-223, scoringbatchiterator.py:65-69: the ID of one word; words outside the vocabulary are `<unk>`,
and so are words outside the shortlist, if requested. -/
def tokenId (v : Vocab) (mapOosToUnk : Bool) (unkId : Nat) (word : Str) : Nat :=
  match v.wordToId word with
  | some wordId => if mapOosToUnk = false ∨ v.inShortlist wordId = true then wordId else unkId
  | none => unkId

/-- Conversion to `numpy.int8`: wraps around.  (Recent versions of NumPy raise `OverflowError` instead.) -/
def int8 (n : ℤ) : ℤ := (n + 128) % 256 - 128

/-- The largest element, `numpy.max`. -/
def maxLength (sequences : List (List Tok)) : Nat := (sequences.map List.length).foldl max 0

/-- batchiterator.py:180-231 `_prepare_batch`: word IDs, file IDs and mask.  Taking the maximum of an empty list raises
`ValueError`. -/
def prepareBatch (v : Vocab) (mapOosToUnk : Bool) (sequences : List (List Tok)) :
    Except Err (List (List Nat) × List (List ℤ) × List (List Nat)) :=
  if sequences = [] then .error .valueError                                             -- 206
  else
    match v.wordToId unk with                                                           -- 208
    | none => .error .keyError
    | some unkId =>
      let numSequences := sequences.length                                              -- 205
      let batchLength := maxLength sequences                                            -- 206
      let wordIds := List.replicate batchLength (List.replicate numSequences unkId)     -- 209-210
      let mask := List.replicate batchLength (List.replicate numSequences 0)            -- 211
      let fileIds := List.replicate batchLength (List.replicate numSequences 0)         -- 212
      .ok (setColumns (sequences.map (fun s => s.map (fun p => tokenId v mapOosToUnk unkId p.1))) 0 wordIds,   -- 214-226
           setColumns (sequences.map (fun s => s.map (fun p => int8 p.2))) 0 fileIds,
           setColumns (sequences.map (fun s => s.map (fun _ => 1))) 0 mask)

/-- scoringbatchiterator.py:24-77 `_prepare_batch`: word IDs, words and mask. -/
def prepareScoringBatch (v : Vocab) (mapOosToUnk : Bool) (sequences : List (List Tok)) :
    Except Err (List (List Nat) × List (List Str) × List (List Nat)) :=
  if sequences = [] then .error .valueError
  else
    match v.wordToId unk with
    | none => .error .keyError
    | some unkId =>
      let numSequences := sequences.length
      let batchLength := maxLength sequences
      let wordIds := List.replicate batchLength (List.replicate numSequences unkId)
      let mask := List.replicate batchLength (List.replicate numSequences 0)
      .ok (setColumns (sequences.map (fun s => s.map (fun p => tokenId v mapOosToUnk unkId p.1))) 0 wordIds,
           sequences.map (fun s => s.map Prod.fst),
           setColumns (sequences.map (fun s => s.map (fun _ => 1))) 0 mask)

end TheanoLM
