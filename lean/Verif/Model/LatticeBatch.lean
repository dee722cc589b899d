import Verif.Model.SlfLattice
/-!
# Model of theanolm/scoring/latticebatch.py
-/
namespace TheanoLM

/-- Python slice `l[skip::step + 1]`. -/
def sliceStep {α : Type} (step : Nat) : Nat → List α → List α
  | _, [] => []
  | 0, x :: xs => x :: sliceStep step step xs
  | skip + 1, _ :: xs => sliceStep step skip xs

/-- latticebatch.py:46-48: the list that is filled with the words. -/
def kaldiIdToWord : List (Str × ℤ) → List (Option Str) → Except Err (List (Option Str))
  | [], ws => .ok ws
  | (word, i) :: rest, ws =>
    match pyIdx ws.length i with
    | none => .error .indexError
    | some n => kaldiIdToWord rest (ws.set n (some word))

/-- The attributes of `LatticeBatch`. -/
structure LatticeBatch where
  kaldiVocabulary : Option (List (Str × ℤ) × List (Option Str))
  isKaldi : Bool
  lattices : List Str
  deriving DecidableEq

/-- latticebatch.py:44-50 -/
def batchVocabulary (parseInt : Str → Option ℤ) (format : Str) (vocabulary : Option (List Str)) :
    Except Err (Option (List (Str × ℤ) × List (Option Str))) :=
  match vocabulary with
  | some lines =>
    match readKaldiVocabulary parseInt lines [] with                                    -- 45
    | .error e => .error e
    | .ok wordToId =>
      match kaldiIdToWord wordToId (List.replicate wordToId.length none) with           -- 46-48
      | .error e => .error e
      | .ok idToWord => .ok (some (wordToId, idToWord))
  | none => if format = "kaldi".toList then .error .valueError else .ok none            -- 49-50

/-- latticebatch.py:58-64 -/
def batchPaths (lattices : List Str) (listFile : Option (List Str)) : List Str :=
  let paths := ((lattices ++ listFile.getD []).map strip).filter (fun x => x ≠ [])      -- 58-62
  if paths = [] then ["-".toList] else paths                                            -- 63-64

/-- latticebatch.py:13-73 `LatticeBatch.__init__`; `lattice_list_file` and `kaldi_vocabulary` are lists of lines. -/
def LatticeBatch.init (parseInt : Str → Option ℤ) (lattices : List Str) (listFile : Option (List Str)) (format : Str)
    (vocabulary : Option (List Str)) (numJobs jobId : ℤ) : Except Err LatticeBatch :=
  match batchVocabulary parseInt format vocabulary with
  | .error e => .error e
  | .ok v =>
    if format ≠ "slf".toList ∧ format ≠ "kaldi".toList then .error .valueError          -- 52-54
    else
      let paths := batchPaths lattices listFile
      if numJobs < 1 then .error .valueError                                            -- 67-69
      else if jobId < 0 ∨ jobId > numJobs - 1 then .error .valueError                   -- 70-72
      else .ok ⟨v, decide (format = "kaldi".toList),
        sliceStep (numJobs.toNat - 1) jobId.toNat paths⟩                                -- 73

/-- latticebatch.py:88-104: the lines of each lattice in a Kaldi archive. -/
def kaldiBlocks : List Str → List Str → List (List Str)
  | [], block => if block = [] then [] else [block]                                     -- 92-96
  | line :: lines, block =>
    let line := strip line                                                              -- 97
    if line = [] then                                                                   -- 98
      (if block = [] then [] else [block]) ++ kaldiBlocks lines []                      -- 100-103
    else kaldiBlocks lines (block ++ [line])                                            -- 104

/-- latticebatch.py:75-104 `__iter__`: the lattices, given the contents of the files.  `none` is a file that cannot be
opened.  An exception that is raised ends the list. -/
def LatticeBatch.iter {S : Type} [Zero S] [One S] [Mul S] [Neg S] [DecidableEq S] (b : LatticeBatch) (T : SlfText S)
    (K : NumText S) (files : Str → Option (List Str)) : Except Err (List (Lattice S)) :=
  match mapE (fun path =>
      match files path with
      | none => .error .ioError
      | some lines =>
        if b.isKaldi then mapE (fun block => readKaldi K block ((b.kaldiVocabulary.map Prod.snd).getD []))
          (kaldiBlocks lines [])
        else match readSlf T lines with
          | .error e => .error e
          | .ok L => .ok [L]) b.lattices with
  | .error e => .error e
  | .ok ls => .ok ls.flatten

end TheanoLM
