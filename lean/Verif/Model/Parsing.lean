import Verif.Model.Basic
/-!
# Model of theanolm/parsing/functions.py
-/
namespace TheanoLM

/-- theanolm/parsing/functions.py:6-34 `utterance_from_line`.  The decoding of `bytes` (21-22) is not modelled: the
argument is the decoded text.  `result[0]` and `result[-1]` (29, 31) raise `IndexError` on an empty list. -/
def utteranceFromLine (line : Str) : Except Err (List Str) :=
  let line := rstrip line                                       -- 23
  if line = [] then .ok []                                      -- 24-26
  else
    let result := pySplit line                                  -- 28
    match result with
    | [] => .error .indexError                                  -- 29: result[0]
    | w :: _ =>
      let result := if w ≠ sos then sos :: result else result   -- 29-30
      match result.getLast? with
      | none => .error .indexError                              -- 31: result[-1]
      | some l => .ok (if l ≠ eos then result ++ [eos] else result)   -- 31-34

/-- The value of `utterance_from_line` as used by callers; `Props.Parsing` proves that the error case does not occur
(`C01_no_error`). -/
def utterance (line : Str) : List Str :=
  match utteranceFromLine line with
  | .ok u => u
  | .error _ => []

/-- Python/mmap `data.find(b'\n', pos)`: the first position `>= pos` of a newline byte. -/
def findFrom (nl : α → Bool) (data : List α) (pos : Nat) : Option Nat :=
  ((data.drop pos).findIdx? nl).map (· + pos)

/-- theanolm/parsing/functions.py:54-60, the loop of `find_sentence_starts`.  The fuel bounds the number of
iterations; each iteration advances `pos`, so `len(data) + 1` is enough (`C02`). -/
def sentenceStartsLoop (nl : α → Bool) (data : List α) : Nat → Nat → List Nat → List Nat
  | 0, _, result => result
  | fuel + 1, pos, result =>
    match findFrom nl data pos with                    -- 55
    | none => result                                   -- 56-57
    | some p =>
      let pos := p + 1                                 -- 58
      if pos < data.length then                        -- 59
        sentenceStartsLoop nl data fuel pos (result ++ [pos])   -- 60
      else sentenceStartsLoop nl data fuel pos result

/-- theanolm/parsing/functions.py:36-62 `find_sentence_starts`. -/
def findSentenceStarts (nl : α → Bool) (data : List α) : List Nat :=
  sentenceStartsLoop nl data (data.length + 1) 0 [0]

/-- `mmap.seek(position); mmap.readline()` (parsing/shufflingbatchiterator.py:233-234): the data from `position` up to
and including the next newline, or to the end of the data. -/
def readlineAt (nl : α → Bool) (data : List α) (pos : Nat) : List α :=
  let rest := data.drop pos
  match rest.findIdx? nl with
  | some i => rest.take (i + 1)
  | none => rest

end TheanoLM
