import Verif.Model.Basic
import Mathlib.Algebra.Group.Defs
/-!
# Model of `_merge_subwords` of theanolm/commands/score.py

A log probability is `none` for an excluded word, and otherwise an element of a type with addition (`S`).
-/
namespace TheanoLM

/-- An element of the first list that `_merge_subwords` returns: a string, or a list of the subword strings. -/
inductive MergedWord
  | plain (word : Str)
  | parts (subwords : List Str)
  deriving DecidableEq

/-- The argument `marking`. -/
inductive Marking
  | noMarking
  | wordBoundary
  | prefixAffix
  | other
  deriving DecidableEq

/-- `<w>` -/
def wordBoundaryToken : Str := ['<', 'w', '>']

/-- score.py:281-284, 302-305: the sum, `None` if one of the terms is `None`. -/
def addLogprob {S : Type} [Add S] : Option S → Option S → Option S
  | some a, some b => some (a + b)
  | _, _ => none

/-- score.py:315-317: the last word. -/
def flushWord {S : Type} (words : List (List Str)) (logprobs : List (Option S)) (currentWord : List Str)
    (currentLogprob : Option S) : List (List Str) × List (Option S) :=
  if currentWord ≠ [] then (words ++ [currentWord], logprobs ++ [currentLogprob]) else (words, logprobs)

/-- score.py:280-294, the loop for word-boundary marking, and 315-318. -/
def mergeBoundary {S : Type} [Add S] [Zero S] : List (Str × Option S) → List (List Str) → List (Option S) → List Str →
    Option S → List (List Str) × List (Option S)
  | [], words, logprobs, cw, cl => flushWord words logprobs cw cl
  | (subword, logprob) :: rest, words, logprobs, cw, cl =>
    let cl := addLogprob cl logprob                                               -- 281-284
    if subword = wordBoundaryToken then                                           -- 285
      if cw ≠ [] then mergeBoundary rest (words ++ [cw]) (logprobs ++ [cl]) [] (some 0)     -- 286-290
      else mergeBoundary rest words logprobs cw (some 0)                          -- 290
    else if unk ∈ cw ∨ subword = unk then                                         -- 291
      mergeBoundary rest words logprobs [unk] cl                                  -- 292
    else mergeBoundary rest words logprobs (cw ++ [subword]) cl                   -- 293-294

/-- score.py:299-300: `current_word and current_word[-1].endswith('+') and subword.startswith('+')` -/
def canJoin (cw : List Str) (subword : Str) : Bool :=
  match cw.getLast? with
  | none => false
  | some l => l.getLast? == some '+' && subword.head? == some '+'

/-- score.py:298-311, the loop for prefix-affix marking, and 315-318. -/
def mergeAffix {S : Type} [Add S] : List (Str × Option S) → List (List Str) → List (Option S) → List Str →
    Option S → List (List Str) × List (Option S)
  | [], words, logprobs, cw, cl => flushWord words logprobs cw cl
  | (subword, logprob) :: rest, words, logprobs, cw, cl =>
    if canJoin cw subword then
      mergeAffix rest words logprobs (cw ++ [subword]) (addLogprob cl logprob)    -- 301-305
    else if cw ≠ [] then
      mergeAffix rest (words ++ [cw]) (logprobs ++ [cl]) [subword] logprob        -- 307-311
    else mergeAffix rest words logprobs [subword] logprob                        -- 310-311

/-- score.py:240-318 `_merge_subwords`.  The length of an empty list minus one is -1, which is not the length of a list. -/
def mergeSubwords {S : Type} [Add S] [Zero S] (subwords : List Str) (logprobs : List (Option S)) (marking : Marking) :
    Except Err (List MergedWord × List (Option S)) :=
  match subwords with
  | [] => .error .valueError                                                      -- 264-266
  | first :: rest =>
    if logprobs.length ≠ rest.length then .error .valueError                      -- 264-266
    else
      match marking with
      | .noMarking => .ok (subwords.map .plain, logprobs)                         -- 268-270
      | .wordBoundary =>
        let r := mergeBoundary (rest.zip logprobs) [[first]] [] [] (some 0)       -- 272-294
        .ok (r.1.map .parts, r.2)
      | .prefixAffix =>
        let r := mergeAffix (rest.zip logprobs) [[first]] [] [] (some 0)          -- 272-275, 295-311
        .ok (r.1.map .parts, r.2)
      | .other => .error .valueError                                              -- 312-313

end TheanoLM
