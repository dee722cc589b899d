import Mathlib.Data.Rat.Floor
/-!
# Common definitions of the TheanoLM model

Python exceptions are values of `Err`; a Python function that can raise returns `Except Err a`.
-/
namespace TheanoLM

/-- Kinds of exceptions that the modelled code raises, either explicitly (`InputError`,
`IncompatibleStateError` in theanolm/backend/exceptions.py, `ValueError`, ...) or implicitly (`IndexError`,
`KeyError`, `ZeroDivisionError`, `AssertionError`, `AttributeError`, `NameError`).  Messages are not modelled. -/
inductive Err
  | inputError
  | incompatibleState
  | valueError
  | indexError
  | keyError
  | zeroDivision
  | assertion
  | typeError
  | runtimeError
  | numberError
  | nodeNotFound
  | attributeError
  | nameError
  | ioError
  deriving DecidableEq, Repr

deriving instance DecidableEq for Except

/-- A Python `str`: a list of characters. -/
abbrev Str := List Char

/-- `<s>` -/
def sos : Str := ['<', 's', '>']
/-- `</s>` -/
def eos : Str := ['<', '/', 's', '>']
/-- `<unk>` -/
def unk : Str := ['<', 'u', 'n', 'k', '>']

/-- Python `str.isspace` for one character: the characters at which `str.split()` splits and that `str.rstrip()`
strips (Unicode White_Space together with the separators U+001C to U+001F). -/
def isSpace (c : Char) : Bool :=
  let n := c.toNat
  (9 ≤ n && n ≤ 13) || (28 ≤ n && n ≤ 32) || n == 0x85 || n == 0xa0 || n == 0x1680 ||
  (0x2000 ≤ n && n ≤ 0x200a) || n == 0x2028 || n == 0x2029 || n == 0x202f || n == 0x205f || n == 0x3000

/-- Python `str.rstrip()`. -/
def rstrip (s : Str) : Str := (s.reverse.dropWhile isSpace).reverse

/-- Loop of `str.split()`; `cur` is the word being collected. -/
def splitAux : Str → Str → List Str
  | [], cur => if cur = [] then [] else [cur]
  | c :: cs, cur =>
    if isSpace c then
      if cur = [] then splitAux cs [] else cur :: splitAux cs []
    else splitAux cs (cur ++ [c])

/-- Python `str.split()` without arguments. -/
def pySplit (s : Str) : List Str := splitAux s []

/-- Python `' '.join(words)`. -/
def joinSp : List Str → Str
  | [] => []
  | [w] => w
  | w :: ws => w ++ ' ' :: joinSp ws

/-- Python `round(x)` for a float `x`: to the nearest integer, halves to the even one. -/
def pyRound (q : ℚ) : ℤ :=
  let f := ⌊q⌋
  if q - f < 1 / 2 then f
  else if 1 / 2 < q - f then f + 1
  else if f % 2 = 0 then f else f + 1

end TheanoLM
