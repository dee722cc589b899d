import Verif.Model.Vocabulary
/-!
# Model of the comparison of word classes (theanolm/vocabulary/wordclass.py:100-160)

Probabilities are exact rational numbers instead of floats, as in `Verif.Model.Vocabulary`.
-/
namespace TheanoLM

/-- `numpy.isclose(a, b)` for finite numbers, with its default tolerances `atol=1e-8` and `rtol=1e-5` (wordclass.py:141). -/
def isClose (a b : ℚ) : Bool := decide (|a - b| ≤ 1 / 100000000 + 1 / 100000 * |b|)

/-- wordclass.py:100-107 `__len__`. -/
def WordClass.len (c : WordClass) : Nat := c.probs.length

/-- wordclass.py:140-144, the loop of `__eq__` over the items that are generated by `__iter__` (lines 109-118).
`other._probs[word_id]` fails when the other class does not contain the word. -/
def WordClass.eqLoop (other : WordClass) : List (Nat × ℚ) → Except Err Bool
  | [] => .ok true
  | (wordId, prob) :: items =>
    match other.getProb wordId with
    | .error e => .error e
    | .ok q => if isClose prob q then other.eqLoop items else .ok false

/-- wordclass.py:120-144 `__eq__`.  The argument is a `WordClass` or some other object (`none`). -/
def WordClass.eq (c : WordClass) (other : Option WordClass) : Except Err Bool :=
  match other with
  | none => .ok false                                    -- 131-132
  | some d =>
    if c.id ≠ d.id then .ok false                        -- 134-135
    else if c.len ≠ d.len then .ok false                 -- 137-138
    else d.eqLoop c.probs                                -- 140-144

/-- wordclass.py:146-159 `__ne__`. -/
def WordClass.ne (c : WordClass) (other : Option WordClass) : Except Err Bool :=
  match c.eq other with
  | .error e => .error e
  | .ok b => .ok (!b)

end TheanoLM
