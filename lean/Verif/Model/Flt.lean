import Mathlib.Algebra.Order.Field.Basic
/-!
# Floating point numbers with the special values

`Flt S` has the special values of IEEE 754 arithmetic, and the other values are the elements of an ordered field `S`.  There
is no rounding, no overflow and no negative zero.
-/
namespace TheanoLM

inductive Flt (S : Type)
  | nan
  | negInf
  | posInf
  | fin (x : S)
  deriving DecidableEq

namespace Flt

/-- Addition. -/
def add {S : Type} [Add S] : Flt S → Flt S → Flt S
  | .nan, _ => .nan
  | _, .nan => .nan
  | .negInf, .posInf => .nan
  | .posInf, .negInf => .nan
  | .negInf, _ => .negInf
  | _, .negInf => .negInf
  | .posInf, _ => .posInf
  | _, .posInf => .posInf
  | .fin a, .fin b => .fin (a + b)

/-- The sum of the elements in order. -/
def sum {S : Type} [Add S] [Zero S] (l : List (Flt S)) : Flt S := l.foldl add (.fin 0)

/-- Multiplication by a mask element, which is converted to a number: zero times infinity is nan. -/
def mulMask {S : Type} [Semiring S] (x : Flt S) (m : Nat) : Flt S :=
  match x with
  | .nan => .nan
  | .negInf => if m = 0 then .nan else .negInf
  | .posInf => if m = 0 then .nan else .posInf
  | .fin a => .fin (a * m)

/-- `-x` -/
def neg {S : Type} [Neg S] : Flt S → Flt S
  | .nan => .nan
  | .negInf => .posInf
  | .posInf => .negInf
  | .fin a => .fin (-a)

/-- Division by a positive integer. -/
def divNat {S : Type} [Field S] (x : Flt S) (n : Nat) : Flt S :=
  match x with
  | .fin a => .fin (a / n)
  | y => y

/-- `numpy.exp`; `e` is the exponential function of `S`. -/
def exp {S : Type} [Zero S] (e : S → S) : Flt S → Flt S
  | .nan => .nan
  | .negInf => .fin 0
  | .posInf => .posInf
  | .fin a => .fin (e a)

/-- `x > 0.0`; comparison with nan is false. -/
def isPos {S : Type} [Zero S] [LT S] [DecidableLT S] : Flt S → Bool
  | .posInf => true
  | .fin a => decide (0 < a)
  | _ => false

end Flt

end TheanoLM
