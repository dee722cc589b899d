import Verif.Model.Basic
import Mathlib.Data.Rat.Defs
import Mathlib.Algebra.Order.Ring.Rat
/-!
# Model of theanolm/backend/matrixfunctions.py
-/
namespace TheanoLM

/-- The results of the random generator of NumPy, for each element: `numpy.random.randint(low, high)` and `numpy.random.rand`. -/
structure TestRandom where
  randint : ℤ → ℤ → Nat → ℤ
  rand : Nat → ℚ

/-- The argument `high`. -/
inductive TestHigh
  | bool (b : Bool)
  | int (n : ℤ)
  | float (x : ℚ)
  | other

/-- The argument `size`. -/
inductive TestSize
  | one (n : Nat)
  | many (dims : List Nat)

/-- The dimensions that NumPy uses for an argument `size`. -/
def TestSize.dims : TestSize → List Nat
  | .one n => [n]
  | .many dims => dims

/-- An array: the data type, the dimensions and the elements. -/
structure TestArray where
  dtype : Str
  dims : List Nat
  data : List ℚ
  deriving DecidableEq

/-- `numpy.random.randint(low, high, size=size)` -/
def randintArray (R : TestRandom) (dtype : Str) (low high : ℤ) (size : TestSize) : Except Err TestArray :=
  if high ≤ low then .error .valueError
  else .ok ⟨dtype, size.dims, (List.range size.dims.prod).map fun i => (R.randint low high i : ℚ)⟩

/-- matrixfunctions.py:9-34 `test_value`.  Rounding to `floatX` is not modelled. -/
def testValue (R : TestRandom) (size : TestSize) (high : TestHigh) : Except Err TestArray :=
  match high with
  | .bool b => randintArray R "int8".toList 0 (if b then 1 else 0) size                  -- 27-28
  | .int n => randintArray R "int64".toList 0 n size                                     -- 29-30
  | .float x =>                                                                          -- 31-32
    match size with
    | .one _ => .error .typeError                                                        -- `*size`
    | .many dims => .ok ⟨"floatX".toList, dims, (List.range dims.prod).map fun i => x * R.rand i⟩
  | .other => .error .typeError                                                          -- 33-34

end TheanoLM
