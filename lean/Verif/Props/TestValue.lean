import Verif.Model.TestValue
import Mathlib.Tactic.Linarith
import Mathlib.Tactic.NormNum
/-!
# Test values of variables: C144
-/
namespace TheanoLM

/-! ## Specification -/

/-- The contract of the random generator: integers from `low` to less than `high`, and numbers from zero to less than one. -/
structure TestRandom.Contract (R : TestRandom) : Prop where
  randint : ∀ low high i, low < high → low ≤ R.randint low high i ∧ R.randint low high i < high
  rand : ∀ i, 0 ≤ R.rand i ∧ R.rand i < 1

/-- The dimensions that have been requested: an integer means a vector. -/
inductive Requested : TestSize → List Nat → Prop
  | vector (n : Nat) : Requested (.one n) [n]
  | matrix (dims : List Nat) : Requested (.many dims) dims

/-- An array of the given type and dimensions, with elements from zero to less than `high`. -/
def InRange (dtype : Str) (dims : List Nat) (high : ℚ) (r : TestArray) : Prop :=
  r.dtype = dtype ∧ r.dims = dims ∧ r.data.length = dims.prod ∧ ∀ x ∈ r.data, 0 ≤ x ∧ x < high

theorem Requested.eq {size : TestSize} {dims : List Nat} (h : Requested size dims) : size.dims = dims := by cases h <;> rfl

/-! ## The values -/

/-- C144: for an integer, the array has the given dimensions, and its elements are integers from zero to less than the maximum. -/
theorem C144_int (R : TestRandom) (hR : R.Contract) (size : TestSize) (dims : List Nat) (hd : Requested size dims) (n : ℤ)
    (hn : 0 < n) : ∃ r, testValue R size (.int n) = .ok r ∧ InRange "int64".toList dims n r ∧ ∀ x ∈ r.data, ∃ k : ℤ, x = k := by
  unfold testValue randintArray
  simp only
  rw [if_neg (by omega)]
  rw [hd.eq]
  refine ⟨_, rfl, ⟨rfl, rfl, by simp, fun x hx => ?_⟩, fun x hx => ?_⟩
  · obtain ⟨i, _, rfl⟩ := List.mem_map.mp hx
    obtain ⟨h1, h2⟩ := hR.randint 0 n i hn
    exact ⟨by exact_mod_cast h1, by exact_mod_cast h2⟩
  · obtain ⟨i, _, rfl⟩ := List.mem_map.mp hx
    exact ⟨_, rfl⟩

/-- C144, the part that holds for floating point numbers: when the size is a tuple, the array has the given dimensions, and its elements
are from zero to less than the maximum.  What is missing: an integer as the size (`C144_violated_size`). -/
theorem C144_float_partial (R : TestRandom) (hR : R.Contract) (dims : List Nat) (x : ℚ) (hx : 0 < x) :
    ∃ r, testValue R (.many dims) (.float x) = .ok r ∧ InRange "floatX".toList dims x r := by
  refine ⟨_, rfl, rfl, rfl, by simp, fun y hy => ?_⟩
  obtain ⟨i, _, rfl⟩ := List.mem_map.mp hy
  obtain ⟨h1, h2⟩ := hR.rand i
  exact ⟨mul_nonneg hx.le h1, by nlinarith⟩

/-- C144 is violated: for a floating point number the size cannot be an integer. -/
theorem C144_violated_size (R : TestRandom) (n : Nat) (x : ℚ) : testValue R (.one n) (.float x) = .error .typeError := rfl

/-- C144 is violated: when the maximum is `True`, every element is zero, whatever the random generator gives. -/
theorem C144_violated_bool (R : TestRandom) (hR : R.Contract) (size : TestSize) (dims : List Nat) (hd : Requested size dims) :
    ∃ r, testValue R size (.bool true) = .ok r ∧ r.dtype = "int8".toList ∧ r.dims = dims ∧ r.data.length = dims.prod ∧
      ∀ x ∈ r.data, x = 0 := by
  rw [← hd.eq]
  refine ⟨_, rfl, rfl, rfl, by simp, fun x hx => ?_⟩
  obtain ⟨i, _, rfl⟩ := List.mem_map.mp hx
  obtain ⟨h1, h2⟩ := hR.randint 0 1 i (by omega)
  have : R.randint 0 1 i = 0 := by omega
  show ((R.randint 0 1 i : ℤ) : ℚ) = 0
  rw [this]
  rfl

/-- C144: other types of maximum are errors. -/
theorem C144_other (R : TestRandom) (size : TestSize) : testValue R size .other = .error .typeError := rfl

/-! ## A case that meets the hypotheses -/

/-- A generator that gives different numbers. -/
def exampleTestRandom : TestRandom where
  randint low high i := low + (i : ℤ) % (high - low)
  rand i := (i % 2 : Nat) / 2

theorem exampleTestRandom_contract : exampleTestRandom.Contract where
  randint low high i h := by
    have h1 := Int.emod_nonneg (i : ℤ) (show high - low ≠ 0 by omega)
    have h2 := Int.emod_lt_of_pos (i : ℤ) (show 0 < high - low by omega)
    unfold exampleTestRandom
    exact ⟨by simp only; omega, by simp only; omega⟩
  rand i := by
    unfold exampleTestRandom
    simp only
    rcases Nat.mod_two_eq_zero_or_one i with h | h <;> rw [h] <;> norm_num

example : testValue exampleTestRandom (.many [2, 2]) (.int 3) = .ok ⟨"int64".toList, [2, 2], [0, 1, 2, 0]⟩ ∧
    testValue exampleTestRandom (.many [3]) (.float 3) = .ok ⟨"floatX".toList, [3], [0, 3 / 2, 0]⟩ ∧
    testValue exampleTestRandom (.one 2) (.bool true) = .ok ⟨"int8".toList, [2], [0, 0]⟩ := by decide +kernel

end TheanoLM
