import Verif.Model.InitialValue
import Mathlib.Tactic.Ring
/-!
# The initial values of vectors: C142
-/
set_option linter.unusedSectionVars false

namespace TheanoLM

/-! ## Specification -/

/-- Element number `j` of a part that is initialized to the value. -/
def InitValue.at {S : Type} [Zero S] : InitValue S → Nat → Option S
  | .none, _ => some 0
  | .scalar x, _ => some x
  | .array xs, j => xs[j]?

/-- The vector that is documented: the parts, each of the same size, one after another. -/
def IsConcatenation {S : Type} [Zero S] (size : Nat) (vs : List (InitValue S)) (r : List S) : Prop :=
  r.length = vs.length * size ∧ ∀ i v j, vs[i]? = some v → j < size → r[i * size + j]? = v.at j

/-- The value is not an array. -/
def InitValue.Single {S : Type} : InitValue S → Prop
  | .array _ => False
  | _ => True

/-! ## Lemmas -/

section
variable {S : Type} [Zero S]

theorem isConcatenation_nil (size : Nat) : IsConcatenation (S := S) size [] [] :=
  ⟨by simp, fun i v j h => by simp at h⟩

theorem isConcatenation_cons {size : Nat} {v : InitValue S} {vs : List (InitValue S)} {part rest : List S} (hl : part.length = size)
    (hv : ∀ j, j < size → part[j]? = v.at j) (h : IsConcatenation size vs rest) : IsConcatenation size (v :: vs) (part ++ rest) := by
  obtain ⟨h1, h2⟩ := h
  refine ⟨by rw [List.length_append, h1, hl, List.length_cons]; ring, fun i w j hi hj => ?_⟩
  cases i with
  | zero =>
    cases hi
    rw [Nat.zero_mul, Nat.zero_add, List.getElem?_append_left (by omega)]
    exact hv j hj
  | succ i =>
    rw [List.getElem?_cons_succ] at hi
    have e : (i + 1) * size + j = part.length + (i * size + j) := by rw [hl]; ring
    rw [e, List.getElem?_append_right (by omega), Nat.add_sub_cancel_left]
    exact h2 i w j hi hj

theorem replicate_at {size j : Nat} (x : S) (hj : j < size) : (List.replicate size x)[j]? = some x := by
  rw [List.getElem?_replicate, if_pos hj]

theorem initParts_single {size : Nat} {arg : InitArg S} (ha : arg.isArray = Option.none) (vs : List (InitValue S)) (h : ∀ v ∈ vs, v.Single) :
    ∃ r, initParts size arg vs = .ok r ∧ IsConcatenation size vs r := by
  induction vs with
  | nil => exact ⟨[], rfl, isConcatenation_nil size⟩
  | cons v vs ih =>
    obtain ⟨r, hr, hc⟩ := ih fun w hw => h w (List.mem_cons_of_mem _ hw)
    have hv := h v List.mem_cons_self
    cases v with
    | none =>
      refine ⟨List.replicate size 0 ++ r, ?_, isConcatenation_cons (by simp) (fun j hj => replicate_at 0 hj) hc⟩
      rw [initParts, initPart, hr]
    | scalar x =>
      refine ⟨List.replicate size x ++ r, ?_, isConcatenation_cons (by simp) (fun j hj => replicate_at x hj) hc⟩
      rw [initParts, initPart, ha, hr]
      · rfl
      · intro h; cases h
    | array xs => exact hv.elim

theorem initParts_array {size : Nat} {arg : InitArg S} (ha : arg.isArray = Option.none) {vs : List (InitValue S)} {xs : List S}
    (h : .array xs ∈ vs) (hx : xs.length ≠ 1) (r : List S) : initParts size arg vs ≠ .ok r := by
  induction vs generalizing r with
  | nil => cases h
  | cons v vs ih =>
    intro hr
    rw [initParts] at hr
    split at hr
    · cases hr
    · rename_i part hp
      split at hr
      · cases hr
      · rename_i rest hrest
        rcases List.mem_cons.mp h with rfl | h
        · unfold initPart at hp
          simp only [ha] at hp
          match xs, hx, hp with
          | [], _, hp => cases hp
          | [x], hx, _ => exact hx rfl
          | _ :: _ :: _, _, hp => cases hp
        · exact ih h rest hrest

/-! ## The initial values -/

/-- C142: without a value, or with a number, every element of the vector is zero, or the number. -/
theorem C142_value (size : Nat) (v : InitValue S) (h : v.Single) :
    ∃ r, matrixFromValue size (.one v) = .ok r ∧ r.length = size ∧ ∀ j < size, r[j]? = v.at j := by
  cases v with
  | none => exact ⟨List.replicate size 0, by simp [matrixFromValue, InitArg.values, initParts, initPart], by simp, fun j => replicate_at 0⟩
  | scalar x =>
    exact ⟨List.replicate size x, by simp [matrixFromValue, InitArg.values, initParts, initPart, InitArg.isArray, fillVector], by simp,
      fun j => replicate_at x⟩
  | array xs => exact h.elim

/-- C142: with an array, the vector is the array. -/
theorem C142_array (size : Nat) (xs : List S) : matrixFromValue size (.one (.array xs)) = .ok xs := by
  simp [matrixFromValue, InitArg.values, initParts, initPart, InitArg.isArray]

/-- C142, the part that holds: a list of numbers gives the concatenation of vectors, each filled with one of the numbers.
What is missing: according to the documentation the list can also contain arrays (`C142_violated_arrays`). -/
theorem C142_list_partial (size : Nat) (vs : List (InitValue S)) (hne : vs ≠ []) (h : ∀ v ∈ vs, v.Single) :
    ∃ r, matrixFromValue size (.many vs) = .ok r ∧ IsConcatenation size vs r := by
  obtain ⟨r, hr, hc⟩ := initParts_single (size := size) (arg := .many vs) rfl vs h
  refine ⟨r, ?_, hc⟩
  unfold matrixFromValue
  rw [if_neg (by simpa [InitArg.values] using hne)]
  exact hr

/-- C142 is violated: when there is an array in the list, the function fails, whatever the size is, unless the array has exactly one
element. -/
theorem C142_violated_arrays (size : Nat) (vs : List (InitValue S)) (xs : List S) (h : .array xs ∈ vs) (hx : xs.length ≠ 1) (r : List S) :
    matrixFromValue size (.many vs) ≠ .ok r := by
  unfold matrixFromValue
  split
  · intro h; cases h
  · exact initParts_array rfl h hx r

/-- C142: the biases of the layers are what the model of the creation of layers says: a list of numbers gives the concatenation,
which is then divided to the devices. -/
theorem C142_bias (devices : List (Option Str)) (split : Bool) (name : Str) (size : Nat) (xs : List S) (hne : xs ≠ []) (d : ParamDict S) :
    initBias devices split name size (.many (xs.map .scalar)) d =
      initParam devices split name (xs.flatMap fun x => List.replicate size x) d := by
  have key : ∀ (arg : InitArg S), arg.isArray = Option.none → ∀ ys : List S,
      initParts size arg (ys.map .scalar) = .ok (ys.flatMap fun x => List.replicate size x) := by
    intro arg ha ys
    induction ys with
    | nil => rfl
    | cons y ys ih =>
      rw [List.map_cons, initParts, ih, initPart, ha, List.flatMap_cons]
      · rfl
      · intro h; cases h
  unfold initBias matrixFromValue
  rw [if_neg (by simpa [InitArg.values] using hne)]
  have hk := key (.many (xs.map .scalar)) rfl xs
  simp only [InitArg.values, hk]

end

/-- C142 is violated: an array of a wrong size is accepted, and the vector does not have the size that was asked for. -/
theorem C142_violated_size : ∃ r, matrixFromValue 3 (.one (.array [(1 : Int), 2])) = .ok r ∧ r.length ≠ 3 := ⟨[1, 2], by decide +kernel⟩

/-! ## Cases that meet the hypotheses -/

/-- The bias of an LSTM layer of two units. -/
example : (∀ v ∈ [InitValue.scalar (-1 : Int), .scalar 1, .scalar (-1), .none], v.Single) ∧
    matrixFromValue 2 (.many [.scalar (-1 : Int), .scalar 1, .scalar (-1), .none]) = .ok [-1, -1, 1, 1, -1, -1, 0, 0] :=
  ⟨by simp [InitValue.Single], by decide +kernel⟩

/-- Two arrays of the right size: the documented result exists, but the function fails. -/
example : IsConcatenation 2 [.array [(1 : Int), 2], .array [3, 4]] [1, 2, 3, 4] ∧
    matrixFromValue 2 (.many [.array [(1 : Int), 2], .array [3, 4]]) = .error .valueError := by
  refine ⟨⟨rfl, fun i v j hi hj => ?_⟩, by decide +kernel⟩
  match i, hi with
  | 0, hi => cases hi; match j, hj with | 0, _ => rfl | 1, _ => rfl
  | 1, hi => cases hi; match j, hj with | 0, _ => rfl | 1, _ => rfl

end TheanoLM
