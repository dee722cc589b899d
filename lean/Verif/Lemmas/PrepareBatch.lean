import Verif.Model.PrepareBatch
/-!
# Lemmas: matrices with assigned columns
-/
namespace TheanoLM

/-- The element in row `t` and column `i`. -/
def cell (m : List (List α)) (t i : Nat) : Option α := (m[t]?).bind (fun row => row[i]?)

theorem setColumn_length (m : List (List α)) (i : Nat) (col : List α) : (setColumn m i col).length = m.length := by
  simp [setColumn]

theorem setColumn_cell (m : List (List α)) (i : Nat) (col : List α) (t j : Nat) :
    cell (setColumn m i col) t j = if i = j then (match col[t]?, cell m t j with
      | some x, some _ => some x
      | _, y => y) else cell m t j := by
  unfold cell setColumn
  rw [List.getElem?_mapIdx]
  cases hm : m[t]? with
  | none =>
    simp only [Option.map_none, Option.bind_none]
    split
    · cases col[t]? <;> rfl
    · rfl
  | some row =>
    simp only [Option.map_some, Option.bind_some]
    cases hc : col[t]? with
    | none => simp
    | some x =>
      simp only
      rw [List.getElem?_set]
      by_cases hij : i = j
      · subst hij
        by_cases hl : i < row.length
        · simp [hl]
        · rw [List.getElem?_eq_none (by omega)]; simp [hl]
      · simp [hij]

theorem setColumn_row (m : List (List α)) (i : Nat) (col : List α) (n : Nat) (h : ∀ r ∈ m, r.length = n) :
    ∀ r ∈ setColumn m i col, r.length = n := by
  intro r hr
  obtain ⟨t, ht⟩ := List.mem_iff_getElem?.mp hr
  unfold setColumn at ht
  rw [List.getElem?_mapIdx] at ht
  cases hm : m[t]? with
  | none => rw [hm] at ht; cases ht
  | some row =>
    have hrow := h row (List.mem_of_getElem? hm)
    rw [hm] at ht
    simp only [Option.map_some, Option.some.injEq] at ht
    subst ht
    split <;> simp [hrow]

theorem setColumns_length (cols : List (List α)) (k : Nat) (m : List (List α)) :
    (setColumns cols k m).length = m.length := by
  induction cols generalizing k m with
  | nil => rfl
  | cons c cols ih => unfold setColumns; rw [ih, setColumn_length]

theorem setColumns_row (cols : List (List α)) (k : Nat) (m : List (List α)) (n : Nat) (h : ∀ r ∈ m, r.length = n) :
    ∀ r ∈ setColumns cols k m, r.length = n := by
  induction cols generalizing k m with
  | nil => exact h
  | cons c cols ih => unfold setColumns; exact ih _ _ (setColumn_row m k c n h)

theorem setColumns_cell (cols : List (List α)) (k : Nat) (m : List (List α)) (t i : Nat) :
    cell (setColumns cols k m) t i = match (if k ≤ i then (cols[i - k]?).bind (fun c => c[t]?) else none), cell m t i with
      | some x, some _ => some x
      | _, y => y := by
  induction cols generalizing k m with
  | nil => simp [setColumns]
  | cons c cols ih =>
    unfold setColumns
    rw [ih, setColumn_cell]
    by_cases h1 : k + 1 ≤ i
    · rw [if_pos h1, if_neg (by omega : ¬ k = i), if_pos (by omega : k ≤ i)]
      have : i - k = (i - (k + 1)) + 1 := by omega
      rw [this, List.getElem?_cons_succ]
    · rw [if_neg h1]
      by_cases h2 : k = i
      · subst h2
        simp
      · rw [if_neg h2, if_neg (by omega)]

theorem foldl_max_le (l : List Nat) (a : Nat) : a ≤ l.foldl max a ∧ ∀ x ∈ l, x ≤ l.foldl max a := by
  induction l generalizing a with
  | nil => simp
  | cons b l ih =>
    obtain ⟨h1, h2⟩ := ih (max a b)
    simp only [List.foldl_cons, List.mem_cons]
    refine ⟨by omega, ?_⟩
    rintro x (rfl | hx)
    · omega
    · exact h2 x hx

theorem foldl_max_mem (l : List Nat) (a : Nat) : l.foldl max a = a ∨ l.foldl max a ∈ l := by
  induction l generalizing a with
  | nil => simp
  | cons b l ih =>
    rw [List.foldl_cons]
    rcases ih (max a b) with h | h
    · rw [h]
      rcases Nat.le_total a b with hab | hab
      · right; simp [Nat.max_eq_right hab]
      · left; exact Nat.max_eq_left hab
    · right; simp [h]

/-- A matrix filled with `d` whose columns have been assigned. -/
theorem filled_cell (cols : List (List α)) (d : α) (T : Nat) {i : Nat} {c : List α}
    (hc : cols[i]? = some c) {t : Nat} (ht : t < T) :
    cell (setColumns cols 0 (List.replicate T (List.replicate cols.length d))) t i = some ((c[t]?).getD d) := by
  have hi : i < cols.length := (List.getElem?_eq_some_iff.mp hc).1
  have hcell : cell (List.replicate T (List.replicate cols.length d)) t i = some d := by
    simp [cell, ht, hi]
  rw [setColumns_cell, hcell]
  simp only [Nat.zero_le, if_true, Nat.sub_zero, hc, Option.bind_some]
  cases c[t]? <;> rfl

end TheanoLM
