import Verif.Lemmas.NetworkShape
import Verif.Model.OutputLayer
import Mathlib.Algebra.Order.Field.Basic
import Mathlib.Algebra.Order.BigOperators.Group.List
import Mathlib.Algebra.BigOperators.Ring.List
import Mathlib.Algebra.BigOperators.Group.List.Basic
import Mathlib.Tactic.Linarith
import Mathlib.Tactic.Ring
/-!
# Lemmas about the output layers
-/
namespace TheanoLM
set_option linter.unusedSectionVars false

section
variable {S : Type} [Add S] [Mul S] [Sub S] [Div S] [Zero S] [One S]

/-- An output of a pointwise layer is the value of its function in some position. -/
def FromPoint (act : Act S) (opts : EvalOptions) (layers : List (Layer S)) (outs : List (Elem S)) : Prop :=
  ∀ (k : Nat) (x : Elem S) (layer : Layer S), outs[k]? = some x → layers[k]? = some layer → 
    (∀ t s p, (pointElem act opts layer k t s p).isSome) → ∃ t s p, pointElem act opts layer k t s p = some (.ok x)

theorem pointRow_mem {f : Nat → Pos S → Except Err (Elem S)} {seq : Nat} {l : List (Pos S)} {r : List (Elem S)}
    (h : pointRow f seq l = .ok r) {x : Elem S} (hx : x ∈ r) : ∃ s p, f s p = .ok x := by
  induction l generalizing r seq with
  | nil => injection h with h; subst h; cases hx
  | cons p l ih =>
    obtain ⟨b, bs, h1, h2, rfl⟩ := pointRow_cons_ok h
    rcases List.mem_cons.mp hx with rfl | hx
    · exact ⟨_, _, h1⟩
    · exact ih h2 hx

theorem pointRows_mem {f : Nat → Nat → Pos S → Except Err (Elem S)} {time : Nat} {g : List (List (Pos S))} {r : List (List (Elem S))}
    (h : pointRows f time g = .ok r) {row : List (Elem S)} (hrow : row ∈ r) {x : Elem S} (hx : x ∈ row) :
    ∃ t s p, f t s p = .ok x := by
  induction g generalizing r time with
  | nil => injection h with h; subst h; cases hrow
  | cons p l ih =>
    obtain ⟨b, bs, h1, h2, rfl⟩ := pointRows_cons_ok h
    rcases List.mem_cons.mp hrow with rfl | hrow
    · obtain ⟨s, p, hp⟩ := pointRow_mem h1 hx
      exact ⟨_, s, p, hp⟩
    · exact ih h2 hrow

theorem evalLayer_mem {act : Act S} {opts : EvalOptions} {layer : Layer S} {k : Nat} {g : List (List (Pos S))}
    {outs : List (List (Elem S))} (h : evalLayer act opts layer k g = .ok outs)
    (hp : ∀ t s p, (pointElem act opts layer k t s p).isSome) {row : List (Elem S)} (hrow : row ∈ outs) {x : Elem S} (hx : x ∈ row) :
    ∃ t s p, pointElem act opts layer k t s p = some (.ok x) := by
  have key : pointRows (pointFun act opts layer k) 0 g = .ok outs → ∃ t s p, pointElem act opts layer k t s p = some (.ok x) := by
    intro h'
    obtain ⟨t, s, p, hf⟩ := pointRows_mem h' hrow hx
    refine ⟨t, s, p, ?_⟩
    unfold pointFun at hf
    obtain ⟨v, hv⟩ := Option.isSome_iff_exists.mp (hp t s p)
    rw [hv] at hf ⊢
    exact congrArg some hf
  cases layer with
  | recurrent kind b => have := hp 0 0 (⟨0, 0, true⟩, []); cases this
  | bidirectional kind f b => have := hp 0 0 (⟨0, 0, true⟩, []); cases this
  | glu b fs is filters => have := hp 0 0 (⟨0, 0, true⟩, []); cases this
  | _ => exact key h

theorem evalLayers_mem {act : Act S} {opts : EvalOptions} {all : List (Layer S)} (layers pre : List (Layer S)) {table r : List (List (Entry S))}
    (hall : all = pre ++ layers) (h : evalLayers act opts pre.length layers table = .ok r)
    (ht : ∀ row ∈ table, ∀ e ∈ row, e.outs.length = pre.length ∧ FromPoint act opts all e.outs) :
    ∀ row ∈ r, ∀ e ∈ row, e.outs.length = all.length ∧ FromPoint act opts all e.outs := by
  induction layers generalizing pre table with
  | nil =>
    rw [evalLayers] at h
    injection h with h
    subst h
    rw [hall, List.append_nil]
    rw [hall, List.append_nil] at ht
    exact ht
  | cons layer layers ih =>
    rw [evalLayers] at h
    cases he : evalLayer act opts layer pre.length (gather layer.inputs table) with
    | error e => rw [he] at h; cases h
    | ok outs =>
      rw [he] at h
      simp only at h
      refine ih (pre ++ [layer]) (by rw [hall, List.append_assoc]; rfl) (by rw [List.length_append, List.length_singleton]; exact h) ?_
      intro row hrow e hem
      obtain ⟨a, ha, b, hb, rfl⟩ := mem_zipWith hrow
      obtain ⟨a', ha', b', hb', rfl⟩ := mem_zipWith hem
      obtain ⟨hl, hf⟩ := ht a ha a' ha'
      refine ⟨by simp [hl], ?_⟩
      intro k x l hk hlk hp
      by_cases hkl : k < pre.length
      · rw [List.getElem?_append_left (by omega)] at hk
        exact hf k x l hk hlk hp
      · have hk' : k = pre.length := by
          have := (List.getElem?_eq_some_iff.mp hk).1
          rw [List.length_append, List.length_singleton] at this
          omega
        subst hk'
        rw [hall, List.getElem?_append_right (le_refl _), Nat.sub_self] at hlk
        injection hlk with hlk
        subst hlk
        rw [← hl, List.getElem?_append_right (le_refl _), Nat.sub_self] at hk
        injection hk with hk
        subst hk
        exact evalLayer_mem he hp hb hb'

end

section
variable {K : Type} [Field K] [LinearOrder K] [IsStrictOrderedRing K]

theorem sum_div (l : List K) (c : K) : (l.map (· / c)).sum = l.sum / c := by
  induction l with
  | nil => simp
  | cons a l ih => rw [List.map_cons, List.sum_cons, List.sum_cons, ih, add_div]

theorem normalize_nonneg {exps : List K} (h : ∀ x ∈ exps, 0 ≤ x) : ∀ x ∈ normalize exps, 0 ≤ x := by
  intro x hx
  obtain ⟨y, hy, rfl⟩ := List.mem_map.mp hx
  exact div_nonneg (h y hy) (List.sum_nonneg h)

theorem normalize_sum {exps : List K} (h : 0 < exps.sum) : (normalize exps).sum = 1 := by
  unfold normalize
  rw [sum_div, div_self (ne_of_gt h)]

theorem listSum_pos_of_mem {l : List K} (h : ∀ x ∈ l, 0 ≤ x) {a : K} (ha : a ∈ l) (hpos : 0 < a) : 0 < l.sum := by
  induction l with
  | nil => cases ha
  | cons b l ih =>
    rw [List.sum_cons]
    have h1 := h b List.mem_cons_self
    have h2 : 0 ≤ l.sum := List.sum_nonneg fun x hx => h x (List.mem_cons_of_mem _ hx)
    rcases List.mem_cons.mp ha with rfl | ha
    · linarith
    · have := ih (fun x hx => h x (List.mem_cons_of_mem _ hx)) ha
      linarith

theorem sum_map_mul_left' (p : K) (l : List K) : (l.map (p * ·)).sum = p * l.sum := by
  induction l with
  | nil => simp
  | cons a l ih => rw [List.map_cons, List.sum_cons, List.sum_cons, ih, mul_add]

/-- The sum of all products of the two levels. -/
theorem levels_sum {ps : List K} {rows : List (List K)} (hl : ps.length = rows.length) (hr : ∀ row ∈ rows, row.sum = 1) :
    (List.zipWith (fun p row => row.map (p * ·)) ps rows).flatten.sum = ps.sum := by
  induction ps generalizing rows with
  | nil => simp
  | cons p ps ih =>
    cases rows with
    | nil => cases hl
    | cons row rows =>
      rw [List.zipWith_cons_cons, List.flatten_cons, List.sum_append, List.sum_cons, sum_map_mul_left', hr row List.mem_cons_self,
        mul_one, ih (by simpa using hl) fun r hm => hr r (List.mem_cons_of_mem _ hm)]

theorem levels_length {ps : List K} {rows : List (List K)} {m : Nat} (hl : ps.length = rows.length) (hr : ∀ row ∈ rows, row.length = m) :
    (List.zipWith (fun p row => row.map (p * ·)) ps rows).flatten.length = rows.length * m := by
  induction ps generalizing rows with
  | nil =>
    have : rows = [] := List.eq_nil_of_length_eq_zero hl.symm
    subst this
    simp
  | cons p ps ih =>
    cases rows with
    | nil => cases hl
    | cons row rows =>
      rw [List.zipWith_cons_cons, List.flatten_cons, List.length_append, List.length_map, hr row List.mem_cons_self,
        ih (by simpa using hl) fun r hm => hr r (List.mem_cons_of_mem _ hm), List.length_cons]
      ring

/-- The product in a position is the one of its branch and of its number in the branch. -/
theorem levels_getElem? {ps : List K} {rows : List (List K)} {m : Nat} (hm : 0 < m) (hl : ps.length = rows.length)
    (hr : ∀ row ∈ rows, row.length = m) (i : Nat) (hi : i < rows.length * m) :
    ∃ p row q, ps[i / m]? = some p ∧ rows[i / m]? = some row ∧ row[i % m]? = some q ∧
      (List.zipWith (fun p row => row.map (p * ·)) ps rows).flatten[i]? = some (p * q) := by
  induction ps generalizing rows i with
  | nil =>
    have : rows = [] := List.eq_nil_of_length_eq_zero hl.symm
    subst this
    simp at hi
  | cons p ps ih =>
    cases rows with
    | nil => cases hl
    | cons row rows =>
      have hrow := hr row List.mem_cons_self
      rw [List.zipWith_cons_cons, List.flatten_cons]
      by_cases him : i < m
      · rw [Nat.div_eq_of_lt him, Nat.mod_eq_of_lt him]
        refine ⟨p, row, row[i]'(by omega), rfl, rfl, List.getElem?_eq_getElem _, ?_⟩
        rw [List.getElem?_append_left (by simpa [hrow] using him), List.getElem?_map, List.getElem?_eq_getElem (by omega)]
        rfl
      · obtain ⟨j, rfl⟩ : ∃ j, i = j + m := ⟨i - m, by omega⟩
        rw [Nat.add_div_right j hm, Nat.add_mod_right]
        rw [List.length_cons, Nat.succ_mul] at hi
        obtain ⟨p', row', q, h1, h2, h3, h4⟩ := ih (by simpa using hl) (fun r hm => hr r (List.mem_cons_of_mem _ hm)) j (by omega)
        refine ⟨p', row', q, by simpa using h1, by simpa using h2, h3, ?_⟩
        rw [List.getElem?_append_right (by simp [hrow]), List.length_map, hrow, Nat.add_sub_cancel, h4]

end

end TheanoLM
