import Verif.Model.Convolution
import Verif.Model.Network
import Mathlib.Algebra.BigOperators.Ring.Finset
import Mathlib.Algebra.BigOperators.Group.Finset.Piecewise
import Mathlib.Algebra.BigOperators.Group.Finset.Sigma
import Mathlib.Tactic.Ring
import Mathlib.Tactic.Linarith
/-!
# Convolution (C105)

## Specification
-/
set_option linter.unusedSectionVars false
namespace TheanoLM

/-- The documented values of the `padding` argument. -/
inductive Padding
  | same
  | valid
  | full

def Padding.name : Padding → Str
  | .same => "same".toList
  | .valid => "valid".toList
  | .full => "full".toList

/-- The element of a filter of size `k` that is placed on elements 0, `stride`, 2 `stride`, … of the input. -/
def Padding.anchor : Padding → Nat → Nat
  | .same, k => k / 2
  | .valid, _ => 0
  | .full, k => k - 1

/-- The `j`th place of the filter is used: its middle element is on an element of the input ("same"), all of its elements are on
elements of the input ("valid"), or some of its elements are on elements of the input ("full"). -/
def Padding.Used : Padding → (n k stride j : Nat) → Prop
  | .same, n, _, stride, j => j * stride < n
  | .valid, n, k, stride, j => j * stride + k ≤ n
  | .full, n, k, stride, j => j * stride < n + (k - 1)

/-- Element `x` of the input is under element `p` of the filter, when the filter is in its `j`th place. -/
def Padding.Under (m : Padding) (k stride j x p : Nat) : Prop := x + m.anchor k = j * stride + p

instance (m : Padding) (k stride j x p : Nat) : Decidable (m.Under k stride j x p) := by unfold Padding.Under; infer_instance

section
variable {S : Type} [Semiring S]

/-- Sum of the products of the elements that are on each other, when the filter is in place (`i`, `j`). -/
def convolved2 (m : Padding) (strides : Nat × Nat) (input filters : Tensor4 S) (sample i j out : Nat) : S :=
  ∑ x ∈ Finset.range input.n1, ∑ p ∈ Finset.range filters.n0, ∑ y ∈ Finset.range input.n2, ∑ q ∈ Finset.range filters.n1,
    if m.Under filters.n0 strides.1 i x p ∧ m.Under filters.n1 strides.2 j y q
    then ∑ f ∈ Finset.range input.n3, input.get sample x y f * filters.get p q f out else 0

/-- The same in one dimension. -/
def convolved1 (m : Padding) (stride : Nat) (input filters : Tensor3 S) (sample i out : Nat) : S :=
  ∑ x ∈ Finset.range input.n1, ∑ p ∈ Finset.range filters.n0,
    if m.Under filters.n0 stride i x p
    then ∑ f ∈ Finset.range input.n2, input.get sample x f * filters.get p f out else 0

/-! ## Helper lemmas -/

def Padding.mode : Padding → BorderMode
  | .same => .half
  | .valid => .valid
  | .full => .full

theorem mode_pad (m : Padding) (k : Nat) (hk : 0 < k) : m.mode.pad k = m.anchor k := by
  cases m
  · show (k : Int) / 2 = ((k / 2 : Nat) : Int)
    omega
  · rfl
  · show (k : Int) - 1 = ((k - 1 : Nat) : Int)
    omega

/-- The size of the output of Theano. -/
theorem outSize_lt (m : BorderMode) (n k s : Nat) (hs : 0 < s) (j : Nat) :
    (j : Int) < m.outSize n k s ↔ (j : Int) * s + k ≤ n + 2 * m.pad k := by
  unfold BorderMode.outSize
  have hs' : (0 : Int) < s := by exact_mod_cast hs
  rw [Int.lt_add_one_iff, Int.le_ediv_iff_mul_le hs']
  constructor <;> intro h <;> linarith

theorem ceil_lt (n s j : Nat) (hs : 0 < s) : j < (n + s - 1) / s ↔ j * s < n := by
  rw [← Nat.succ_le_iff, Nat.le_div_iff_mul_le hs, Nat.succ_mul]
  omega

/-- The number of places in the output after the elements past the end have been removed. -/
theorem used_iff (m : Padding) (n k s : Nat) (hs : 0 < s) (hk : 0 < k) (j : Nat) :
    ((j : Int) < m.mode.outSize n k s ∧ (m = .same → j < (n + s - 1) / s)) ↔ m.Used n k s j := by
  rw [outSize_lt _ _ _ _ hs, mode_pad m k hk, ceil_lt _ _ _ hs]
  have hc : (j : Int) * s = ((j * s : Nat) : Int) := by push_cast; rfl
  rw [hc]
  cases m with
  | same =>
    show _ ∧ _ ↔ j * s < n
    generalize j * s = js
    constructor
    · intro h; exact h.2 rfl
    · intro h
      refine ⟨?_, fun _ => h⟩
      show (js : Int) + k ≤ n + 2 * ((k / 2 : Nat) : Int)
      omega
  | valid =>
    show _ ∧ _ ↔ j * s + k ≤ n
    generalize j * s = js
    constructor
    · rintro ⟨h, -⟩
      have h' : (js : Int) + k ≤ n + 2 * ((0 : Nat) : Int) := h
      omega
    · intro h
      refine ⟨?_, fun e => nomatch e⟩
      show (js : Int) + k ≤ n + 2 * ((0 : Nat) : Int)
      omega
  | full =>
    show _ ∧ _ ↔ j * s < n + (k - 1)
    generalize j * s = js
    constructor
    · rintro ⟨h, -⟩
      have h' : (js : Int) + k ≤ n + 2 * ((k - 1 : Nat) : Int) := h
      omega
    · intro h
      refine ⟨?_, fun e => nomatch e⟩
      show (js : Int) + k ≤ n + 2 * ((k - 1 : Nat) : Int)
      omega

theorem outSize_nonneg (m : Padding) (n k s : Nat) (hk : 0 < k) (hs : 0 < s) (h : m = .valid → k ≤ n) :
    0 ≤ m.mode.outSize n k s := by
  unfold BorderMode.outSize
  rw [mode_pad m k hk]
  have hs' : (0 : Int) < s := by exact_mod_cast hs
  have : (-1 : Int) ≤ ((n : Int) + 2 * (m.anchor k : Nat) - k) / s := by
    rw [Int.le_ediv_iff_mul_le hs']
    have h1 : (-1 : Int) ≤ (n : Int) + 2 * (m.anchor k : Nat) - k := by
      cases m with
      | same => show (-1 : Int) ≤ (n : Int) + 2 * ((k / 2 : Nat) : Int) - k; omega
      | valid => have := h rfl; show (-1 : Int) ≤ (n : Int) + 2 * ((0 : Nat) : Int) - k; omega
      | full => show (-1 : Int) ≤ (n : Int) + 2 * ((k - 1 : Nat) : Int) - k; omega
    linarith
  linarith

/-- An element of the padded input, as a sum over the elements of the input. -/
theorem paddedGet_eq (t : Tensor4 S) (a f r s r0 s0 : Nat) :
    paddedGet t a f ((r : Int) - r0) ((s : Int) - s0) =
      ∑ x ∈ Finset.range t.n2, ∑ y ∈ Finset.range t.n3, if x + r0 = r ∧ y + s0 = s then t.get a f x y else 0 := by
  unfold paddedGet
  split_ifs with h
  · obtain ⟨h1, h2, h3, h4⟩ := h
    rw [Finset.sum_eq_single ((r : Int) - r0).toNat]
    · rw [Finset.sum_eq_single ((s : Int) - s0).toNat]
      · rw [if_pos (by omega)]
      · intro y _ hy
        rw [if_neg (by omega)]
      · intro hy
        exact absurd (Finset.mem_range.2 (by omega)) hy
    · intro x _ hx
      refine Finset.sum_eq_zero fun y _ => ?_
      rw [if_neg (by omega)]
    · intro hx
      exact absurd (Finset.mem_range.2 (by omega)) hx
  · symm
    refine Finset.sum_eq_zero fun x hx => Finset.sum_eq_zero fun y hy => ?_
    rw [Finset.mem_range] at hx hy
    rw [if_neg (by omega)]

theorem conv_sum (m : Padding) (input filters : Tensor4 S) (strides : Nat × Nat) (hk : 0 < filters.n0) (hl : 0 < filters.n1)
    (hf : input.n3 = filters.n2) (a i j o : Nat) :
    (∑ p ∈ Finset.range filters.n0, ∑ q ∈ Finset.range filters.n1, ∑ f ∈ Finset.range filters.n2,
      paddedGet input.shuffle0312 a f ((i * strides.1 + p : Nat) - m.mode.pad filters.n0)
          ((j * strides.2 + q : Nat) - m.mode.pad filters.n1) * filters.get p q f o) =
      convolved2 m strides input filters a i j o := by
  unfold convolved2
  rw [mode_pad m _ hk, mode_pad m _ hl, ← hf]
  have h1 : ∀ p ∈ Finset.range filters.n0, ∀ q ∈ Finset.range filters.n1,
      (∑ f ∈ Finset.range input.n3,
        paddedGet input.shuffle0312 a f ((i * strides.1 + p : Nat) - (m.anchor filters.n0 : Int))
          ((j * strides.2 + q : Nat) - (m.anchor filters.n1 : Int)) * filters.get p q f o) =
      ∑ x ∈ Finset.range input.n1, ∑ y ∈ Finset.range input.n2,
        if m.Under filters.n0 strides.1 i x p ∧ m.Under filters.n1 strides.2 j y q
        then ∑ f ∈ Finset.range input.n3, input.get a x y f * filters.get p q f o else 0 := by
    intro p _ q _
    have h2 : ∀ f ∈ Finset.range input.n3,
        paddedGet input.shuffle0312 a f ((i * strides.1 + p : Nat) - (m.anchor filters.n0 : Int))
          ((j * strides.2 + q : Nat) - (m.anchor filters.n1 : Int)) * filters.get p q f o =
        ∑ x ∈ Finset.range input.n1, ∑ y ∈ Finset.range input.n2,
          if m.Under filters.n0 strides.1 i x p ∧ m.Under filters.n1 strides.2 j y q
          then input.get a x y f * filters.get p q f o else 0 := by
      intro f _
      rw [paddedGet_eq, Finset.sum_mul]
      refine Finset.sum_congr rfl fun x _ => ?_
      rw [Finset.sum_mul]
      refine Finset.sum_congr rfl fun y _ => ?_
      rw [ite_mul, zero_mul]
      rfl
    rw [Finset.sum_congr rfl h2, Finset.sum_comm]
    refine Finset.sum_congr rfl fun x _ => ?_
    rw [Finset.sum_comm]
    refine Finset.sum_congr rfl fun y _ => ?_
    split_ifs
    · rfl
    · exact Finset.sum_const_zero
  rw [Finset.sum_congr rfl fun p hp => Finset.sum_congr rfl (h1 p hp)]
  rw [Finset.sum_congr rfl fun p _ => Finset.sum_comm, Finset.sum_comm]
  exact Finset.sum_congr rfl fun x _ => Finset.sum_congr rfl fun p _ => Finset.sum_comm

theorem padding_mode (m : Padding) : (if m.name = "same".toList then (.ok .half : Except Err BorderMode)
    else if m.name = "valid".toList then .ok .valid else if m.name = "full".toList then .ok .full else .error .valueError) =
      .ok m.mode := by
  cases m <;> rfl

theorem padding_same (m : Padding) : m.name = "same".toList ↔ m = .same := by
  cases m
  · exact ⟨fun _ => rfl, fun _ => rfl⟩
  · exact ⟨fun h => absurd h (by decide), fun h => nomatch h⟩
  · exact ⟨fun h => absurd h (by decide), fun h => nomatch h⟩

/-! ## Property theorems -/

/-- C105: the shape and the elements of the output of 2-dimensional convolution. -/
theorem C105_conv2d (m : Padding) (input filters : Tensor4 S) (strides : Nat × Nat)
    (hs : 0 < strides.1 ∧ 0 < strides.2) (hk : 0 < filters.n0 ∧ 0 < filters.n1) (hf : input.n3 = filters.n2)
    (hv : m = .valid → filters.n0 ≤ input.n1 ∧ filters.n1 ≤ input.n2) :
    ∃ r, conv2d input filters strides m.name = .ok r ∧ r.n0 = input.n0 ∧ r.n3 = filters.n3 ∧
      (∀ i, i < r.n1 ↔ m.Used input.n1 filters.n0 strides.1 i) ∧ (∀ j, j < r.n2 ↔ m.Used input.n2 filters.n1 strides.2 j) ∧
      ∀ sample i j out, r.get sample i j out = convolved2 m strides input filters sample i j out := by
  have n1 := outSize_nonneg m input.n1 filters.n0 strides.1 hk.1 hs.1 fun e => (hv e).1
  have n2 := outSize_nonneg m input.n2 filters.n1 strides.2 hk.2 hs.2 fun e => (hv e).2
  unfold conv2d
  simp only [padding_mode m]
  have hr : nnetConv2d input.shuffle0312 filters.shuffle3201 m.mode strides =
      .ok ⟨input.n0, filters.n3, (m.mode.outSize input.n1 filters.n0 strides.1).toNat,
        (m.mode.outSize input.n2 filters.n1 strides.2).toNat, fun a o i j => convolved2 m strides input filters a i j o⟩ := by
    unfold nnetConv2d
    rw [if_neg (by simpa [Tensor4.shuffle0312, Tensor4.shuffle3201] using hf)]
    dsimp only
    rw [if_neg (by rintro (h | h); exacts [absurd h (not_lt.2 n1), absurd h (not_lt.2 n2)])]
    congr 2
    funext a o i j
    exact conv_sum m input filters strides hk.1 hk.2 hf a i j o
  rw [hr]
  refine ⟨_, rfl, ?_⟩
  have hu1 := used_iff m input.n1 filters.n0 strides.1 hs.1 hk.1
  have hu2 := used_iff m input.n2 filters.n1 strides.2 hs.2 hk.2
  by_cases hm : m = .same
  · rw [if_pos ((padding_same m).2 hm)]
    refine ⟨rfl, rfl, fun i => ?_, fun j => ?_, fun _ _ _ _ => rfl⟩
    · rw [← hu1 i]
      show i < min _ ((input.n1 + strides.1 - 1) / strides.1) ↔ _
      rw [lt_min_iff, Int.lt_toNat]
      exact and_congr_right fun _ => ⟨fun h _ => h, fun h => h hm⟩
    · rw [← hu2 j]
      show j < min (m.mode.outSize input.n2 filters.n1 strides.2).toNat ((input.n2 + strides.2 - 1) / strides.2) ↔ _
      rw [lt_min_iff, Int.lt_toNat]
      exact and_congr_right fun _ => ⟨fun h _ => h, fun h => h hm⟩
  · rw [if_neg (fun h => hm ((padding_same m).1 h))]
    refine ⟨rfl, rfl, fun i => ?_, fun j => ?_, fun _ _ _ _ => rfl⟩
    · rw [← hu1 i]
      show i < Int.toNat _ ↔ _
      rw [Int.lt_toNat]
      exact ⟨fun h => ⟨h, fun e => absurd e hm⟩, fun h => h.1⟩
    · rw [← hu2 j]
      show j < Int.toNat _ ↔ _
      rw [Int.lt_toNat]
      exact ⟨fun h => ⟨h, fun e => absurd e hm⟩, fun h => h.1⟩

/-- C105: with stride 1 and padding "same" the output has as many rows and columns as the input, and with "full" it is larger than
the input by the size of the filter minus one. -/
theorem C105_sizes (m : Padding) (input filters r : Tensor4 S) (hk : 0 < filters.n0 ∧ 0 < filters.n1) (hf : input.n3 = filters.n2)
    (hv : m = .valid → filters.n0 ≤ input.n1 ∧ filters.n1 ≤ input.n2) (h : conv2d input filters (1, 1) m.name = .ok r) :
    (m = .same → r.n1 = input.n1 ∧ r.n2 = input.n2) ∧
    (m = .valid → r.n1 + filters.n0 = input.n1 + 1 ∧ r.n2 + filters.n1 = input.n2 + 1) ∧
    (m = .full → r.n1 + 1 = input.n1 + filters.n0 ∧ r.n2 + 1 = input.n2 + filters.n1) := by
  obtain ⟨r', hr, -, -, h1, h2, -⟩ := C105_conv2d m input filters (1, 1) ⟨Nat.one_pos, Nat.one_pos⟩ hk hf hv
  rw [h] at hr
  cases hr
  refine ⟨?_, ?_, ?_⟩
  · rintro rfl
    have e1 : ∀ i, i < r.n1 ↔ i * 1 < input.n1 := h1
    have e2 : ∀ i, i < r.n2 ↔ i * 1 < input.n2 := h2
    have a1 := e1 r.n1; have b1 := e1 input.n1; have a2 := e2 r.n2; have b2 := e2 input.n2
    omega
  · rintro rfl
    have e1 : ∀ i, i < r.n1 ↔ i * 1 + filters.n0 ≤ input.n1 := h1
    have e2 : ∀ i, i < r.n2 ↔ i * 1 + filters.n1 ≤ input.n2 := h2
    have a1 := e1 r.n1; have b1 := e1 (input.n1 - filters.n0); have a2 := e2 r.n2; have b2 := e2 (input.n2 - filters.n1)
    have c1 := e1 (input.n1 - filters.n0 + 1); have c2 := e2 (input.n2 - filters.n1 + 1)
    have := hv rfl
    omega
  · rintro rfl
    have e1 : ∀ i, i < r.n1 ↔ i * 1 < input.n1 + (filters.n0 - 1) := h1
    have e2 : ∀ i, i < r.n2 ↔ i * 1 < input.n2 + (filters.n1 - 1) := h2
    have a1 := e1 r.n1; have b1 := e1 (input.n1 + (filters.n0 - 1)); have a2 := e2 r.n2
    have b2 := e2 (input.n2 + (filters.n1 - 1))
    omega

/-- C105: an unknown padding raises a ValueError. -/
theorem C105_unknown (input filters : Tensor4 S) (strides : Nat × Nat) (padding : Str) (h : ∀ m : Padding, padding ≠ m.name) :
    conv2d input filters strides padding = .error .valueError := by
  unfold conv2d
  have h1 : padding ≠ "same".toList := h .same
  have h2 : padding ≠ "valid".toList := h .valid
  have h3 : padding ≠ "full".toList := h .full
  simp only [if_neg h1, if_neg h2, if_neg h3]

/-- C105: with padding "valid", a filter that is larger than the input gives nothing: the output is empty, or there is an error. -/
theorem C105_small (input filters r : Tensor4 S) (strides : Nat × Nat) (hs : 0 < strides.1 ∧ 0 < strides.2)
    (hk : 0 < filters.n0 ∧ 0 < filters.n1) (hn : input.n1 < filters.n0 ∨ input.n2 < filters.n1)
    (h : conv2d input filters strides Padding.valid.name = .ok r) : r.n1 = 0 ∨ r.n2 = 0 := by
  unfold conv2d at h
  simp only [padding_mode .valid] at h
  unfold nnetConv2d at h
  have hne : ¬ Padding.valid.name = "same".toList := by decide
  by_cases hf : input.shuffle0312.n1 ≠ filters.shuffle3201.n1
  · rw [if_pos hf] at h
    cases h
  · rw [if_neg hf] at h
    dsimp only at h
    by_cases hneg : Padding.valid.mode.outSize input.shuffle0312.n2 filters.shuffle3201.n2 strides.1 < 0 ∨
        Padding.valid.mode.outSize input.shuffle0312.n3 filters.shuffle3201.n3 strides.2 < 0
    · rw [if_pos hneg] at h
      cases h
    · rw [if_neg hneg] at h
      simp only [if_neg hne] at h
      have e := Except.ok.inj h
      subst e
      have u1 := used_iff .valid input.n1 filters.n0 strides.1 hs.1 hk.1 0
      have u2 := used_iff .valid input.n2 filters.n1 strides.2 hs.2 hk.2 0
      have v1 : Padding.valid.Used input.n1 filters.n0 strides.1 0 ↔ 0 * strides.1 + filters.n0 ≤ input.n1 := Iff.rfl
      have v2 : Padding.valid.Used input.n2 filters.n1 strides.2 0 ↔ 0 * strides.2 + filters.n1 ≤ input.n2 := Iff.rfl
      rw [v1] at u1
      rw [v2] at u2
      show (Padding.valid.mode.outSize input.n1 filters.n0 strides.1).toNat = 0 ∨
        (Padding.valid.mode.outSize input.n2 filters.n1 strides.2).toNat = 0
      rcases hn with hn | hn
      · refine .inl (Nat.eq_zero_of_not_pos fun hp => ?_)
        have := u1.1 ⟨by simpa using Int.lt_toNat.1 hp, fun e => nomatch e⟩
        omega
      · refine .inr (Nat.eq_zero_of_not_pos fun hp => ?_)
        have := u2.1 ⟨by simpa using Int.lt_toNat.1 hp, fun e => nomatch e⟩
        omega

/-- In a dimension of size one, a filter of size one is used in one place. -/
theorem used_one (m : Padding) (j : Nat) : m.Used 1 1 1 j ↔ j = 0 := by
  cases m
  · show j * 1 < 1 ↔ _; omega
  · show j * 1 + 1 ≤ 1 ↔ _; omega
  · show j * 1 < 1 + (1 - 1) ↔ _; omega

theorem convolved_one (m : Padding) (stride : Nat) (input filters : Tensor3 S) (sample i out : Nat) :
    convolved2 m (stride, 1) input.shuffle01x2 filters.shuffle0x12 sample i 0 out =
      convolved1 m stride input filters sample i out := by
  unfold convolved2 convolved1
  refine Finset.sum_congr rfl fun x _ => Finset.sum_congr rfl fun p _ => ?_
  show (∑ y ∈ Finset.range 1, ∑ q ∈ Finset.range 1, _) = _
  rw [Finset.sum_range_one, Finset.sum_range_one]
  have hu : m.Under 1 1 0 0 0 := by cases m <;> rfl
  by_cases h : m.Under filters.n0 stride i x p
  · rw [if_pos h]
    exact if_pos ⟨h, hu⟩
  · rw [if_neg h]
    exact if_neg fun h' => h h'.1

theorem flat_row (t : Tensor4 S) (h2 : t.n2 = 1) (a b c : Nat) (hb : b < t.n1) (hc : c < t.n3) :
    t.flat ((a * t.n1 + b) * t.n3 + c) = t.get a b 0 c := by
  unfold Tensor4.flat
  have hd : ((a * t.n1 + b) * t.n3 + c) / t.n3 = a * t.n1 + b := by
    rw [Nat.add_comm, Nat.add_mul_div_right _ _ (Nat.zero_lt_of_lt hc), Nat.div_eq_of_lt hc, Nat.zero_add]
  have hq : (a * t.n1 + b) / t.n1 = a := by
    rw [Nat.add_comm, Nat.add_mul_div_right _ _ (Nat.zero_lt_of_lt hb), Nat.div_eq_of_lt hb, Nat.zero_add]
  rw [h2, Nat.mul_one, Nat.one_mul, Nat.mul_comm t.n1 t.n3, ← Nat.div_div_eq_div_mul, hd, hq, Nat.mod_one]
  rw [Nat.add_comm (a * t.n1), Nat.add_mul_mod_self_right, Nat.mod_eq_of_lt hb]
  rw [Nat.add_comm _ c, Nat.add_mul_mod_self_right, Nat.mod_eq_of_lt hc]

/-- C105: the shape and the elements of the output of 1-dimensional convolution. -/
theorem C105_conv1d (m : Padding) (input filters : Tensor3 S) (stride : Nat) (hs : 0 < stride) (hk : 0 < filters.n0)
    (hf : input.n2 = filters.n1) (hv : m = .valid → filters.n0 ≤ input.n1) :
    ∃ r, conv1d input filters stride m.name = .ok r ∧ r.n0 = input.n0 ∧ r.n2 = filters.n2 ∧
      (∀ i, i < r.n1 ↔ m.Used input.n1 filters.n0 stride i) ∧
      ∀ sample i out, i < r.n1 → out < r.n2 → r.get sample i out = convolved1 m stride input filters sample i out := by
  obtain ⟨r, hr, h0, h3, h1, h2, hg⟩ := C105_conv2d m input.shuffle01x2 filters.shuffle0x12 (stride, 1) ⟨hs, Nat.one_pos⟩
    ⟨hk, Nat.one_pos⟩ hf fun e => ⟨hv e, le_refl _⟩
  have hone : r.n2 = 1 := by
    have h2' : ∀ j, j < r.n2 ↔ j = 0 := fun j => (h2 j).trans (used_one m j)
    have a := h2' 0; have b := h2' 1
    omega
  unfold conv1d
  rw [hr]
  unfold Tensor4.reshape3
  refine ⟨⟨r.n0, r.n1, r.n3, fun a b c => r.flat ((a * r.n1 + b) * r.n3 + c)⟩, ?_, h0, h3, h1, ?_⟩
  · exact if_pos (by rw [hone, Nat.mul_one])
  · intro sample i out hi ho
    show r.flat ((sample * r.n1 + i) * r.n3 + out) = _
    rw [flat_row r hone _ _ _ hi ho, hg, convolved_one]

/-! ## Convolution layers -/

/-- A sequence of feature vectors as a tensor with one sample. -/
def sequenceTensor (features : Nat) (xs : List (List S)) : Tensor3 S :=
  ⟨1, xs.length, features, fun _ i f => (xs.getD i []).getD f 0⟩

/-- A list of filters, each of which is a matrix of the filter size and the number of input features, as a tensor. -/
def filterTensor (size features : Nat) (filters : List (List (List S))) : Tensor3 S :=
  ⟨size, features, filters.length, fun p f o => ((filters.getD o []).getD p []).getD f 0⟩

theorem sum_zipWith_range {α β : Type} (g : α → β → S) (da : α) (db : β) : ∀ (xs : List α) (ys : List β) (n : Nat),
    xs.length = n → ys.length = n →
      (List.zipWith g xs ys).sum = ∑ i ∈ Finset.range n, g (xs.getD i da) (ys.getD i db)
  | [], [], n, hx, _ => by
    cases hx
    rfl
  | [], _ :: _, n, hx, hy => by
    rw [← hx] at hy
    cases hy
  | _ :: _, [], n, hx, hy => by
    rw [← hx] at hy
    cases hy
  | x :: xs, y :: ys, 0, hx, _ => by cases hx
  | x :: xs, y :: ys, n + 1, hx, hy => by
    rw [Finset.sum_range_succ', List.zipWith_cons_cons, List.sum_cons,
      sum_zipWith_range g da db xs ys n (Nat.succ.inj hx) (Nat.succ.inj hy), add_comm]
    rfl

/-- C105: a convolution layer gets the outputs of 1-dimensional convolution with padding "valid": they are the sums of the products
of the elements of the filter and the elements of as many successive feature vectors. -/
theorem C105_layer (size features : Nat) (xs : List (List S)) (filters : List (List (List S))) (hk : 0 < size)
    (hn : size ≤ xs.length) (hx : ∀ x ∈ xs, x.length = features)
    (hf : ∀ f ∈ filters, f.length = size ∧ ∀ row ∈ f, row.length = features) :
    ∃ r, conv1d (sequenceTensor features xs) (filterTensor size features filters) 1 "valid".toList = .ok r ∧
      r.n0 = 1 ∧ r.n1 = (windows size xs).length ∧ r.n2 = filters.length ∧
      ∀ t region o filter, (windows size xs)[t]? = some region → filters[o]? = some filter →
        r.get 0 t o = dot2 region filter := by
  obtain ⟨r, hr, h0, h2, h1, hg⟩ := C105_conv1d .valid (sequenceTensor features xs) (filterTensor size features filters) 1
    Nat.one_pos hk rfl fun _ => hn
  have hlen : r.n1 = (windows size xs).length := by
    have e1 : ∀ i, i < r.n1 ↔ i * 1 + size ≤ xs.length := h1
    unfold windows
    rw [List.length_map, List.length_range]
    have a := e1 r.n1; have b := e1 (xs.length - size); have c := e1 (xs.length + 1 - size)
    omega
  refine ⟨r, hr, h0, hlen, h2, ?_⟩
  intro t region o filter ht ho
  have htl : t < (windows size xs).length := (List.getElem?_eq_some_iff.1 ht).1
  have hol : o < filters.length := (List.getElem?_eq_some_iff.1 ho).1
  have htx : t + size ≤ xs.length := by
    unfold windows at htl
    rw [List.length_map, List.length_range] at htl
    omega
  have hreg : region = (xs.drop t).take size := by
    unfold windows at ht
    rw [List.getElem?_map, List.getElem?_range (by omega)] at ht
    exact (Option.some.inj ht).symm
  have hfm : filter ∈ filters := List.mem_of_getElem? ho
  rw [hg 0 t o (hlen ▸ htl) (h2 ▸ hol)]
  unfold convolved1
  rw [Finset.sum_comm]
  unfold dot2
  rw [sum_zipWith_range dot [] [] region filter size (by rw [hreg, List.length_take, List.length_drop]; omega) (hf _ hfm).1]
  refine Finset.sum_congr rfl fun p hp => ?_
  have hp' : p < size := Finset.mem_range.1 hp
  rw [Finset.sum_eq_single (t + p)]
  · rw [if_pos (by show t + p + 0 = t * 1 + p; omega)]
    have hrow : region.getD p [] = xs.getD (t + p) [] := by
      rw [hreg, List.getD_eq_getElem?_getD, List.getD_eq_getElem?_getD, List.getElem?_take, if_pos hp', List.getElem?_drop]
    have hxm : xs.getD (t + p) [] ∈ xs := by
      rw [List.getD_eq_getElem?_getD, List.getElem?_eq_getElem (by omega : t + p < xs.length)]
      exact List.getElem_mem _
    have hrm : filter.getD p [] ∈ filter := by
      rw [List.getD_eq_getElem?_getD, List.getElem?_eq_getElem (show p < filter.length by rw [(hf _ hfm).1]; exact hp')]
      exact List.getElem_mem _
    unfold dot
    rw [hrow, sum_zipWith_range (· * ·) 0 0 _ _ features (hx _ hxm) ((hf _ hfm).2 _ hrm)]
    refine Finset.sum_congr rfl fun f _ => ?_
    show _ * ((filters.getD o []).getD p []).getD f 0 = _
    rw [List.getD_eq_getElem?_getD (l := filters), ho]
    rfl
  · intro x _ hxne
    exact if_neg fun (e : x + 0 = t * 1 + p) => hxne (by omega)
  · intro hnm
    exact absurd (Finset.mem_range.2 (show t + p < xs.length by omega)) hnm

/-! ## The hypotheses are met -/

/-- A filter of size 2 × 2 with stride 2 on a matrix of size 3 × 5, in each mode. -/
example (m : Padding) : ∃ r, conv2d (⟨2, 3, 5, 1, fun _ i j _ => (i + 10 * j : ℚ)⟩) ⟨2, 2, 1, 1, fun p q _ _ => (p + q : ℚ)⟩ (2, 2)
    m.name = .ok r := by
  obtain ⟨r, h, -⟩ := C105_conv2d m (⟨2, 3, 5, 1, fun _ i j _ => (i + 10 * j : ℚ)⟩) ⟨2, 2, 1, 1, fun p q _ _ => (p + q : ℚ)⟩ (2, 2)
    (by decide) (by decide) rfl (fun _ => by decide)
  exact ⟨r, h⟩

/-- Two filters of size 2 on a sequence of three vectors. -/
example : ∃ r, conv1d (sequenceTensor 1 [[1], [10], [100]]) (filterTensor 2 1 [[[1], [2]], [[3], [4]]]) 1 "valid".toList =
    .ok r ∧ r.n1 = 2 ∧ r.get 0 0 0 = (21 : ℚ) ∧ r.get 0 1 0 = 210 ∧ r.get 0 1 1 = 430 := by
  obtain ⟨r, h, -, h1, -, hg⟩ := C105_layer 2 1 [[1], [10], [100]] [[[(1 : ℚ)], [2]], [[3], [4]]] (by decide) (by decide)
    (by decide) (by decide)
  refine ⟨r, h, h1, ?_, ?_, ?_⟩
  · exact (hg 0 _ 0 _ rfl rfl).trans (by decide +kernel)
  · exact (hg 1 _ 0 _ rfl rfl).trans (by decide +kernel)
  · exact (hg 1 _ 1 _ rfl rfl).trans (by decide +kernel)

/-- A middle element is in the middle: three elements and a filter of size 3 with padding "same". -/
example : convolved1 .same 1 (⟨1, 3, 1, fun _ i _ => (10 ^ i : ℚ)⟩ : Tensor3 ℚ) ⟨3, 1, 1, fun p _ _ => p + 1⟩ 0 0 0 = 32 := by
  decide +kernel

end

end TheanoLM
