import Verif.Model.Schedule
import Mathlib.Tactic.Linarith
import Mathlib.Tactic.Ring
/-!
# Properties C40 and C41: scheduling of periodic events
-/
namespace TheanoLM

/-! ## Specification -/

/-- The `k`:th event of `f` events per `n` updates happens at the first update at which at least the fraction `k / f` of `n`
updates has been done. -/
def EventAt (n f k u : Nat) : Prop := k * n ≤ u * f ∧ ∀ v, v < u → v * f < k * n

/-! ## Lemmas -/

theorem scheduled_step {n f : Nat} (hf : f ≤ n) (hn : 0 < n) (a : Nat) :
    ((a + f) % n < f ∧ (a + f) / n = a / n + 1) ∨ (f ≤ (a + f) % n ∧ (a + f) / n = a / n ∧ (a + f) % n = a % n + f) := by
  have h1 := Nat.div_add_mod a n
  have h2 := Nat.mod_lt a hn
  by_cases h : a % n + f < n
  · right
    have e : a + f = n * (a / n) + (a % n + f) := by omega
    have hm : (a + f) % n = a % n + f := by rw [e, Nat.mul_add_mod, Nat.mod_eq_of_lt h]
    have hd : (a + f) / n = a / n := by rw [e, Nat.mul_add_div hn, Nat.div_eq_of_lt h]; rfl
    exact ⟨by omega, hd, hm⟩
  · left
    have e : a + f = n * (a / n + 1) + (a % n + f - n) := by rw [Nat.mul_add]; omega
    by_cases hl : a % n + f - n < n
    · have hm : (a + f) % n = a % n + f - n := by rw [e, Nat.mul_add_mod, Nat.mod_eq_of_lt hl]
      have hd : (a + f) / n = a / n + 1 := by rw [e, Nat.mul_add_div hn, Nat.div_eq_of_lt hl, Nat.add_zero]
      exact ⟨by omega, hd⟩
    · omega

theorem isScheduled_now (u n f : Nat) (hn : 0 < n) : isScheduled u n f 0 = true ↔ u * f % n < f := by
  have := Nat.mod_lt (u * f) hn
  simp [isScheduled]
  omega

theorem scheduled_iff_div {n f : Nat} (hf : f ≤ n) (hn : 0 < n) (u : Nat) :
    isScheduled (u + 1) n f 0 = true ↔ (u + 1) * f / n = u * f / n + 1 := by
  rw [isScheduled_now _ _ _ hn, Nat.add_mul, Nat.one_mul]
  rcases scheduled_step hf hn (u * f) with ⟨h1, h2⟩ | ⟨h1, h2, -⟩
  · exact ⟨fun _ => h2, fun _ => h1⟩
  · exact ⟨fun h => by omega, fun h => by omega⟩

theorem wcIsScheduled_eq (u n f : Nat) (hn : 0 < n) : wcIsScheduled u f n = isScheduled u n f 0 := by
  rw [Bool.eq_iff_iff, isScheduled_now _ _ _ hn]
  simp [wcIsScheduled]

theorem eventAt_iff_div {n f : Nat} (hf : f ≤ n) (hn : 0 < n) (u k : Nat) :
    EventAt n f k (u + 1) ↔ (u + 1) * f / n = u * f / n + 1 ∧ k = u * f / n + 1 := by
  have hle : (u + 1) * f / n ≤ u * f / n + 1 := by
    rw [Nat.add_mul, Nat.one_mul]
    rcases scheduled_step hf hn (u * f) with ⟨-, h2⟩ | ⟨-, h2, -⟩ <;> omega
  constructor
  · rintro ⟨h1, h2⟩
    have h3 := h2 u (by omega)
    have h4 : k ≤ (u + 1) * f / n := (Nat.le_div_iff_mul_le hn).mpr h1
    have h5 : u * f / n < k := (Nat.div_lt_iff_lt_mul hn).mpr h3
    omega
  · rintro ⟨h1, h2⟩
    refine ⟨(Nat.le_div_iff_mul_le hn).mp (by omega), ?_⟩
    intro v hv
    have h5 : u * f < k * n := (Nat.div_lt_iff_lt_mul hn).mp (by omega)
    exact lt_of_le_of_lt (Nat.mul_le_mul_right f (by omega)) h5

/-! ## C40 -/

/-- C40: The update is scheduled exactly when it is the time of one of the events. -/
theorem C40_times (n f : Nat) (hf : f ≤ n) (hn : 0 < n) (u : Nat) (hu : 1 ≤ u) :
    isScheduled u n f 0 = true ↔ ∃ k, 1 ≤ k ∧ EventAt n f k u := by
  obtain ⟨v, rfl⟩ : ∃ v, u = v + 1 := ⟨u - 1, by omega⟩
  rw [scheduled_iff_div hf hn]
  constructor
  · intro h; exact ⟨v * f / n + 1, Nat.le_add_left _ _, (eventAt_iff_div hf hn v _).mpr ⟨h, rfl⟩⟩
  · rintro ⟨k, -, hk⟩; exact ((eventAt_iff_div hf hn v k).mp hk).1

/-- C40: Among the first `u` updates `⌊u f / n⌋` are scheduled. -/
theorem C40_count_prefix (n f : Nat) (hf : f ≤ n) (hn : 0 < n) (u : Nat) :
    ((List.range u).filter (fun i => isScheduled (i + 1) n f 0)).length = u * f / n := by
  induction u with
  | zero => simp
  | succ u ih =>
    rw [List.range_succ, List.filter_append, List.length_append, ih]
    by_cases h : isScheduled (u + 1) n f 0 = true
    · have := (scheduled_iff_div hf hn u).mp h
      simp [h]; omega
    · have hn' := (not_congr (scheduled_iff_div hf hn u)).mp h
      rw [Nat.add_mul, Nat.one_mul] at hn' ⊢
      rcases scheduled_step hf hn (u * f) with ⟨-, h2⟩ | ⟨-, h2, -⟩
      · exact absurd h2 hn'
      · simp [h, h2]

/-- C40: In an epoch of `n` updates exactly `f` updates are scheduled. -/
theorem C40_count (n f : Nat) (hf : f ≤ n) (hn : 0 < n) :
    ((List.range n).filter (fun i => isScheduled (i + 1) n f 0)).length = f := by
  rw [C40_count_prefix n f hf hn, Nat.mul_div_cancel_left f hn]

/-- C40: The last update of an epoch is scheduled. -/
theorem C40_last (n f : Nat) (hn : 0 < n) (hf : 0 < f) : isScheduled n n f 0 = true := by
  rw [isScheduled_now _ _ _ hn, Nat.mul_mod_right]
  exact hf

/-- C40: The distance between consecutive events is the number of updates per event, rounded down or up. -/
theorem C40_gap (n f : Nat) (hf : f ≤ n) (hf0 : 0 < f) (k u v : Nat) (hu : EventAt n f k u) (hv : EventAt n f (k + 1) v) :
    v = u + n / f ∨ v = u + (n + f - 1) / f := by
  obtain ⟨hu1, hu2⟩ := hu
  obtain ⟨hv1, hv2⟩ := hv
  have hd := Nat.div_add_mod n f
  have hm := Nat.mod_lt n hf0
  have huv : u < v := by
    by_contra hle
    rcases Nat.eq_or_lt_of_le (not_lt.mp hle) with rfl | hlt
    · match v, hu2 with
      | 0, _ =>
        rw [Nat.zero_mul, Nat.add_mul] at hv1; omega
      | v + 1, hu2 =>
        have := hu2 v (by omega)
        rw [Nat.add_mul] at hv1; rw [Nat.add_mul] at hv1; omega
    · have := hu2 v hlt
      rw [Nat.add_mul] at hv1; omega
  have h1 : (v - 1) * f < (k + 1) * n := hv2 _ (by omega)
  have h2 : ∀ w, w < u → w * f < k * n := hu2
  -- v f ≥ (k+1) n, (v-1) f < (k+1) n, u f ≥ k n, (u-1) f < k n (if u > 0; otherwise k n = 0)
  obtain ⟨d, rfl⟩ : ∃ d, v = u + d := ⟨v - u, by omega⟩
  have hdpos : 0 < d := by omega
  obtain ⟨e, rfl⟩ : ∃ e, d = e + 1 := ⟨d - 1, by omega⟩
  have h1' : (u + e) * f < (k + 1) * n := by simpa using h1
  have hlow : e * f < n := by
    have : u * f + e * f < k * n + n := by rw [← Nat.add_mul]; linarith [Nat.add_mul k 1 n]
    omega
  have hup : n < (e + 2) * f := by
    match u, h2, hu1 with
    | 0, _, hu1 =>
      have hk : k * n = 0 := by omega
      have : k * n + n ≤ e * f + f := by
        have h := hv1
        rw [Nat.add_mul] at h
        have e' : (0 + (e + 1)) * f = e * f + f := by ring
        omega
      have e' : (e + 2) * f = e * f + 2 * f := by ring
      omega
    | u + 1, h2, _ =>
      have := h2 u (by omega)
      have h := hv1
      have e1 : (u + 1 + (e + 1)) * f = u * f + (e + 2) * f := by ring
      rw [Nat.add_mul] at h
      omega
  have q1 : e ≤ n / f := (Nat.le_div_iff_mul_le hf0).mpr (by omega)
  have q2 : n / f < e + 2 := (Nat.div_lt_iff_lt_mul hf0).mpr hup
  by_cases hz : n % f = 0
  · left
    have : n / f ≠ e := by
      intro h
      rw [h, hz, Nat.mul_comm] at hd; omega
    omega
  · have hc : (n + f - 1) / f = n / f + 1 := by
      have : n + f - 1 = f * (n / f + 1) + (n % f - 1) := by rw [Nat.mul_add]; omega
      have hlt : n % f - 1 < f := by omega
      rw [this, Nat.mul_add_div hf0, Nat.div_eq_of_lt hlt, Nat.add_zero]
    rw [hc]
    omega

/-- C40: If at least as many events as there are updates are requested, every update is scheduled. -/
theorem C40_every (n f : Nat) (hn : 0 < n) (hf : n ≤ f) (u : Nat) : isScheduled u n f 0 = true := by
  rw [isScheduled_now _ _ _ hn]
  exact lt_of_lt_of_le (Nat.mod_lt _ hn) hf

/-- C40 for the saving of word classes: the same updates are scheduled, so the above theorems hold for it too. -/
theorem C40_word_classes (n f u : Nat) (hn : 0 < n) : wcIsScheduled u f n = isScheduled u n f 0 := wcIsScheduled_eq u n f hn

/-! ## C41 -/

/-- C41: An event is announced exactly when one of the current and the following `w` updates is scheduled. -/
theorem C41_lookahead (n f : Nat) (hn : 0 < n) (u w : Nat) :
    isScheduled u n f w = true ↔ ∃ j, j ≤ w ∧ isScheduled (u + j) n f 0 = true := by
  rcases Nat.lt_or_ge n f with hlt | hf
  · have hall : ∀ u w, isScheduled u n f w = true := by
      intro u w
      have := Nat.mod_lt (u * f) hn
      simp only [isScheduled, Bool.or_eq_true, decide_eq_true_eq]
      omega
    exact ⟨fun _ => ⟨0, Nat.zero_le _, hall _ _⟩, fun _ => hall _ _⟩
  induction w generalizing u with
  | zero =>
    constructor
    · intro h; exact ⟨0, le_refl 0, h⟩
    · rintro ⟨j, hj, h⟩
      obtain rfl : j = 0 := by omega
      exact h
  | succ w ih =>
    have key : isScheduled u n f (w + 1) = true ↔ isScheduled u n f 0 = true ∨ isScheduled (u + 1) n f w = true := by
      rw [isScheduled_now _ _ _ hn]
      have hm := Nat.mod_lt (u * f) hn
      simp only [isScheduled, Bool.or_eq_true, decide_eq_true_eq, Nat.add_mul, Nat.one_mul]
      rcases scheduled_step hf hn (u * f) with ⟨h1, h2⟩ | ⟨h1, h2, h3⟩
      · have h4 : n ≤ u * f % n + f := by
          by_contra hc
          have e : u * f + f = n * (u * f / n) + (u * f % n + f) := by have := Nat.div_add_mod (u * f) n; omega
          have hlt : u * f % n + f < n := by omega
          have : (u * f + f) / n = u * f / n := by rw [e, Nat.mul_add_div hn, Nat.div_eq_of_lt hlt, Nat.add_zero]
          omega
        constructor
        · intro _; exact Or.inr (Or.inl h1)
        · intro _; right; omega
      · rw [h3]
        have h5 : u * f % n + f < n := by rw [← h3]; exact Nat.mod_lt _ hn
        constructor
        · rintro (h | h)
          · exact Or.inl h
          · right; right; omega
        · rintro (h | h | h)
          · exact Or.inl h
          · omega
          · right; omega
    refine key.trans ((or_congr Iff.rfl (ih (u + 1))).trans ?_)
    constructor
    · rintro (h | ⟨j, hj, h⟩)
      · exact ⟨0, by omega, h⟩
      · exact ⟨j + 1, by omega, by rwa [← Nat.add_assoc, Nat.add_right_comm]⟩
    · rintro ⟨j, hj, h⟩
      match j, hj, h with
      | 0, _, h => exact Or.inl h
      | j + 1, hj, h => exact Or.inr ⟨j, by omega, by rwa [Nat.add_assoc, Nat.add_comm 1 j]⟩

/-! ## Examples -/

/-- The example in the documentation of the function. -/
example : (List.range 9).filter (fun i => isScheduled (i + 1) 9 2 0) = [4, 8] := by decide

example : EventAt 9 2 1 5 ∧ EventAt 9 2 2 9 := by
  constructor <;> refine ⟨by decide, fun v hv => by omega⟩

example : (List.range 9).filter (fun i => isScheduled (i + 1) 9 2 2) = [2, 3, 4, 6, 7, 8] := by decide

end TheanoLM
