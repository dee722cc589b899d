import Verif.Props.ClassModelSpec
import Verif.Props.WordClasses
/-!
# Lemmas for C108
-/
namespace TheanoLM

/-- Gibbs' inequality. -/
theorem gibbs {ι : Type} (A : Finset ι) (x : ι → ℤ) (p : ι → ℝ) (hx : ∀ i ∈ A, 0 ≤ x i)
    (hp : ∑ i ∈ A, p i = 1) (hp0 : ∀ i ∈ A, 0 ≤ p i) (hpos : ∀ i ∈ A, 0 < x i → 0 < p i) :
    ∑ i ∈ A, (x i : ℝ) * Real.log (p i) ≤ ∑ i ∈ A, xlogx (x i) - xlogx (∑ i ∈ A, x i) := by
  set T := ∑ i ∈ A, x i with hT
  have hT0 : 0 ≤ T := Finset.sum_nonneg hx
  rcases hT0.eq_or_lt with h0 | hTpos
  · have hz : ∀ i ∈ A, x i = 0 := (Finset.sum_eq_zero_iff_of_nonneg hx).mp (by rw [← hT, ← h0])
    rw [← h0, Finset.sum_eq_zero (fun i hi => by rw [hz i hi]; simp),
      Finset.sum_eq_zero (f := fun i => xlogx (x i)) (fun i hi => by rw [hz i hi]; simp [xlogx])]
    simp [xlogx]
  · have hTr : (0 : ℝ) < T := by exact_mod_cast hTpos
    have key : ∀ i ∈ A, (x i : ℝ) * Real.log (p i) - xlogx (x i) + (x i : ℝ) * Real.log T ≤ p i * T - x i := by
      intro i hi
      rcases (hx i hi).eq_or_lt with h | h
      · rw [← h]
        simp only [xlogx, Int.cast_zero, zero_mul, sub_zero, add_zero]
        exact mul_nonneg (hp0 i hi) hTr.le
      · have hxr : (0 : ℝ) < x i := by exact_mod_cast h
        have hq := hpos i hi h
        have hl := Real.log_le_sub_one_of_pos (x := p i * T / x i) (by positivity)
        rw [Real.log_div (by positivity) hxr.ne', Real.log_mul hq.ne' hTr.ne'] at hl
        have := mul_le_mul_of_nonneg_left hl hxr.le
        unfold xlogx
        have e : (x i : ℝ) * (p i * T / x i - 1) = p i * T - x i := by field_simp
        rw [e] at this
        linarith [this, mul_add (x i : ℝ) (Real.log (p i)) (Real.log T),
          mul_sub (x i : ℝ) (Real.log (p i) + Real.log T) (Real.log (x i))]
    have hs := Finset.sum_le_sum key
    rw [Finset.sum_add_distrib, Finset.sum_sub_distrib, Finset.sum_sub_distrib, ← Finset.sum_mul, ← Finset.sum_mul, hp] at hs
    have hc : ∑ i ∈ A, (x i : ℝ) = (T : ℝ) := by rw [hT]; push_cast; rfl
    rw [hc] at hs
    have : xlogx T = (T : ℝ) * Real.log T := rfl
    linarith

/-- The relative frequencies attain the bound. -/
theorem gibbs_eq {ι : Type} (A : Finset ι) (x : ι → ℤ) (hx : ∀ i ∈ A, 0 ≤ x i) :
    ∑ i ∈ A, (x i : ℝ) * Real.log ((x i : ℝ) / ((∑ j ∈ A, x j : ℤ) : ℝ)) =
      ∑ i ∈ A, xlogx (x i) - xlogx (∑ i ∈ A, x i) := by
  set T := ∑ i ∈ A, x i with hT
  have key : ∀ i ∈ A, (x i : ℝ) * Real.log ((x i : ℝ) / (T : ℝ)) = xlogx (x i) - x i * Real.log T := by
    intro i hi
    rcases (hx i hi).eq_or_lt with h | h
    · rw [← h]; simp [xlogx]
    · have hTpos : 0 < T := lt_of_lt_of_le h (Finset.single_le_sum hx hi)
      have hxr : (x i : ℝ) ≠ 0 := by exact_mod_cast h.ne'
      have hTr : (T : ℝ) ≠ 0 := by exact_mod_cast hTpos.ne'
      rw [Real.log_div hxr hTr, mul_sub]; rfl
  rw [Finset.sum_congr rfl key, Finset.sum_sub_distrib, ← Finset.sum_mul]
  have hc : ∑ i ∈ A, (x i : ℝ) = (T : ℝ) := by rw [hT]; push_cast; rfl
  rw [hc]; rfl

/-! ## Sums over the adjacent words of a text -/

/-- All pairs of adjacent words. -/
def textPairs (text : List (List Nat)) : List (Nat × Nat) := text.flatMap (fun s => s.zip s.tail)

theorem utteranceProb_eq {n : Nat} {cl : Nat → Nat} (m : ClassBigram n cl) (s : List Nat) :
    m.utteranceProb s = ((s.zip s.tail).map (fun p => m.next (cl p.1) (cl p.2) * m.member p.2)).prod := by
  induction s with
  | nil => rfl
  | cons v s ih =>
    cases s with
    | nil => rfl
    | cons w s =>
      rw [ClassBigram.utteranceProb, ih]
      simp

theorem textProb_eq {n : Nat} {cl : Nat → Nat} (m : ClassBigram n cl) (text : List (List Nat)) :
    m.textProb text = ((textPairs text).map (fun p => m.next (cl p.1) (cl p.2) * m.member p.2)).prod := by
  unfold ClassBigram.textProb textPairs
  induction text with
  | nil => rfl
  | cons s text ih => rw [List.map_cons, List.prod_cons, ih, List.flatMap_cons, List.map_append, List.prod_append, utteranceProb_eq]

theorem pairCount_count (a b : Nat) (s : List Nat) : pairCount a b s = (s.zip s.tail).count (a, b) := by
  induction s with
  | nil => rfl
  | cons x s ih =>
    cases s with
    | nil => rfl
    | cons y s =>
      rw [pairCount, ih]
      simp only [List.tail_cons, List.zip_cons_cons, List.count_cons]
      by_cases h : x = a ∧ y = b
      · obtain ⟨rfl, rfl⟩ := h
        simp; omega
      · have : ¬ (x, y) = (a, b) := by simpa using h
        simp [h]

theorem sum_adjacent (a b : Nat) (text : List (List Nat)) :
    (text.map (adjacent a b)).sum = (textPairs text).count (a, b) := by
  unfold textPairs
  induction text with
  | nil => rfl
  | cons s text ih =>
    rw [List.map_cons, List.sum_cons, ih, List.flatMap_cons, List.count_append, adjacent_eq, pairCount_count]

theorem textPairs_lt {n : Nat} {text : List (List Nat)} (h : ∀ s ∈ text, ∀ x ∈ s, x < n) :
    ∀ p ∈ textPairs text, p.1 < n ∧ p.2 < n := by
  intro p hp
  obtain ⟨s, hs, hp⟩ := List.mem_flatMap.mp hp
  obtain ⟨h1, h2⟩ := List.of_mem_zip (a := p.1) (b := p.2) hp
  exact ⟨h s hs _ h1, h s hs _ (List.mem_of_mem_tail h2)⟩

theorem sum_pairs {n : Nat} (L : List (Nat × Nat)) (h : ∀ p ∈ L, p.1 < n ∧ p.2 < n) (F : Nat → Nat → ℝ) :
    (L.map (fun p => F p.1 p.2)).sum =
      ∑ x ∈ Finset.range n, ∑ y ∈ Finset.range n, (L.count (x, y) : ℝ) * F x y := by
  induction L with
  | nil => simp
  | cons p L ih =>
    obtain ⟨a, b⟩ := p
    rw [List.map_cons, List.sum_cons, ih (fun p hp => h p (List.mem_cons_of_mem _ hp))]
    obtain ⟨ha, hb⟩ := h (a, b) (List.mem_cons_self ..)
    have e : ∀ x y, (((a, b) :: L).count (x, y) : ℝ) * F x y =
        (L.count (x, y) : ℝ) * F x y + if x = a then (if y = b then F a b else 0) else 0 := by
      intro x y
      rw [List.count_cons]
      by_cases hx : x = a
      · by_cases hy : y = b
        · subst hx hy; simp; ring
        · have : ¬ b = y := fun h => hy h.symm
          simp [hy, this]
      · have : ¬ a = x := fun h => hx h.symm
        simp [hx, this]
    simp only [e, Finset.sum_add_distrib]
    have e2 : ∑ x ∈ Finset.range n, ∑ y ∈ Finset.range n, (if x = a then (if y = b then F a b else 0) else 0) = F a b := by
      rw [Finset.sum_eq_single a]
      · simp [hb]
      · intro x _ hx; simp [hx]
      · intro hn; exact absurd (Finset.mem_range.mpr ha) hn
    rw [e2]; ring

/-! ## Grouping words to classes -/

section
variable {n : Nat} (cl : Nat → Nat) (ww : Nat → Nat → ℤ)

theorem sum_classes {β : Type} [AddCommMonoid β] (f : Nat → β) :
    ∑ c ∈ usedClasses n cl, ∑ w ∈ Finset.range n with cl w = c, f w = ∑ w ∈ Finset.range n, f w :=
  Finset.sum_fiberwise_of_maps_to (fun _ h => Finset.mem_image_of_mem _ h) f

theorem sum_class_pairs (G : Nat → Nat → ℝ) :
    ∑ x ∈ Finset.range n, ∑ y ∈ Finset.range n, (ww x y : ℝ) * G (cl x) (cl y) =
      ∑ a ∈ usedClasses n cl, ∑ b ∈ usedClasses n cl, (classPairCount n ww cl a b : ℝ) * G a b := by
  rw [← sum_classes cl (fun x => ∑ y ∈ Finset.range n, (ww x y : ℝ) * G (cl x) (cl y))]
  refine Finset.sum_congr rfl (fun a _ => ?_)
  simp only [classPairCount, Int.cast_sum, Finset.sum_mul]
  conv_rhs => rw [Finset.sum_comm]
  refine Finset.sum_congr rfl (fun x hx => ?_)
  rw [← sum_classes cl (fun y => (ww x y : ℝ) * G (cl x) (cl y))]
  refine Finset.sum_congr rfl (fun b _ => Finset.sum_congr rfl (fun y hy => ?_))
  rw [(Finset.mem_filter.mp hx).2, (Finset.mem_filter.mp hy).2]

theorem sum_classPairCount (a : Nat) :
    ∑ b ∈ usedClasses n cl, classPairCount n ww cl a b =
      ∑ x ∈ Finset.range n with cl x = a, ∑ y ∈ Finset.range n, ww x y := by
  unfold classPairCount
  rw [Finset.sum_comm]
  exact Finset.sum_congr rfl (fun x _ => sum_classes cl _)

end

end TheanoLM
