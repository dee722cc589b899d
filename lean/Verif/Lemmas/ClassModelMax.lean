import Verif.Lemmas.ClassModel
import Mathlib.Algebra.BigOperators.Field
/-!
# Lemmas for C108: the class bigram model that gives the text the greatest probability
-/
namespace TheanoLM

theorem log_prod_map {α : Type} (L : List α) (F : α → ℝ) (h : ∀ p ∈ L, 0 < F p) :
    0 < (L.map F).prod ∧ Real.log (L.map F).prod = (L.map (fun p => Real.log (F p))).sum := by
  induction L with
  | nil => simp
  | cons p L ih =>
    obtain ⟨h1, h2⟩ := ih (fun q hq => h q (List.mem_cons_of_mem _ hq))
    have hp := h p (List.mem_cons_self ..)
    rw [List.map_cons, List.prod_cons, List.map_cons, List.sum_cons, Real.log_mul hp.ne' h1.ne', h2]
    exact ⟨mul_pos hp h1, rfl⟩

theorem prod_map_nonneg {α : Type} (L : List α) (F : α → ℝ) (h : ∀ p ∈ L, 0 ≤ F p) : 0 ≤ (L.map F).prod :=
  List.prod_nonneg (by simpa using h)

/-- Number of times that the word `w` follows some word. -/
def followCount (n : Nat) (ww : Nat → Nat → ℤ) (w : Nat) : ℤ := ∑ x ∈ Finset.range n, ww x w

/-- The logarithm of the greatest probability of a text whose adjacent words have the counts `ww`. -/
noncomputable def modelBound (n : Nat) (cl : Nat → Nat) (ww : Nat → Nat → ℤ) : ℝ :=
  ∑ a ∈ usedClasses n cl, (∑ b ∈ usedClasses n cl, xlogx (classPairCount n ww cl a b) -
    xlogx (∑ b ∈ usedClasses n cl, classPairCount n ww cl a b)) +
  ∑ c ∈ usedClasses n cl, (∑ w ∈ Finset.range n with cl w = c, xlogx (followCount n ww w) -
    xlogx (∑ w ∈ Finset.range n with cl w = c, followCount n ww w))

section
variable {n : Nat} {cl : Nat → Nat} {ww : Nat → Nat → ℤ} {L : List (Nat × Nat)}

theorem log_model (hL : ∀ p ∈ L, p.1 < n ∧ p.2 < n) (hww : ∀ x y, ww x y = L.count (x, y)) (m : ClassBigram n cl)
    (hpos : ∀ p ∈ L, 0 < m.next (cl p.1) (cl p.2) * m.member p.2) :
    Real.log (L.map (fun p => m.next (cl p.1) (cl p.2) * m.member p.2)).prod =
      ∑ a ∈ usedClasses n cl, ∑ b ∈ usedClasses n cl, (classPairCount n ww cl a b : ℝ) * Real.log (m.next a b) +
      ∑ c ∈ usedClasses n cl, ∑ w ∈ Finset.range n with cl w = c, (followCount n ww w : ℝ) * Real.log (m.member w) := by
  rw [(log_prod_map L _ hpos).2]
  have e : L.map (fun p => Real.log (m.next (cl p.1) (cl p.2) * m.member p.2)) =
      L.map (fun p => (fun x y => Real.log (m.next (cl x) (cl y)) + Real.log (m.member y)) p.1 p.2) := by
    apply List.map_congr_left
    intro p hp
    have h := hpos p hp
    have h1 : m.next (cl p.1) (cl p.2) ≠ 0 := fun h0 => by rw [h0, zero_mul] at h; exact lt_irrefl _ h
    have h2 : m.member p.2 ≠ 0 := fun h0 => by rw [h0, mul_zero] at h; exact lt_irrefl _ h
    exact Real.log_mul h1 h2
  rw [e, sum_pairs L hL (fun x y => Real.log (m.next (cl x) (cl y)) + Real.log (m.member y))]
  have e2 : ∀ x y, (L.count (x, y) : ℝ) * (Real.log (m.next (cl x) (cl y)) + Real.log (m.member y)) =
      (ww x y : ℝ) * (fun a b => Real.log (m.next a b)) (cl x) (cl y) + (ww x y : ℝ) * Real.log (m.member y) := by
    intro x y
    rw [hww]; push_cast; ring
  simp only [e2, Finset.sum_add_distrib]
  rw [sum_class_pairs cl ww (fun a b => Real.log (m.next a b))]
  congr 1
  rw [sum_classes cl (fun w => (followCount n ww w : ℝ) * Real.log (m.member w)), Finset.sum_comm]
  refine Finset.sum_congr rfl (fun y _ => ?_)
  simp only [followCount, Int.cast_sum, Finset.sum_mul]

theorem classPairCount_pos (hww : ∀ x y, ww x y = L.count (x, y)) {a b : Nat} (h : 0 < classPairCount n ww cl a b) :
    ∃ p ∈ L, cl p.1 = a ∧ cl p.2 = b := by
  unfold classPairCount at h
  obtain ⟨x, hx, h⟩ := Finset.exists_lt_of_sum_lt (s := (Finset.range n).filter (fun v => cl v = a)) (f := fun _ => (0 : ℤ)) (by simpa using h)
  obtain ⟨y, hy, h⟩ := Finset.exists_lt_of_sum_lt (s := (Finset.range n).filter (fun v => cl v = b)) (f := fun _ => (0 : ℤ)) (by simpa using h)
  rw [hww] at h
  refine ⟨(x, y), List.count_pos_iff.mp (by exact_mod_cast h), (Finset.mem_filter.mp hx).2, (Finset.mem_filter.mp hy).2⟩

theorem followCount_pos (hww : ∀ x y, ww x y = L.count (x, y)) {w : Nat} (h : 0 < followCount n ww w) :
    ∃ p ∈ L, p.2 = w := by
  unfold followCount at h
  obtain ⟨x, hx, h⟩ := Finset.exists_lt_of_sum_lt (s := Finset.range n) (f := fun _ => (0 : ℤ)) (by simpa using h)
  rw [hww] at h
  exact ⟨(x, w), List.count_pos_iff.mp (by exact_mod_cast h), rfl⟩

theorem ww_nonneg (hww : ∀ x y, ww x y = L.count (x, y)) (x y : Nat) : 0 ≤ ww x y := by rw [hww]; positivity

theorem followCount_nonneg (hww : ∀ x y, ww x y = L.count (x, y)) (w : Nat) : 0 ≤ followCount n ww w :=
  Finset.sum_nonneg (fun _ _ => ww_nonneg hww _ _)

theorem classPairCount_nonneg' (hww : ∀ x y, ww x y = L.count (x, y)) (a b : Nat) : 0 ≤ classPairCount n ww cl a b :=
  Finset.sum_nonneg (fun _ _ => Finset.sum_nonneg (fun _ _ => ww_nonneg hww _ _))

theorem model_le (hL : ∀ p ∈ L, p.1 < n ∧ p.2 < n) (hww : ∀ x y, ww x y = L.count (x, y)) (m : ClassBigram n cl) :
    (L.map (fun p => m.next (cl p.1) (cl p.2) * m.member p.2)).prod ≤ Real.exp (modelBound n cl ww) := by
  have hnn : ∀ p ∈ L, 0 ≤ m.next (cl p.1) (cl p.2) * m.member p.2 :=
    fun p _ => mul_nonneg (m.next_nonneg _ _) (m.member_nonneg _)
  by_cases hpos : ∀ p ∈ L, 0 < m.next (cl p.1) (cl p.2) * m.member p.2
  · rw [← Real.log_le_iff_le_exp (log_prod_map L _ hpos).1, log_model hL hww m hpos]
    have hf : ∀ p ∈ L, 0 < m.next (cl p.1) (cl p.2) ∧ 0 < m.member p.2 := by
      intro p hp
      have h := hpos p hp
      constructor
      · exact lt_of_le_of_ne (m.next_nonneg _ _) (fun h0 => by rw [← h0, zero_mul] at h; exact lt_irrefl _ h)
      · exact lt_of_le_of_ne (m.member_nonneg _) (fun h0 => by rw [← h0, mul_zero] at h; exact lt_irrefl _ h)
    refine add_le_add (Finset.sum_le_sum (fun a ha => ?_)) (Finset.sum_le_sum (fun c hc => ?_))
    · refine gibbs _ _ _ (fun b _ => classPairCount_nonneg' hww a b) (m.next_sum a ha) (fun b _ => m.next_nonneg a b) ?_
      intro b _ h
      obtain ⟨p, hp, rfl, rfl⟩ := classPairCount_pos hww h
      exact (hf p hp).1
    · refine gibbs _ _ _ (fun w _ => followCount_nonneg hww w) (m.member_sum c hc) (fun w _ => m.member_nonneg w) ?_
      intro w _ h
      obtain ⟨p, hp, rfl⟩ := followCount_pos hww h
      exact (hf p hp).2
  · push Not at hpos
    obtain ⟨p, hp, h⟩ := hpos
    have h0 : (L.map (fun p => m.next (cl p.1) (cl p.2) * m.member p.2)).prod = 0 :=
      List.prod_eq_zero (List.mem_map.mpr ⟨p, hp, le_antisymm h (hnn p hp)⟩)
    rw [h0]
    exact (Real.exp_pos _).le

/-- The model with the relative frequencies. -/
noncomputable def frequencyModel (n : Nat) (cl : Nat → Nat) (ww : Nat → Nat → ℤ) (hn : ∀ x y, 0 ≤ ww x y) : ClassBigram n cl where
  next a b :=
    let T := ∑ b ∈ usedClasses n cl, classPairCount n ww cl a b
    if T = 0 then (if b = a then 1 else 0) else (classPairCount n ww cl a b : ℝ) / (T : ℝ)
  member w :=
    let T := ∑ x ∈ Finset.range n with cl x = cl w, followCount n ww x
    if T = 0 then 1 / (((Finset.range n).filter (fun x => cl x = cl w)).card : ℝ) else (followCount n ww w : ℝ) / (T : ℝ)
  next_nonneg a b := by
    have h1 : ∀ b, 0 ≤ classPairCount n ww cl a b :=
      fun b => Finset.sum_nonneg (fun _ _ => Finset.sum_nonneg (fun _ _ => hn _ _))
    dsimp only
    split
    · split <;> simp
    · exact div_nonneg (by exact_mod_cast h1 b) (by exact_mod_cast Finset.sum_nonneg (fun b _ => h1 b))
  member_nonneg w := by
    have h1 : ∀ w, 0 ≤ followCount n ww w := fun w => Finset.sum_nonneg (fun _ _ => hn _ _)
    dsimp only
    split
    · positivity
    · exact div_nonneg (by exact_mod_cast h1 w) (by exact_mod_cast Finset.sum_nonneg (fun b _ => h1 b))
  next_sum a ha := by
    dsimp only
    split
    · rw [Finset.sum_ite_eq' (usedClasses n cl) a (fun _ => (1 : ℝ)), if_pos ha]
    · rename_i h
      rw [← Finset.sum_div, ← Int.cast_sum]
      exact div_self (by exact_mod_cast h)
  member_sum c hc := by
    have e : ∀ w ∈ (Finset.range n).filter (fun x => cl x = c), cl w = c := fun w hw => (Finset.mem_filter.mp hw).2
    dsimp only
    by_cases h : ∑ x ∈ Finset.range n with cl x = c, followCount n ww x = 0
    · rw [Finset.sum_congr rfl (g := fun _ => 1 / (((Finset.range n).filter (fun x => cl x = c)).card : ℝ))
        (fun w hw => by rw [e w hw, if_pos h]), Finset.sum_const, nsmul_eq_mul]
      have : ((Finset.range n).filter (fun x => cl x = c)).card ≠ 0 := by
        obtain ⟨w, hw, hwc⟩ := Finset.mem_image.mp hc
        exact Finset.card_ne_zero_of_mem (Finset.mem_filter.mpr ⟨hw, hwc⟩)
      rw [mul_one_div, div_self (by exact_mod_cast this)]
    · rw [Finset.sum_congr rfl (g := fun w => (followCount n ww w : ℝ) /
          ((∑ x ∈ Finset.range n with cl x = c, followCount n ww x : ℤ) : ℝ))
        (fun w hw => by rw [e w hw, if_neg h]), ← Finset.sum_div, ← Int.cast_sum]
      exact div_self (by exact_mod_cast h)

theorem model_eq (hL : ∀ p ∈ L, p.1 < n ∧ p.2 < n) (hww : ∀ x y, ww x y = L.count (x, y)) :
    ∃ m : ClassBigram n cl,
      (L.map (fun p => m.next (cl p.1) (cl p.2) * m.member p.2)).prod = Real.exp (modelBound n cl ww) := by
  refine ⟨frequencyModel n cl ww (ww_nonneg hww), ?_⟩
  set m := frequencyModel n cl ww (ww_nonneg hww) with hm
  have hnext : ∀ a, ∑ b ∈ usedClasses n cl, classPairCount n ww cl a b ≠ 0 → ∀ b, m.next a b =
      (classPairCount n ww cl a b : ℝ) / ((∑ b ∈ usedClasses n cl, classPairCount n ww cl a b : ℤ) : ℝ) := by
    intro a h b; rw [hm]; exact if_neg h
  have hmember : ∀ w, ∑ x ∈ Finset.range n with cl x = cl w, followCount n ww x ≠ 0 → m.member w =
      (followCount n ww w : ℝ) / ((∑ x ∈ Finset.range n with cl x = cl w, followCount n ww x : ℤ) : ℝ) := by
    intro w h; rw [hm]; exact if_neg h
  have hpair : ∀ p ∈ L, 0 < ww p.1 p.2 := by
    intro p hp
    rw [hww]
    have := List.count_pos_iff.mpr hp
    exact_mod_cast this
  have hpos : ∀ p ∈ L, 0 < m.next (cl p.1) (cl p.2) * m.member p.2 := by
    intro p hp
    obtain ⟨h1, h2⟩ := hL p hp
    have hc : 0 < classPairCount n ww cl (cl p.1) (cl p.2) := by
      refine lt_of_lt_of_le (hpair p hp) ?_
      refine le_trans ?_ (Finset.single_le_sum (f := fun v => ∑ w ∈ Finset.range n with cl w = cl p.2, ww v w)
        (fun v _ => Finset.sum_nonneg (fun w _ => ww_nonneg hww v w))
        (Finset.mem_filter.mpr ⟨Finset.mem_range.mpr h1, rfl⟩))
      exact Finset.single_le_sum (f := fun w => ww p.1 w) (fun w _ => ww_nonneg hww _ w)
        (Finset.mem_filter.mpr ⟨Finset.mem_range.mpr h2, rfl⟩)
    have hc' : 0 < ∑ b ∈ usedClasses n cl, classPairCount n ww cl (cl p.1) b :=
      lt_of_lt_of_le hc (Finset.single_le_sum (fun b _ => classPairCount_nonneg' hww _ b)
        (Finset.mem_image_of_mem _ (Finset.mem_range.mpr h2)))
    have hf : 0 < followCount n ww p.2 :=
      lt_of_lt_of_le (hpair p hp) (Finset.single_le_sum (f := fun x => ww x p.2) (fun x _ => ww_nonneg hww x _)
        (Finset.mem_range.mpr h1))
    have hf' : 0 < ∑ x ∈ Finset.range n with cl x = cl p.2, followCount n ww x :=
      lt_of_lt_of_le hf (Finset.single_le_sum (fun b _ => followCount_nonneg hww b)
        (Finset.mem_filter.mpr ⟨Finset.mem_range.mpr h2, rfl⟩))
    rw [hnext _ hc'.ne', hmember _ hf'.ne']
    exact mul_pos (div_pos (by exact_mod_cast hc) (by exact_mod_cast hc')) (div_pos (by exact_mod_cast hf) (by exact_mod_cast hf'))
  have hlog := log_model hL hww m hpos
  rw [← Real.exp_log (log_prod_map L _ hpos).1, hlog]
  congr 1
  unfold modelBound
  congr 1
  · refine Finset.sum_congr rfl (fun a _ => ?_)
    by_cases h : ∑ b ∈ usedClasses n cl, classPairCount n ww cl a b = 0
    · have hz := (Finset.sum_eq_zero_iff_of_nonneg (fun b _ => classPairCount_nonneg' hww a b)).mp h
      rw [h, Finset.sum_eq_zero (fun b hb => by rw [hz b hb]; simp),
        Finset.sum_eq_zero (f := fun b => xlogx (classPairCount n ww cl a b)) (fun b hb => by rw [hz b hb]; simp [xlogx])]
      simp [xlogx]
    · rw [← gibbs_eq _ _ (fun b _ => classPairCount_nonneg' hww a b)]
      exact Finset.sum_congr rfl (fun b _ => by rw [hnext a h])
  · refine Finset.sum_congr rfl (fun c _ => ?_)
    by_cases h : ∑ x ∈ Finset.range n with cl x = c, followCount n ww x = 0
    · have hz := (Finset.sum_eq_zero_iff_of_nonneg (fun b _ => followCount_nonneg hww b)).mp h
      rw [h, Finset.sum_eq_zero (fun b hb => by rw [hz b hb]; simp),
        Finset.sum_eq_zero (f := fun b => xlogx (followCount n ww b)) (fun b hb => by rw [hz b hb]; simp [xlogx])]
      simp [xlogx]
    · rw [← gibbs_eq _ _ (fun b _ => followCount_nonneg hww b)]
      refine Finset.sum_congr rfl (fun w hw => ?_)
      have e := (Finset.mem_filter.mp hw).2
      rw [hmember w (by rw [e]; exact h), e]

/-- The bound and the likelihood of the optimizer differ by a number that does not depend on the classes. -/
theorem modelBound_eq {C : Nat} {count : Nat → ℤ} {b e : Nat} {S : ℤ}
    (hrow : ∀ x < n, ∑ y ∈ Finset.range n, ww x y = count x - if x = e then S else 0)
    (hcol : ∀ y < n, ∑ x ∈ Finset.range n, ww x y = count y - if y = b then S else 0)
    (hb : b < n) (he : e < n) (hlt : ∀ w < n, cl w < C) (hab : AloneInClass n cl b) (hae : AloneInClass n cl e) :
    modelBound n cl ww = classLL n C count ww cl + (xlogx (count e) - xlogx (count e - S)) := by
  have hU : usedClasses n cl ⊆ Finset.range C := by
    intro c hc
    obtain ⟨w, hw, rfl⟩ := Finset.mem_image.mp hc
    exact Finset.mem_range.mpr (hlt w (Finset.mem_range.mp hw))
  have hempty : ∀ c ∉ usedClasses n cl, (Finset.range n).filter (fun w => cl w = c) = ∅ := by
    intro c hc
    rw [Finset.filter_eq_empty_iff]
    intro w hw h
    exact hc (Finset.mem_image.mpr ⟨w, hw, h⟩)
  have halone : ∀ x, x < n → AloneInClass n cl x → (Finset.range n).filter (fun w => cl w = cl x) = {x} := by
    intro x hx h
    ext y
    simp only [Finset.mem_filter, Finset.mem_range, Finset.mem_singleton]
    exact ⟨fun ⟨h1, h2⟩ => h y h1 h2, fun h => by subst h; exact ⟨hx, rfl⟩⟩
  -- sums of the counts in the classes
  have hR : ∀ a, ∑ d ∈ usedClasses n cl, classPairCount n ww cl a d = classCount n count cl a - if a = cl e then S else 0 := by
    intro a
    rw [sum_classPairCount, Finset.sum_congr rfl (fun x hx => hrow x (Finset.mem_range.mp (Finset.mem_filter.mp hx).1)),
      Finset.sum_sub_distrib, Finset.sum_ite_eq' _ e (fun _ => S)]
    simp only [Finset.mem_filter, Finset.mem_range, he, true_and, eq_comm (a := cl e)]
    rfl
  have hM : ∀ c, ∑ w ∈ Finset.range n with cl w = c, followCount n ww w = classCount n count cl c - if c = cl b then S else 0 := by
    intro c
    unfold followCount
    rw [Finset.sum_congr rfl (fun x hx => hcol x (Finset.mem_range.mp (Finset.mem_filter.mp hx).1)),
      Finset.sum_sub_distrib, Finset.sum_ite_eq' _ b (fun _ => S)]
    simp only [Finset.mem_filter, Finset.mem_range, hb, true_and, eq_comm (a := cl b)]
    rfl
  have hce : classCount n count cl (cl e) = count e := by unfold classCount; rw [halone e he hae, Finset.sum_singleton]
  have hcb : classCount n count cl (cl b) = count b := by unfold classCount; rw [halone b hb hab, Finset.sum_singleton]
  have hbU : cl b ∈ usedClasses n cl := Finset.mem_image_of_mem _ (Finset.mem_range.mpr hb)
  have heU : cl e ∈ usedClasses n cl := Finset.mem_image_of_mem _ (Finset.mem_range.mpr he)
  unfold modelBound classLL
  rw [Finset.sum_sub_distrib, Finset.sum_sub_distrib, sum_classes cl (fun w => xlogx (followCount n ww w))]
  have e1 : ∑ a ∈ usedClasses n cl, ∑ d ∈ usedClasses n cl, xlogx (classPairCount n ww cl a d) =
      ∑ a ∈ Finset.range C, ∑ d ∈ Finset.range C, xlogx (classPairCount n ww cl a d) := by
    rw [Finset.sum_subset hU (f := fun a => ∑ d ∈ usedClasses n cl, xlogx (classPairCount n ww cl a d))]
    · refine Finset.sum_congr rfl (fun a _ => Finset.sum_subset hU (fun d _ hd => ?_))
      unfold classPairCount
      rw [hempty d hd]; simp [xlogx]
    · intro a _ ha
      unfold classPairCount
      rw [hempty a ha]; simp [xlogx]
  have key : ∀ z ∈ usedClasses n cl, ∑ a ∈ usedClasses n cl, xlogx (classCount n count cl a - if a = z then S else 0) =
      ∑ c ∈ Finset.range C, xlogx (classCount n count cl c) - xlogx (classCount n count cl z) +
        xlogx (classCount n count cl z - S) := by
    intro z hz
    rw [← Finset.sum_subset hU (f := fun c => xlogx (classCount n count cl c)) (fun c _ hc => by
      unfold classCount; rw [hempty c hc]; simp [xlogx]),
      ← Finset.add_sum_erase _ _ hz, ← Finset.add_sum_erase _ (fun c => xlogx (classCount n count cl c)) hz, if_pos rfl,
      Finset.sum_congr rfl (g := fun a => xlogx (classCount n count cl a)) (fun a ha => by
        rw [if_neg (Finset.ne_of_mem_erase ha), sub_zero])]
    ring
  have e2 := key (cl e) heU
  have e3 := key (cl b) hbU
  have e4 : ∑ w ∈ Finset.range n, xlogx (followCount n ww w) =
      ∑ w ∈ Finset.range n, xlogx (count w) - xlogx (count b) + xlogx (count b - S) := by
    have hbr := Finset.mem_range.mpr hb
    rw [← Finset.add_sum_erase _ _ hbr, ← Finset.add_sum_erase _ (fun w => xlogx (count w)) hbr]
    unfold followCount
    rw [hcol b hb, if_pos rfl, Finset.sum_congr rfl (g := fun w => xlogx (count w)) (fun w hw => by
        rw [hcol w (Finset.mem_range.mp (Finset.mem_of_mem_erase hw)), if_neg (Finset.ne_of_mem_erase hw), sub_zero])]
    ring
  simp only [hR, hM]
  rw [e1, e2, e3, e4, hce, hcb]
  ring

end

end TheanoLM
