import Verif.Lemmas.BatchIterator
import Mathlib.Tactic.Linarith
import Mathlib.Data.List.Perm.Subperm
import Mathlib.Data.List.Nodup
import Mathlib.Algebra.Order.Floor.Ring
/-! # Helper lemmas about the shuffling iterator -/
namespace TheanoLM

theorem pyRound_spec (q : ℚ) : |q - pyRound q| ≤ 1 / 2 ∧ (|q - pyRound q| = 1 / 2 → pyRound q % 2 = 0) := by
  have h1 := Int.floor_le q
  have h2 := Int.lt_floor_add_one q
  unfold pyRound
  simp only
  split
  · rename_i h
    rw [abs_of_nonneg (by linarith)]
    exact ⟨by linarith, fun hc => by linarith⟩
  · rename_i h
    split
    · rename_i h3
      push_cast
      rw [abs_of_nonpos (by linarith)]
      exact ⟨by linarith, fun hc => by linarith⟩
    · rename_i h3
      have h4 : q - ⌊q⌋ = 1 / 2 := by linarith
      split
      · rename_i h5
        rw [h4]
        exact ⟨by norm_num, fun _ => h5⟩
      · rename_i h5
        push_cast
        refine ⟨?_, fun _ => by omega⟩
        rw [show q - (⌊q⌋ + 1) = -(1 / 2) by linarith]
        norm_num

theorem pyRound_natCast (n : Nat) : pyRound (n : ℚ) = n := by
  simp [pyRound]

theorem pyRound_le (q : ℚ) (n : Nat) (h : q ≤ n) : pyRound q ≤ n := by
  by_contra hc
  have h1 : (n : ℤ) + 1 ≤ pyRound q := by omega
  have h2 : ((n : ℚ) + 1) ≤ pyRound q := by exact_mod_cast h1
  have h3 := (pyRound_spec q).1
  rw [abs_le] at h3
  linarith

theorem length_pointerRangesAux (files : List Str) (start : Nat) :
    (pointerRangesAux files start).length = files.length := by
  induction files generalizing start with
  | nil => rfl
  | cons f fs ih => simp [pointerRangesAux, ih]

theorem sentencePointersAux_fst (files : List Str) (k : Nat) :
    ∀ p ∈ sentencePointersAux files k, k ≤ p.1 := by
  induction files generalizing k with
  | nil => simp [sentencePointersAux]
  | cons f fs ih =>
    intro p hp
    rw [sentencePointersAux, List.mem_append] at hp
    rcases hp with hp | hp
    · obtain ⟨x, -, rfl⟩ := List.mem_map.mp hp; exact Nat.le_refl _
    · have := ih (k + 1) p hp; omega

/-- One choice of lines. -/
def ChoiceOk (rs : (Nat × Nat) × ℤ) (c : List Nat) : Prop :=
  (c.length : ℤ) = rs.2 ∧ (∀ x ∈ c, rs.1.1 ≤ x ∧ x < rs.1.2) ∧ (¬ (((rs.1.2 - rs.1.1 : Nat) : ℤ) < rs.2) → c.Nodup)

/-- Positions in file `k` visited by the order. -/
def visitsAux (ptr : Nat → Option (Nat × Nat)) (order : List Nat) (k : Nat) : List Nat :=
  ((order.filterMap ptr).filter (fun p => decide (p.1 = k))).map Prod.snd

theorem visitsAux_append (ptr : Nat → Option (Nat × Nat)) (a b : List Nat) (k : Nat) :
    visitsAux ptr (a ++ b) k = visitsAux ptr a k ++ visitsAux ptr b k := by
  simp [visitsAux]

theorem choices_bounds (files : List Str) (start : Nat) (sizes : List ℤ) (choices : List (List Nat))
    (hc : List.Forall₂ ChoiceOk ((pointerRangesAux files start).zip sizes) choices) :
    ∀ i ∈ choices.flatten, start ≤ i ∧ i < start + (sentencePointersAux files 0).length := by
  have hlen : ∀ fs : List Str, ∀ k k', (sentencePointersAux fs k).length = (sentencePointersAux fs k').length := by
    intro fs
    induction fs with
    | nil => intros; rfl
    | cons f fs ih => intro k k'; simp [sentencePointersAux, ih (k + 1) (k' + 1)]
  induction files generalizing start sizes choices with
  | nil => simp [pointerRangesAux] at hc; subst hc; simp
  | cons f fs ih =>
    cases sizes with
    | nil => simp at hc; subst hc; simp
    | cons sz sizes =>
      simp only [pointerRangesAux, List.zip_cons_cons] at hc
      rcases hc with _ | ⟨h1, h2⟩
      rename_i c cs
      intro i hi
      rw [List.flatten_cons, List.mem_append] at hi
      simp only [sentencePointersAux, List.length_append, List.length_map, Nat.zero_add]
      rcases hi with hi | hi
      · have := h1.2.1 i hi
        simp only at this
        omega
      · have := ih _ _ _ h2 i hi
        rw [hlen fs 1 0]
        omega

theorem visits_choices (files : List Str) (k start : Nat) (fractions : List ℚ) (ptr : Nat → Option (Nat × Nat))
    (hptr : ∀ i, ptr (start + i) = (sentencePointersAux files k)[i]?)
    (choices : List (List Nat))
    (hc : List.Forall₂ ChoiceOk ((pointerRangesAux files start).zip (sampleSizes fractions (pointerRangesAux files start)))
      choices) :
    ∀ j (hj : j < files.length),
      let starts := findSentenceStarts isNl files[j]
      let n := pyRound (fractions.getD j 1 * starts.length)
      let vis := visitsAux ptr choices.flatten (k + j)
      (vis.length : ℤ) = n ∧ (n ≤ starts.length → vis.Nodup) ∧ (n = starts.length → vis.Perm starts) := by
  induction files generalizing k start fractions choices with
  | nil => intro j hj; simp at hj
  | cons f fs ih =>
    simp only [pointerRangesAux, sampleSizes, List.zip_cons_cons] at hc
    rcases hc with _ | ⟨h1, h2⟩
    rename_i c cs
    obtain ⟨g1, g2, g3⟩ := h1
    simp only at g1 g2 g3
    have hcast : (((start + (findSentenceStarts isNl f).length : Nat) : ℚ) - (start : ℚ)) =
        ((findSentenceStarts isNl f).length : ℚ) := by push_cast; ring
    rw [hcast] at g1 g3
    rw [Nat.add_sub_cancel_left] at g3
    -- pointers of the chosen lines
    have hin : ∀ i ∈ c, ptr i = some (k, (findSentenceStarts isNl f).getD (i - start) 0) := by
      intro i hi
      obtain ⟨b1, b2⟩ := g2 i hi
      have := hptr (i - start)
      rw [show start + (i - start) = i by omega] at this
      rw [this, sentencePointersAux, List.getElem?_append_left (by simp; omega), List.getElem?_map]
      simp [List.getD, List.getElem?_eq_getElem (show i - start < (findSentenceStarts isNl f).length by omega)]
    have hfm : c.filterMap ptr = c.map (fun i => (k, (findSentenceStarts isNl f).getD (i - start) 0)) := by
      clear g1 g2 g3
      induction c with
      | nil => rfl
      | cons i c ihc =>
        rw [List.filterMap_cons, hin i (by simp)]
        simp only [List.map_cons]
        rw [ihc (fun i hi => hin i (by simp [hi]))]
    have hptr' : ∀ i, ptr (start + (findSentenceStarts isNl f).length + i) = (sentencePointersAux fs (k + 1))[i]? := by
      intro i
      rw [Nat.add_assoc, hptr, sentencePointersAux, List.getElem?_append_right (by simp)]
      simp
    have hrest : ∀ p ∈ cs.flatten.filterMap ptr, k + 1 ≤ p.1 := by
      intro p hp
      rw [List.mem_filterMap] at hp
      obtain ⟨i, hi, hpi⟩ := hp
      have := choices_bounds fs _ _ cs h2 i hi
      have h := hptr' (i - (start + (findSentenceStarts isNl f).length))
      rw [show start + (findSentenceStarts isNl f).length + (i - (start + (findSentenceStarts isNl f).length)) = i by
        omega, hpi] at h
      exact sentencePointersAux_fst fs (k + 1) p (List.mem_of_getElem? h.symm)
    intro j hj
    cases j with
    | zero =>
      have hv : visitsAux ptr (c :: cs).flatten (k + 0) =
          c.map (fun i => (findSentenceStarts isNl f).getD (i - start) 0) := by
        rw [List.flatten_cons, visitsAux_append]
        have e2 : visitsAux ptr cs.flatten (k + 0) = [] := by
          unfold visitsAux
          rw [List.map_eq_nil_iff, List.filter_eq_nil_iff]
          intro p hp
          have := hrest p hp
          simp; omega
        rw [e2, List.append_nil]
        unfold visitsAux
        rw [hfm, List.filter_eq_self.mpr (by simp), List.map_map]
        rfl
      have hfr : fractions.getD 0 1 = fractions.headD 1 := by cases fractions <;> rfl
      simp only [List.getElem_cons_zero, hv, List.length_map, hfr]
      have hnd : ∀ l : List Nat, l.Nodup →
          (∀ x ∈ l, start ≤ x ∧ x < start + (findSentenceStarts isNl f).length) →
          (l.map (fun i => (findSentenceStarts isNl f).getD (i - start) 0)).Nodup := by
        intro l hl hb
        apply List.Nodup.map_on _ hl
        intro x hx y hy hxy
        have bx := hb x hx
        have byy := hb y hy
        have hs : (findSentenceStarts isNl f).Nodup := by
          rw [findSentenceStarts_eq]
          rw [List.nodup_cons]
          refine ⟨?_, List.Nodup.filter _ List.nodup_range⟩
          simp [startsFrom]
        simp only [List.getD, List.getElem?_eq_getElem (show x - start < (findSentenceStarts isNl f).length by omega),
          List.getElem?_eq_getElem (show y - start < (findSentenceStarts isNl f).length by omega),
          Option.getD_some] at hxy
        have := (List.Nodup.getElem_inj_iff hs).mp hxy
        omega
      refine ⟨g1, fun hn => hnd c (g3 (by omega)) g2, fun hn => ?_⟩
      have hcn := g3 (by omega)
      have hlen : c.length = (findSentenceStarts isNl f).length := by omega
      have hperm : c.Perm (List.range' start (findSentenceStarts isNl f).length) := by
        have hsub : c.Subperm (List.range' start (findSentenceStarts isNl f).length) := by
          apply List.subperm_of_subset hcn
          intro x hx
          rw [List.mem_range'_1]
          have := g2 x hx
          omega
        exact hsub.perm_of_length_le (by simp [hlen])
      have e3 : (List.range' start (findSentenceStarts isNl f).length).map
          (fun i => (findSentenceStarts isNl f).getD (i - start) 0) = findSentenceStarts isNl f := by
        apply List.ext_getElem
        · simp
        · intro i h1 h2
          simp [List.getD, h2]
      have hp := hperm.map (fun i => (findSentenceStarts isNl f).getD (i - start) 0)
      rw [e3] at hp
      exact hp
    | succ j =>
      have hj' : j < fs.length := by simpa using hj
      have := ih (k + 1) _ fractions.tail hptr' cs h2 j hj'
      have hv : visitsAux ptr (c :: cs).flatten (k + (j + 1)) = visitsAux ptr cs.flatten (k + 1 + j) := by
        rw [List.flatten_cons, visitsAux_append]
        have e2 : visitsAux ptr c (k + (j + 1)) = [] := by
          unfold visitsAux
          rw [List.map_eq_nil_iff, List.filter_eq_nil_iff, hfm]
          intro p hp
          obtain ⟨i, -, rfl⟩ := List.mem_map.mp hp
          simp
        rw [e2, List.nil_append]
        congr 1; omega
      have hfr : fractions.getD (j + 1) 1 = fractions.tail.getD j 1 := by cases fractions <;> simp
      simp only [List.getElem_cons_succ, hv, hfr]
      exact this

end TheanoLM
