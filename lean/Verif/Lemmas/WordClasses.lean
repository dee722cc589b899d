import Verif.Props.WordClassesSpec
import Verif.Lemmas.Statistics
import Mathlib.Tactic.Linarith
import Mathlib.Tactic.Ring
/-!
# Lemmas about word class statistics
-/
namespace TheanoLM

open Finset

theorem addAt_eq (ps : List (Nat × ℤ)) (m : Nat → ℤ) (a : Nat) :
    addAt m ps a = m a + (ps.map (fun p => if a = p.1 then p.2 else 0)).sum := by
  induction ps generalizing m with
  | nil => simp [addAt]
  | cons p ps ih =>
    have : addAt m (p :: ps) = addAt (inc1 m p.1 p.2) ps := rfl
    rw [this, ih, List.map_cons, List.sum_cons]
    unfold inc1
    split <;> ring

theorem addAt2_eq (ps : List (Nat × Nat × ℤ)) (m : Nat → Nat → ℤ) (a b : Nat) :
    addAt2 m ps a b = m a b + (ps.map (fun p => if a = p.1 ∧ b = p.2.1 then p.2.2 else 0)).sum := by
  induction ps generalizing m with
  | nil => simp [addAt2]
  | cons p ps ih =>
    have : addAt2 m (p :: ps) = addAt2 (inc2 m p.1 p.2.1 p.2.2) ps := rfl
    rw [this, ih, List.map_cons, List.sum_cons]
    unfold inc2
    split <;> ring

theorem assignAt2_eq (ps : List (Nat × Nat × ℤ)) (m : Nat → Nat → ℤ)
    (h : (ps.map (fun p => (p.1, p.2.1))).Nodup) : assignAt2 m ps = addAt2 m ps := by
  have key : ∀ (ps : List (Nat × Nat × ℤ)) (m' : Nat → Nat → ℤ), (ps.map (fun p => (p.1, p.2.1))).Nodup →
      (∀ p ∈ ps, m' p.1 p.2.1 = m p.1 p.2.1) →
      ps.foldl (fun m' p => set2 m' p.1 p.2.1 (m p.1 p.2.1 + p.2.2)) m' = addAt2 m' ps := by
    intro ps
    induction ps with
    | nil => intros; rfl
    | cons p ps ih =>
      intro m' hn hm
      rw [List.map_cons, List.nodup_cons] at hn
      have e : set2 m' p.1 p.2.1 (m p.1 p.2.1 + p.2.2) = inc2 m' p.1 p.2.1 p.2.2 := by
        funext a b
        unfold set2 inc2
        split
        · rename_i h
          rw [h.1, h.2, hm p (by simp)]
        · rfl
      rw [List.foldl_cons, e, ih _ hn.2]
      · rfl
      · intro q hq
        unfold inc2
        rw [if_neg, hm q (by simp [hq])]
        intro hc
        apply hn.1
        rw [List.mem_map]
        exact ⟨q, hq, by rw [hc.1, hc.2]⟩
  exact key ps m h (fun _ _ => rfl)

theorem incAt_eq (b : Backend) (ps : List (Nat × Nat × ℤ)) (m : Nat → Nat → ℤ)
    (h : (ps.map (fun p => (p.1, p.2.1))).Nodup) : incAt b m ps = addAt2 m ps := by
  cases b
  · exact assignAt2_eq ps m h
  · rfl

theorem sum_map_range [AddCommMonoid β] (n : Nat) (f : Nat → β) : ((List.range n).map f).sum = ∑ i ∈ range n, f i := rfl

/-- Sums over lists of numbers `< n`. -/
theorem sum_filter_range (n : Nat) (p : Nat → Bool) (f : Nat → ℤ) :
    (((List.range n).filter p).map f).sum = ∑ i ∈ range n with p i = true, f i := by
  have : ∀ l : List Nat, ((l.filter p).map f).sum = (l.map (fun i => if p i = true then f i else 0)).sum := by
    intro l
    induction l with
    | nil => rfl
    | cons x l ih =>
      rw [List.filter_cons]
      split
      · rename_i h; simp [h, ih]
      · rename_i h; simp [h, ih]
  rw [this, sum_filter]; rfl

theorem sum_flatMap [AddCommMonoid γ] (l : List α) (f : α → List β) (g : β → γ) :
    ((l.flatMap f).map g).sum = (l.map (fun x => ((f x).map g).sum)).sum := by
  induction l with
  | nil => rfl
  | cons x l ih => simp [List.flatMap_cons, ih]

theorem sum_filter_zero (l : List α) (p : α → Bool) (g : α → ℤ) (h : ∀ x ∈ l, p x = false → g x = 0) :
    ((l.filter p).map g).sum = (l.map g).sum := by
  induction l with
  | nil => rfl
  | cons x l ih =>
    have ih := ih (fun y hy => h y (by simp [hy]))
    rw [List.filter_cons]
    split
    · simp [ih]
    · rename_i hp
      have := h x (by simp) (by simpa using hp)
      simp [ih, this]

theorem sum_nonzeroPairs (n : Nat) (ww : Nat → Nat → ℤ) (g : Nat × Nat → ℤ)
    (h : ∀ i j, ww i j = 0 → g (i, j) = 0) :
    ((nonzeroPairs n ww).map g).sum = ∑ i ∈ range n, ∑ j ∈ range n, g (i, j) := by
  unfold nonzeroPairs
  rw [sum_filter_zero, sum_flatMap]
  · show _ = ((List.range n).map (fun i => ∑ j ∈ range n, g (i, j))).sum
    congr 1
    apply List.map_congr_left
    intro i _
    rw [List.map_map]; rfl
  · intro p _ hp
    apply h p.1 p.2
    simpa using hp

theorem classCount_ite (n : Nat) (count : Nat → ℤ) (cl : Nat → Nat) (c : Nat) :
    classCount n count cl c = ∑ w ∈ range n, if cl w = c then count w else 0 := by
  unfold classCount; rw [sum_filter]

theorem classPairCount_ite (n : Nat) (ww : Nat → Nat → ℤ) (cl : Nat → Nat) (a b : Nat) :
    classPairCount n ww cl a b = ∑ v ∈ range n, ∑ w ∈ range n, if cl v = a ∧ cl w = b then ww v w else 0 := by
  unfold classPairCount; rw [sum_filter]
  apply sum_congr rfl
  intro v _
  rw [sum_filter]
  split
  · rename_i h; simp [h]
  · rename_i h; simp [h]

theorem classWordCount_ite (n : Nat) (ww : Nat → Nat → ℤ) (cl : Nat → Nat) (a w : Nat) :
    classWordCount n ww cl a w = ∑ v ∈ range n, if cl v = a then ww v w else 0 := by
  unfold classWordCount; rw [sum_filter]

theorem wordClassCount_ite (n : Nat) (ww : Nat → Nat → ℤ) (cl : Nat → Nat) (v b : Nat) :
    wordClassCount n ww cl v b = ∑ w ∈ range n, if cl w = b then ww v w else 0 := by
  unfold wordClassCount; rw [sum_filter]

theorem computeClassStatistics_exact (cfg : OptCfg) (cl : Nat → Nat) : ExactCounts cfg (computeClassStatistics cfg cl) where
  cls c := by
    show addAt _ _ c = classCount cfg.vocabularySize cfg.wordCounts cl c
    rw [addAt_eq, zero_add, List.map_map, classCount_ite, sum_map_range]
    apply sum_congr rfl
    intro w _
    simp [eq_comm]
  cc a b := by
    show addAt2 _ _ a b = classPairCount cfg.vocabularySize cfg.wwCounts cl a b
    rw [addAt2_eq, zero_add, List.map_map, sum_nonzeroPairs _ _ _ (by intro i j h; simp [h]), classPairCount_ite]
    apply sum_congr rfl; intro v _
    apply sum_congr rfl; intro w _
    simp [eq_comm]
  cw a w hw := by
    show addAt2 _ _ a w = classWordCount cfg.vocabularySize cfg.wwCounts cl a w
    rw [addAt2_eq, zero_add, List.map_map, sum_nonzeroPairs _ _ _ (by intro i j h; simp [h]), classWordCount_ite]
    apply sum_congr rfl; intro v _
    simp only [Function.comp]
    by_cases h : a = cl v
    · simp [← h, hw]
    · have : cl v ≠ a := fun h' => h h'.symm
      simp [h, this]
  wc v b hv := by
    show addAt2 _ _ v b = wordClassCount cfg.vocabularySize cfg.wwCounts cl v b
    rw [addAt2_eq, zero_add, List.map_map, sum_nonzeroPairs _ _ _ (by intro i j h; simp [h]), wordClassCount_ite]
    simp only [Function.comp]
    rw [sum_comm]
    apply sum_congr rfl; intro w _
    by_cases h : b = cl w
    · simp [← h, hv]
    · have : cl w ≠ b := fun h' => h h'.symm
      simp [h, this]

/-! ## Moving a word -/

/-- Counts of the words other than `w`. -/
def restCls (n : Nat) (count : Nat → ℤ) (cl : Nat → Nat) (w c : Nat) : ℤ :=
  ∑ i ∈ (range n).erase w, if cl i = c then count i else 0
def restR (n : Nat) (ww : Nat → Nat → ℤ) (cl : Nat → Nat) (w b : Nat) : ℤ :=
  ∑ i ∈ (range n).erase w, if cl i = b then ww w i else 0
def restL (n : Nat) (ww : Nat → Nat → ℤ) (cl : Nat → Nat) (w a : Nat) : ℤ :=
  ∑ i ∈ (range n).erase w, if cl i = a then ww i w else 0
def restCC (n : Nat) (ww : Nat → Nat → ℤ) (cl : Nat → Nat) (w a b : Nat) : ℤ :=
  ∑ i ∈ (range n).erase w, ∑ j ∈ (range n).erase w, if cl i = a ∧ cl j = b then ww i j else 0

theorem split_sum {n w : Nat} (hw : w < n) (f : Nat → ℤ) : ∑ i ∈ range n, f i = f w + ∑ i ∈ (range n).erase w, f i :=
  (add_sum_erase _ _ (mem_range.mpr hw)).symm

variable {n w : Nat} (hw : w < n) (count : Nat → ℤ) (ww : Nat → Nat → ℤ) (cl : Nat → Nat)
include hw

theorem classCount_split (c : Nat) :
    classCount n count cl c = restCls n count cl w c + if cl w = c then count w else 0 := by
  rw [classCount_ite, split_sum hw]; unfold restCls; ring

theorem wordClassCount_split (b : Nat) :
    wordClassCount n ww cl w b = restR n ww cl w b + if cl w = b then ww w w else 0 := by
  rw [wordClassCount_ite, split_sum hw]; unfold restR; ring

theorem classWordCount_split (a : Nat) :
    classWordCount n ww cl a w = restL n ww cl w a + if cl w = a then ww w w else 0 := by
  rw [classWordCount_ite, split_sum hw]; unfold restL; ring

theorem classPairCount_split (a b : Nat) :
    classPairCount n ww cl a b = restCC n ww cl w a b + (if cl w = a then restR n ww cl w b else 0) +
      (if cl w = b then restL n ww cl w a else 0) + (if cl w = a ∧ cl w = b then ww w w else 0) := by
  rw [classPairCount_ite, split_sum hw, split_sum hw]
  have e1 : ∑ i ∈ (range n).erase w, (if cl w = a ∧ cl i = b then ww w i else 0) =
      if cl w = a then restR n ww cl w b else 0 := by
    unfold restR
    split
    · rename_i h; simp [h]
    · rename_i h; simp [h]
  have e2 : ∑ i ∈ (range n).erase w, ∑ j ∈ range n, (if cl i = a ∧ cl j = b then ww i j else 0) =
      (if cl w = b then restL n ww cl w a else 0) + restCC n ww cl w a b := by
    unfold restCC restL
    simp only [split_sum hw]
    rw [sum_add_distrib]
    congr 1
    split
    · rename_i h; simp [h]
    · rename_i h; simp [h]
  rw [e1, e2]; ring

omit hw in
theorem rest_reassign (c : Nat) :
    (∀ a, restCls n count (reassign cl w c) w a = restCls n count cl w a) ∧
    (∀ a, restR n ww (reassign cl w c) w a = restR n ww cl w a) ∧
    (∀ a, restL n ww (reassign cl w c) w a = restL n ww cl w a) ∧
    (∀ a b, restCC n ww (reassign cl w c) w a b = restCC n ww cl w a b) := by
  have key : ∀ i ∈ (range n).erase w, reassign cl w c i = cl i := by
    intro i hi
    unfold reassign
    rw [if_neg (ne_of_mem_erase hi)]
  refine ⟨?_, ?_, ?_, ?_⟩
  · intro a; exact sum_congr rfl (fun i hi => by rw [key i hi])
  · intro a; exact sum_congr rfl (fun i hi => by rw [key i hi])
  · intro a; exact sum_congr rfl (fun i hi => by rw [key i hi])
  · intro a b
    exact sum_congr rfl (fun i hi => sum_congr rfl (fun j hj => by rw [key i hi, key j hj]))

omit hw in
theorem reassign_self (c : Nat) : reassign cl w c w = c := by simp [reassign]

omit hw in
/-- The sum over the neighbours other than the word itself. -/
theorem sum_neighbours (f : Nat → ℤ) (g : Nat → ℤ) (h : ∀ i, f i = 0 → g i = 0) :
    (((List.range n).filter (fun i => decide (f i ≠ 0 ∧ i ≠ w))).map g).sum = ∑ i ∈ (range n).erase w, g i := by
  rw [sum_filter_range]
  have : (range n).erase w = {i ∈ range n | i ≠ w} := by
    ext i; simp [and_comm]
  rw [this]
  simp only [decide_eq_true_eq]
  apply sum_subset_zero_on_sdiff
  · intro i; simp only [mem_filter]; tauto
  · intro i hi
    simp only [mem_sdiff, mem_filter, not_and] at hi
    apply h
    by_contra hc
    exact hi.2 hi.1.1 hc hi.1.2
  · intros; rfl

omit hw in
theorem ite_sum (p : Prop) [Decidable p] (s : Finset Nat) (f : Nat → ℤ) :
    ∑ i ∈ s, (if p then f i else 0) = if p then ∑ i ∈ s, f i else 0 := by
  split <;> simp

omit hw in
/-- Sum of the contributions of the neighbours to one element of a class-class matrix. -/
theorem sum_contrib_row (f : Nat → ℤ) (c x y : Nat) (sgn : ℤ) :
    (((List.range n).filter (fun i => decide (f i ≠ 0 ∧ i ≠ w))).map
      (fun i => if x = c ∧ y = cl i then sgn * f i else 0)).sum =
      if x = c then sgn * ∑ i ∈ (range n).erase w, (if cl i = y then f i else 0) else 0 := by
  rw [sum_neighbours f _ (by intro i h; simp [h])]
  split
  · rename_i h
    rw [mul_sum]
    apply sum_congr rfl
    intro i _
    simp [h, eq_comm]
  · rename_i h; simp [h]

omit hw in
theorem sum_contrib_col (f : Nat → ℤ) (c x y : Nat) (sgn : ℤ) :
    (((List.range n).filter (fun i => decide (f i ≠ 0 ∧ i ≠ w))).map
      (fun i => if x = cl i ∧ y = c then sgn * f i else 0)).sum =
      if y = c then sgn * ∑ i ∈ (range n).erase w, (if cl i = x then f i else 0) else 0 := by
  rw [← sum_contrib_row]
  congr 1
  apply List.map_congr_left
  intro i _
  simp [and_comm]

omit hw in
/-- Contributions of the neighbours to one element of a class-word matrix. -/
theorem sum_contrib_word (f : Nat → ℤ) (c x y : Nat) (hy : y < n) (sgn : ℤ) :
    (((List.range n).filter (fun i => decide (f i ≠ 0 ∧ i ≠ w))).map
      (fun i => if x = c ∧ y = i then sgn * f i else 0)).sum =
      if x = c ∧ y ≠ w then sgn * f y else 0 := by
  rw [sum_neighbours f _ (by intro i h; simp [h])]
  by_cases h : x = c
  · simp only [h, true_and]
    rw [sum_ite_eq]
    simp [hy]
  · simp [h]

omit hw in
theorem sum_contrib_word' (f : Nat → ℤ) (c x y : Nat) (hy : y < n) (sgn : ℤ) :
    (((List.range n).filter (fun i => decide (f i ≠ 0 ∧ i ≠ w))).map
      (fun i => if y = i ∧ x = c then sgn * f i else 0)).sum =
      if x = c ∧ y ≠ w then sgn * f y else 0 := by
  rw [← sum_contrib_word f c x y hy]
  congr 1
  apply List.map_congr_left
  intro i _
  simp [and_comm]

omit hw in
theorem nodup_row (l : List Nat) (h : l.Nodup) (c : Nat) (f : Nat → ℤ) :
    ((l.map (fun i => (c, i, f i))).map (fun p : Nat × Nat × ℤ => (p.1, p.2.1))).Nodup := by
  rw [List.map_map]
  apply List.Nodup.map _ h
  intro i j hij
  simpa using hij

omit hw in
theorem nodup_col (l : List Nat) (h : l.Nodup) (c : Nat) (f : Nat → ℤ) :
    ((l.map (fun i => (i, c, f i))).map (fun p : Nat × Nat × ℤ => (p.1, p.2.1))).Nodup := by
  rw [List.map_map]
  apply List.Nodup.map _ h
  intro i j hij
  simpa using hij

omit hw in
/-- A move keeps the statistics exact. -/
theorem moveWord_exact {cfg : OptCfg} {s s' : OptSt} {w new : Nat} (hs : ExactCounts cfg s) (hw : w < cfg.vocabularySize)
    (h : moveWord cfg s w new = .ok s') :
    s'.wordToClass = reassign s.wordToClass w new ∧ ExactCounts cfg s' := by
  unfold moveWord at h
  simp only at h
  split at h
  · cases h
  split at h
  · cases h
  cases h
  have hnd : ∀ p : Nat → Bool, ((List.range cfg.vocabularySize).filter p).Nodup :=
    fun p => List.nodup_range.filter p
  obtain ⟨r1, r2, r3, r4⟩ := rest_reassign (n := cfg.vocabularySize) (w := w) cfg.wordCounts cfg.wwCounts s.wordToClass new
  have hself := reassign_self (w := w) s.wordToClass new
  have neg1 : ∀ x : ℤ, -x = -1 * x := by intro x; ring
  have pos1 : ∀ x : ℤ, x = 1 * x := by intro x; ring
  refine ⟨rfl, ?_, ?_, ?_, ?_⟩
  · intro c
    show inc1 _ _ _ c = classCount _ _ (reassign s.wordToClass w new) c
    rw [classCount_split hw, r1, hself]
    unfold inc1
    rw [hs.cls c, classCount_split hw]
    by_cases h1 : c = new <;> by_cases h2 : c = s.wordToClass w <;> simp [eq_comm, h1, h2] <;> grind
  · intro a b
    show inc2 _ _ _ _ a b = classPairCount _ _ (reassign s.wordToClass w new) a b
    rw [classPairCount_split hw, r2, r3, r4, hself]
    unfold inc2
    simp only [addAt2_eq, List.map_map, Function.comp_def]
    have e1 := sum_contrib_row (n := cfg.vocabularySize) (w := w) s.wordToClass (fun i => cfg.wwCounts w i) (s.wordToClass w) a b (-1)
    have e2 := sum_contrib_row (n := cfg.vocabularySize) (w := w) s.wordToClass (fun i => cfg.wwCounts w i) new a b 1
    have e3 := sum_contrib_col (n := cfg.vocabularySize) (w := w) s.wordToClass (fun i => cfg.wwCounts i w) (s.wordToClass w) a b (-1)
    have e4 := sum_contrib_col (n := cfg.vocabularySize) (w := w) s.wordToClass (fun i => cfg.wwCounts i w) new a b 1
    simp only [neg_one_mul, one_mul] at e1 e2 e3 e4
    rw [e1, e2, e3, e4, hs.cc a b, classPairCount_split hw]
    show _ = _ + (if new = a then restR _ _ _ w b else 0) + (if new = b then restL _ _ _ w a else 0) + _
    have f1 : ∑ i ∈ (range cfg.vocabularySize).erase w, (if s.wordToClass i = b then cfg.wwCounts w i else 0) =
      restR cfg.vocabularySize cfg.wwCounts s.wordToClass w b := rfl
    have f2 : ∑ i ∈ (range cfg.vocabularySize).erase w, (if s.wordToClass i = a then cfg.wwCounts i w else 0) =
      restL cfg.vocabularySize cfg.wwCounts s.wordToClass w a := rfl
    rw [f1, f2]
    generalize restR cfg.vocabularySize cfg.wwCounts s.wordToClass w b = R
    generalize restL cfg.vocabularySize cfg.wwCounts s.wordToClass w a = L
    generalize restCC cfg.vocabularySize cfg.wwCounts s.wordToClass w a b = C
    generalize s.wordToClass w = old
    generalize cfg.wwCounts w w = k
    simp only [eq_comm (a := new), eq_comm (a := old)]
    by_cases h1 : a = new <;> by_cases h2 : a = old <;> by_cases h3 : b = new <;> by_cases h4 : b = old <;>
      simp only [h1, h2, h3, h4, true_and, and_true, and_false, false_and, if_true, if_false] <;> grind
  · intro a v hv
    show inc2 _ _ _ _ a v = classWordCount _ _ (reassign s.wordToClass w new) a v
    rw [incAt_eq _ _ _ (nodup_row _ (hnd _) _ _), incAt_eq _ _ _ (nodup_row _ (hnd _) _ _)]
    unfold inc2
    simp only [addAt2_eq, List.map_map, Function.comp_def]
    have e1 := sum_contrib_word (n := cfg.vocabularySize) (w := w) (fun i => cfg.wwCounts w i) (s.wordToClass w) a v hv (-1)
    have e2 := sum_contrib_word (n := cfg.vocabularySize) (w := w) (fun i => cfg.wwCounts w i) new a v hv 1
    simp only [neg_one_mul, one_mul] at e1 e2
    rw [e1, e2, hs.cw a v hv, classWordCount_ite, classWordCount_ite, split_sum hw, split_sum hw]
    have f : ∑ i ∈ (range cfg.vocabularySize).erase w, (if reassign s.wordToClass w new i = a then cfg.wwCounts i v else 0) =
        ∑ i ∈ (range cfg.vocabularySize).erase w, (if s.wordToClass i = a then cfg.wwCounts i v else 0) :=
      sum_congr rfl (fun i hi => by rw [reassign, if_neg (ne_of_mem_erase hi)])
    rw [f, hself]
    generalize ∑ i ∈ (range cfg.vocabularySize).erase w, (if s.wordToClass i = a then cfg.wwCounts i v else 0) = R
    generalize s.wordToClass w = old
    by_cases h1 : a = new <;> by_cases h2 : a = old <;> by_cases h3 : v = w <;> grind
  · intro v b hv
    show inc2 _ _ _ _ v b = wordClassCount _ _ (reassign s.wordToClass w new) v b
    rw [incAt_eq _ _ _ (nodup_col _ (hnd _) _ _), incAt_eq _ _ _ (nodup_col _ (hnd _) _ _)]
    unfold inc2
    simp only [addAt2_eq, List.map_map, Function.comp_def]
    have e1 := sum_contrib_word' (n := cfg.vocabularySize) (w := w) (fun i => cfg.wwCounts i w) (s.wordToClass w) b v hv (-1)
    have e2 := sum_contrib_word' (n := cfg.vocabularySize) (w := w) (fun i => cfg.wwCounts i w) new b v hv 1
    simp only [neg_one_mul, one_mul] at e1 e2
    rw [e1, e2, hs.wc v b hv, wordClassCount_ite, wordClassCount_ite, split_sum hw, split_sum hw]
    have f : ∑ i ∈ (range cfg.vocabularySize).erase w, (if reassign s.wordToClass w new i = b then cfg.wwCounts v i else 0) =
        ∑ i ∈ (range cfg.vocabularySize).erase w, (if s.wordToClass i = b then cfg.wwCounts v i else 0) :=
      sum_congr rfl (fun i hi => by rw [reassign, if_neg (ne_of_mem_erase hi)])
    rw [f, hself]
    generalize ∑ i ∈ (range cfg.vocabularySize).erase w, (if s.wordToClass i = b then cfg.wwCounts v i else 0) = R
    generalize s.wordToClass w = old
    by_cases h1 : b = new <;> by_cases h2 : b = old <;> by_cases h3 : v = w <;> grind

/-- How the class pair counts change when a word is moved. -/
theorem classPairCount_move (new : Nat) (hne : cl w ≠ new) :
    let P := classPairCount n ww cl
    let P' := classPairCount n ww (reassign cl w new)
    let W := wordClassCount n ww cl w
    let V := fun a => classWordCount n ww cl a w
    let old := cl w
    (∀ x, x ≠ old → x ≠ new → P' old x = P old x - W x ∧ P' new x = P new x + W x ∧ P' x old = P x old - V x ∧
      P' x new = P x new + V x) ∧
    (∀ x y, x ≠ old → x ≠ new → y ≠ old → y ≠ new → P' x y = P x y) ∧
    P' old new = P old new - W new + V old - ww w w ∧ P' new old = P new old - V new + W old - ww w w ∧
    P' old old = P old old - W old - V old + ww w w ∧ P' new new = P new new + W new + V new + ww w w := by
  obtain ⟨_, r2, r3, r4⟩ := rest_reassign (n := n) (w := w) (fun _ => 0) ww cl new
  have hself := reassign_self (w := w) cl new
  simp only [classPairCount_split hw, wordClassCount_split hw, classWordCount_split hw, r2, r3, r4, hself]
  refine ⟨?_, ?_, ?_, ?_, ?_, ?_⟩
  · intro x h1 h2
    have h1' := h1.symm
    have h2' := h2.symm
    have hne' := hne.symm
    refine ⟨?_, ?_, ?_, ?_⟩ <;> simp [h1', h2', hne, hne']
  · intro x y h1 h2 h3 h4
    simp [h1.symm, h2.symm, h3.symm, h4.symm]
  · have hne' := hne.symm
    simp [hne, hne']; ring
  · have hne' := hne.symm
    simp [hne, hne']; ring
  · have hne' := hne.symm
    simp [hne']; ring
  · simp [hne]

theorem classCount_move (new : Nat) (hne : cl w ≠ new) :
    (∀ x, x ≠ cl w → x ≠ new → classCount n count (reassign cl w new) x = classCount n count cl x) ∧
    classCount n count (reassign cl w new) (cl w) = classCount n count cl (cl w) - count w ∧
    classCount n count (reassign cl w new) new = classCount n count cl new + count w := by
  obtain ⟨r1, _⟩ := rest_reassign (n := n) (w := w) count (fun _ _ => 0) cl new
  have hself := reassign_self (w := w) cl new
  simp only [classCount_split hw, r1, hself]
  refine ⟨?_, ?_, ?_⟩
  · intro x h1 h2; simp [h1.symm, h2.symm]
  · simp [hne.symm]
  · simp [hne]

omit hw

theorem xlogxScalar_some {x : ℤ} {y : ℝ} (h : xlogxScalar x = some y) : y = xlogx x := by
  unfold xlogxScalar at h
  split at h
  · cases h; rfl
  · cases h

theorem xlogx_zero : xlogx 0 = 0 := by simp [xlogx]

theorem xlogxSum_some {b : Backend} {xs : List ℤ} (hx : ∀ x ∈ xs, 0 ≤ x) {y : ℝ} (h : xlogxSum b xs = some y) :
    y = (xs.map xlogx).sum := by
  unfold xlogxSum at h
  cases b with
  | numpy =>
    simp only at h
    split at h
    · cases h
    · cases h
      clear * - hx
      induction xs with
      | nil => rfl
      | cons x xs ih =>
        have ih := ih (fun z hz => hx z (by simp [hz]))
        rw [List.filter_cons]
        split
        · simp only [List.map_cons, List.sum_cons, ih]; rfl
        · rename_i hn
          have h0 : x = 0 := by
            have := hx x (by simp)
            simp only [decide_eq_true_eq, not_lt] at hn
            omega
          rw [ih, h0]; simp [xlogx_zero]
  | theano =>
    simp only at h
    split at h
    · cases h
    · cases h
      congr 1
      apply List.map_congr_left
      intro x _
      split
      · rfl
      · rename_i h0
        simp only [ne_eq, not_not] at h0
        rw [h0, xlogx_zero]

theorem sumChange_some {b : Backend} {xs ys : List ℤ} (hx : ∀ x ∈ xs, 0 ≤ x) (hy : ∀ y ∈ ys, 0 ≤ y) {z : ℝ}
    (h : sumChange b xs ys = some z) : z = (ys.map xlogx).sum - (xs.map xlogx).sum := by
  unfold sumChange at h
  simp only [Option.bind_eq_bind, Option.bind_eq_some_iff] at h
  obtain ⟨p, h1, q, h2, h3⟩ := h
  rw [xlogxSum_some hx h1, xlogxSum_some hy h2] at h3
  cases h3; rfl

theorem llChange_some {b : Backend} {x y : ℤ} {z : ℝ} (h : llChange b x y = some z) : z = xlogx y - xlogx x := by
  unfold llChange at h
  cases b with
  | numpy =>
    simp only [Option.bind_eq_bind, Option.bind_eq_some_iff] at h
    obtain ⟨p, h1, q, h2, h3⟩ := h
    have e1 : p = xlogx x := by
      unfold xlogxUnlessZero at h1
      split at h1
      · exact xlogxScalar_some h1
      · rename_i h0
        simp only [ne_eq, not_not] at h0
        cases h1; rw [h0, xlogx_zero]
    have e2 : q = xlogx y := by
      unfold xlogxUnlessZero at h2
      split at h2
      · exact xlogxScalar_some h2
      · rename_i h0
        simp only [ne_eq, not_not] at h0
        cases h2; rw [h0, xlogx_zero]
    cases h3; rw [e1, e2]
  | theano =>
    simp only [Option.bind_eq_bind, Option.bind_eq_some_iff] at h
    obtain ⟨p, h1, q, h2, h3⟩ := h
    cases h3; rw [xlogxScalar_some h1, xlogxScalar_some h2]

theorem classPairCount_nonneg (hww : ∀ i j, 0 ≤ ww i j) (a b : Nat) : 0 ≤ classPairCount n ww cl a b :=
  sum_nonneg (fun _ _ => sum_nonneg (fun _ _ => hww _ _))

theorem classCount_nonneg (hc : ∀ i, 0 ≤ count i) (a : Nat) : 0 ≤ classCount n count cl a :=
  sum_nonneg (fun _ _ => hc _)

theorem sum_iter (cfg : OptCfg) (old new : Nat) (f : Nat → ℝ) :
    ((iterClassIds cfg old new).map f).sum = ∑ c ∈ range cfg.numClasses with (c ≠ old ∧ c ≠ new), f c := by
  unfold iterClassIds
  have : ∀ l : List Nat, ((l.filter (fun c => decide (c ≠ old ∧ c ≠ new))).map f).sum =
      (l.map (fun i => if i ≠ old ∧ i ≠ new then f i else 0)).sum := by
    intro l
    induction l with
    | nil => rfl
    | cons x l ih =>
      rw [List.filter_cons]
      split
      · rename_i h
        simp only [decide_eq_true_eq] at h
        rw [List.map_cons, List.sum_cons, ih, List.map_cons, List.sum_cons, if_pos h]
      · rename_i h
        simp only [decide_eq_true_eq] at h
        rw [ih, List.map_cons, List.sum_cons, if_neg h, zero_add]
  rw [this, sum_filter]; rfl

theorem split_two {C old new : Nat} (ho : old < C) (hn : new < C) (hne : old ≠ new) (f : Nat → ℝ) :
    ∑ c ∈ range C, f c = f old + f new + ∑ c ∈ range C with (c ≠ old ∧ c ≠ new), f c := by
  rw [← add_sum_erase _ _ (mem_range.mpr ho), ← add_sum_erase ((range C).erase old) f (a := new)
    (mem_erase.mpr ⟨hne.symm, mem_range.mpr hn⟩), ← add_assoc]
  congr 1
  apply sum_congr _ (fun _ _ => rfl)
  ext c
  simp only [mem_erase, mem_filter, mem_range]
  tauto

/-- The value of `_evaluate` is the change of the log likelihood. -/
theorem evaluate_some {cfg : OptCfg} {s : OptSt} {w new : Nat} (hs : ExactCounts cfg s) (hw : w < cfg.vocabularySize)
    (hww : ∀ i j, 0 ≤ cfg.wwCounts i j) (ho : s.wordToClass w < cfg.numClasses) (hnew : new < cfg.numClasses)
    (hne : s.wordToClass w ≠ new) {d : ℝ} (h : evaluate cfg s w new = some d) :
    d = classLL cfg.vocabularySize cfg.numClasses cfg.wordCounts cfg.wwCounts (reassign s.wordToClass w new) -
      classLL cfg.vocabularySize cfg.numClasses cfg.wordCounts cfg.wwCounts s.wordToClass := by
  unfold evaluate at h
  simp only [Option.bind_eq_bind, Option.bind_eq_some_iff] at h
  obtain ⟨a1, h1, a2, h2, a3, h3, a4, h4, b1, k1, b2, k2, b3, k3, b4, k4, c1, l1, c2, l2, c3, l3, c4, l4, hd⟩ := h
  obtain ⟨p1, p2, p3, p4, p5, p6⟩ := classPairCount_move hw cfg.wwCounts s.wordToClass new hne
  obtain ⟨q1, q2, q3⟩ := classCount_move hw cfg.wordCounts s.wordToClass new hne
  simp only [hs.cc, hs.cls, hs.cw _ w hw, hs.wc w _ hw] at *
  have nn := classPairCount_nonneg (n := cfg.vocabularySize) cfg.wwCounts s.wordToClass hww
  have nn' := classPairCount_nonneg (n := cfg.vocabularySize) cfg.wwCounts (reassign s.wordToClass w new) hww
  have hmem : ∀ x ∈ iterClassIds cfg (s.wordToClass w) new, x ≠ s.wordToClass w ∧ x ≠ new := by
    intro x hx
    simpa using (List.mem_filter.mp hx).2
  rw [List.map_congr_left (fun x hx => (p1 x (hmem x hx).1 (hmem x hx).2).1.symm)] at k1
  rw [List.map_congr_left (fun x hx => (p1 x (hmem x hx).1 (hmem x hx).2).2.1.symm)] at k2
  rw [List.map_congr_left (fun x hx => (p1 x (hmem x hx).1 (hmem x hx).2).2.2.1.symm)] at k3
  rw [List.map_congr_left (fun x hx => (p1 x (hmem x hx).1 (hmem x hx).2).2.2.2.symm)] at k4
  have nl : ∀ (f : Nat → ℤ) (hf : ∀ x, 0 ≤ f x) (l : List Nat), ∀ y ∈ l.map f, 0 ≤ y := by
    intro f hf l y hy
    obtain ⟨x, _, rfl⟩ := List.mem_map.mp hy
    exact hf x
  replace k1 := sumChange_some (nl _ (fun x => nn _ x) _) (nl _ (fun x => nn' _ x) _) k1
  replace k2 := sumChange_some (nl _ (fun x => nn _ x) _) (nl _ (fun x => nn' _ x) _) k2
  replace k3 := sumChange_some (nl _ (fun x => nn x _) _) (nl _ (fun x => nn' x _) _) k3
  replace k4 := sumChange_some (nl _ (fun x => nn x _) _) (nl _ (fun x => nn' x _) _) k4
  simp only [List.map_map, sum_iter, Function.comp] at k1 k2 k3 k4
  rw [← p3] at l1
  rw [← p4] at l2
  rw [← p5] at l3
  rw [← p6] at l4
  rw [← q2] at h2
  rw [← q3] at h4
  replace l1 := llChange_some l1
  replace l2 := llChange_some l2
  replace l3 := llChange_some l3
  replace l4 := llChange_some l4
  replace h1 := xlogxScalar_some h1
  replace h2 := xlogxScalar_some h2
  replace h3 := xlogxScalar_some h3
  replace h4 := xlogxScalar_some h4
  unfold classLL
  rw [split_two ho hnew hne (fun a => ∑ b ∈ range cfg.numClasses, xlogx (classPairCount _ _ (reassign s.wordToClass w new) a b)),
    split_two ho hnew hne (fun a => ∑ b ∈ range cfg.numClasses, xlogx (classPairCount _ _ s.wordToClass a b)),
    split_two ho hnew hne (fun c => xlogx (classCount _ _ (reassign s.wordToClass w new) c)),
    split_two ho hnew hne (fun c => xlogx (classCount _ _ s.wordToClass c))]
  simp only [split_two ho hnew hne (fun b => xlogx (classPairCount _ _ (reassign s.wordToClass w new) _ b)),
    split_two ho hnew hne (fun b => xlogx (classPairCount _ _ s.wordToClass _ b)), sum_add_distrib]
  have eC : ∑ c ∈ range cfg.numClasses with (c ≠ s.wordToClass w ∧ c ≠ new),
      xlogx (classCount cfg.vocabularySize cfg.wordCounts (reassign s.wordToClass w new) c) =
      ∑ c ∈ range cfg.numClasses with (c ≠ s.wordToClass w ∧ c ≠ new),
      xlogx (classCount cfg.vocabularySize cfg.wordCounts s.wordToClass c) := by
    apply sum_congr rfl
    intro c hc
    have := (mem_filter.mp hc).2
    rw [q1 c this.1 this.2]
  have eX : ∑ a ∈ range cfg.numClasses with (a ≠ s.wordToClass w ∧ a ≠ new),
      ∑ b ∈ range cfg.numClasses with (b ≠ s.wordToClass w ∧ b ≠ new),
        xlogx (classPairCount cfg.vocabularySize cfg.wwCounts (reassign s.wordToClass w new) a b) =
      ∑ a ∈ range cfg.numClasses with (a ≠ s.wordToClass w ∧ a ≠ new),
      ∑ b ∈ range cfg.numClasses with (b ≠ s.wordToClass w ∧ b ≠ new),
        xlogx (classPairCount cfg.vocabularySize cfg.wwCounts s.wordToClass a b) := by
    apply sum_congr rfl
    intro a ha
    apply sum_congr rfl
    intro b hb
    have h5 := (mem_filter.mp ha).2
    have h6 := (mem_filter.mp hb).2
    rw [p2 a b h5.1 h5.2 h6.1 h6.2]
  rw [eC, eX]
  simp only [Option.some.injEq] at hd
  rw [← hd, h1, h2, h3, h4, k1, k2, k3, k4, l1, l2, l3, l4]
  ring

end TheanoLM
