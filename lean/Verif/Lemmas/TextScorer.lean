import Verif.Props.TextScorerSpec
import Verif.Props.PrepareBatch
/-!
# Lemmas about text scoring
-/
set_option linter.unusedSectionVars false

namespace TheanoLM

/-! ## Matrices -/

theorem zipIdx_map_range (k : Nat) (g : Nat → α) : ((List.range k).map g).zipIdx = (List.range k).map (fun i => (g i, i)) := by
  apply List.ext_getElem <;> simp

theorem zip_map_range (k : Nat) (g : Nat → α) (h : Nat → β) :
    ((List.range k).map g).zip ((List.range k).map h) = (List.range k).map (fun i => (g i, h i)) := by
  apply List.ext_getElem <;> simp

theorem table_tail (rows cols : Nat) (f : Nat → Nat → α) : (table (rows + 1) cols f).tail = table rows cols (fun t i => f (t + 1) i) := by
  unfold table
  rw [List.range_succ_eq_map]
  simp [Function.comp_def]

theorem table_dropLast (rows cols : Nat) (f : Nat → Nat → α) : (table (rows + 1) cols f).dropLast = table rows cols f := by
  unfold table
  rw [List.range_succ]
  simp

theorem table_map (rows cols : Nat) (f : Nat → Nat → α) (g : α → β) :
    (table rows cols f).map (·.map g) = table rows cols (fun t i => g (f t i)) := by
  simp [table, Function.comp_def]

theorem table_congr {rows cols : Nat} {f g : Nat → Nat → α} (h : ∀ t i, t < rows → i < cols → f t i = g t i) :
    table rows cols f = table rows cols g := by
  unfold table
  apply List.map_congr_left
  intro t ht
  apply List.map_congr_left
  intro i hi
  exact h t i (List.mem_range.mp ht) (List.mem_range.mp hi)

/-- Every rectangular matrix is a table. -/
theorem table_of_shape [Inhabited α] {m : List (List α)} {rows cols : Nat} (h : m.length = rows ∧ ∀ r ∈ m, r.length = cols) :
    m = table rows cols (fun t i => (m.getD t []).getD i default) := by
  obtain ⟨h1, h2⟩ := h
  apply List.ext_getElem
  · simp [table, h1]
  · intro t ht ht'
    simp only [table, List.getElem_map, List.getElem_range]
    have hr := h2 m[t] (List.getElem_mem ht)
    apply List.ext_getElem
    · simp [hr]
    · intro i hi hi'
      simp [ht, hi]

theorem table_flatten (rows cols : Nat) (f : Nat → Nat → α) :
    (table rows cols f).flatten = ((List.range rows).flatMap (fun t => (List.range cols).map (fun i => (t, i)))).map
      (fun p => f p.1 p.2) := by
  rw [List.map_flatMap, table, ← List.flatMap_def]
  simp [Function.comp_def]

theorem table_column (rows cols : Nat) (f : Nat → Nat → α) (i : Nat) (hi : i < cols) :
    (table rows cols f).filterMap (·[i]?) = (List.range rows).map (fun t => f t i) := by
  unfold table
  rw [List.filterMap_map]
  rw [← List.filterMap_eq_map]
  apply List.filterMap_congr
  intro t _
  simp [hi]

theorem mapE_of_map {γ : Type} {f : β → Except Err γ} {g : α → β} {h : α → γ} {l : List α}
    (H : ∀ a ∈ l, f (g a) = .ok (h a)) : mapE f (l.map g) = .ok (l.map h) := by
  induction l with
  | nil => rfl
  | cons a as ih =>
    simp only [List.map_cons, mapE, H a List.mem_cons_self, ih (fun x hx => H x (List.mem_cons_of_mem _ hx))]

/-! ## Floating point numbers -/

namespace Flt
variable {S : Type}

theorem add_zero' [AddMonoid S] (x : Flt S) : x.add (.fin 0) = x := by cases x <;> simp [add]

theorem zero_add' [AddMonoid S] (x : Flt S) : (Flt.fin 0 : Flt S).add x = x := by cases x <;> simp [add]

theorem add_assoc' [AddMonoid S] (x y z : Flt S) : (x.add y).add z = x.add (y.add z) := by
  cases x <;> cases y <;> cases z <;> simp [add, _root_.add_assoc]

theorem foldl_add [AddMonoid S] (l : List (Flt S)) (x : Flt S) : l.foldl add x = x.add (sum l) := by
  induction l generalizing x with
  | nil => exact (add_zero' x).symm
  | cons a l ih =>
    have e : sum (a :: l) = a.add (sum l) := by
      rw [sum, List.foldl_cons, ih, zero_add']
    rw [List.foldl_cons, ih, e, add_assoc']

theorem sum_cons [AddMonoid S] (a : Flt S) (l : List (Flt S)) : sum (a :: l) = a.add (sum l) := by
  rw [sum, List.foldl_cons, foldl_add, zero_add']

theorem sum_filter [AddMonoid S] (l : List α) (p : α → Bool) (f : α → Flt S) :
    sum (l.map (fun a => if p a = true then f a else .fin 0)) = sum ((l.filter p).map f) := by
  induction l with
  | nil => rfl
  | cons a l ih =>
    rw [List.map_cons, sum_cons, ih, List.filter_cons]
    split
    · rw [List.map_cons, sum_cons]
    · rw [zero_add']

theorem add_eq_fin [Add S] {x y : Flt S} {c : S} (h : x.add y = .fin c) : ∃ a b, x = .fin a ∧ y = .fin b ∧ c = a + b := by
  cases x <;> cases y <;> simp [add] at h
  exact ⟨_, _, rfl, rfl, h.symm⟩

theorem sum_eq_fin [AddMonoid S] {l : List (Flt S)} {c : S} :
    sum l = .fin c ↔ ∃ xs : List S, l = xs.map .fin ∧ c = xs.sum := by
  constructor
  · intro h
    induction l generalizing c with
    | nil => refine ⟨[], rfl, ?_⟩; simp [sum] at h; simp [h]
    | cons a l ih =>
      rw [sum_cons] at h
      obtain ⟨x, y, rfl, hy, rfl⟩ := add_eq_fin h
      obtain ⟨xs, rfl, rfl⟩ := ih hy
      exact ⟨x :: xs, rfl, by simp⟩
  · rintro ⟨xs, rfl, rfl⟩
    induction xs with
    | nil => rfl
    | cons a l ih => rw [List.map_cons, sum_cons, ih]; simp [add]

end Flt

theorem checkLogprob_ok {S : Type} [Zero S] [LinearOrder S] {x y : Flt S} :
    checkLogprob x = .ok y ↔ x = y ∧ ∃ a, x = .fin a ∧ a ≤ 0 := by
  unfold checkLogprob
  cases x <;> simp [Flt.isPos]
  split
  · rename_i h
    simp [not_le.mpr h]
  · rename_i h
    simp [not_lt.mp h]

/-! ## Scores -/

section
variable {S : Type}

theorem classMembership_memberOf {P : Parsers} {v : Vocab} (h : Constructible P v) (id : Nat) :
    v.classMembership id = .ok (memberOf v id) := by
  obtain ⟨c, p, hc, _⟩ := C08_any_id P v h id
  simp [memberOf, hc]

/-- The element of a mini-batch. -/
def MiniBatch.cellAt (b : MiniBatch) (v : Vocab) (t i : Nat) : Cell :=
  ⟨b.word t i, (memberOf v (b.word t i)).1, (memberOf v (b.word t i)).2, b.mask t i⟩

theorem cells_table {P : Parsers} {sc : Scorer S} (h : sc.Proper P) (b : MiniBatch) :
    sc.cells b.matrices.1 b.matrices.2 = .ok (table (b.steps + 1) b.n (b.cellAt sc.vocab)) := by
  unfold Scorer.cells MiniBatch.matrices table
  simp only
  rw [zip_map_range]
  apply mapE_of_map
  intro t _
  simp only
  rw [zip_map_range]
  apply mapE_of_map
  intro i _
  simp only [classMembership_memberOf h.vocab, MiniBatch.cellAt]

theorem predict_table {P : Parsers} {sc : Scorer S} (_h : sc.Proper P) (b : MiniBatch) (t i : Nat) :
    sc.predict (table (b.steps + 1) b.n (b.cellAt sc.vocab)) t i = sc.networkScore b t i := by
  unfold Scorer.predict Scorer.networkScore
  rw [table_dropLast, table_tail]
  simp only [table_map]
  simp only [MiniBatch.cellAt]
  congr 1
  congr 1
  funext t i
  by_cases hw : b.word t i < sc.vocab.numShortlist
  · rw [if_pos hw]; exact if_neg (not_le.mpr hw)
  · rw [if_neg hw]; exact if_pos (not_lt.mp hw)

theorem oosProbs_isSome (v : Vocab) : v.oosProbs = none ↔ v.unigram = none := by
  unfold Vocab.oosProbs
  cases v.unigram <;> simp

theorem oosLogprobs_isSome (sc : Scorer S) : sc.oosLogprobs.isSome = true ↔ sc.vocab.unigram ≠ none := by
  unfold Scorer.oosLogprobs
  rw [Option.isSome_map, ← Option.ne_none_iff_isSome, ne_eq, oosProbs_isSome]

theorem oosProbs_length {v : Vocab} {n : Nat} {ps : List ℚ} (hv : VInv v n ps) {r : List (Option ℚ)}
    (h : v.oosProbs = some r) : r.length = v.numWords := by
  unfold Vocab.oosProbs at h
  cases hu : v.unigram with
  | none => rw [hu] at h; simp at h
  | some u =>
    rw [hu] at h
    simp only [Option.some.injEq] at h
    subst h
    have := hv.uni u hu
    have := hv.short
    simp only [List.length_append, List.length_map, List.length_take, List.length_drop]
    unfold Vocab.numWords Vocab.numShortlist
    omega

theorem cellLogprob_ok [Add S] {P : Parsers} {sc : Scorer S} (h : sc.Proper P) (b : MiniBatch) (hb : b.Valid sc.vocab) (t i : Nat)
    (ht : t < b.steps) (hi : i < b.n) :
    ∃ x, sc.cellLogprob (sc.networkScore b t i) (b.cellAt sc.vocab (t + 1) i) = .ok x ∧ sc.WordScore b t i x := by
  obtain ⟨n, ps, hv⟩ := h.vocab.inv
  unfold Scorer.cellLogprob Scorer.WordScore
  by_cases hu : sc.UsesShortlist
  · obtain ⟨h1, h2⟩ := hu
    have h3 := h2
    rw [ne_eq, ← oosProbs_isSome] at h3
    obtain ⟨r, hr⟩ := Option.ne_none_iff_exists'.mp h3
    have hlen := oosProbs_length hv hr
    have hw := hb.word (t + 1) i ht hi
    rw [← hlen] at hw
    refine ⟨_, ?_, fun hn => absurd ⟨h1, h2⟩ hn, fun _ => ⟨r, r[b.word (t + 1) i], hr, List.getElem?_eq_getElem hw, rfl⟩⟩
    simp only [h1, Scorer.oosLogprobs, hr, Option.map_some, MiniBatch.cellAt, List.getElem?_map, List.getElem?_eq_getElem hw]
    cases r[b.word (t + 1) i] <;> rfl
  · refine ⟨_, ?_, fun _ => rfl, fun hn => absurd hn hu⟩
    unfold Scorer.UsesShortlist at hu
    cases h1 : sc.useShortlist with
    | false => rfl
    | true =>
      have h2 : sc.oosLogprobs = none := by
        cases hc : sc.oosLogprobs with
        | none => rfl
        | some o =>
          exfalso; apply hu
          exact ⟨h1, (oosLogprobs_isSome sc).mp (by simp [hc])⟩
      simp only [h2, MiniBatch.cellAt]

theorem targetLogprobs_table [Add S] {P : Parsers} {sc : Scorer S} (h : sc.Proper P) (b : MiniBatch) (hb : b.Valid sc.vocab) :
    ∃ f : Nat → Nat → Flt S, (∀ t i, t < b.steps → i < b.n → sc.WordScore b t i (f t i)) ∧
      sc.targetLogprobs (table (b.steps + 1) b.n (b.cellAt sc.vocab)) =
        .ok (table b.steps b.n (fun t i => (b.cellAt sc.vocab (t + 1) i, f t i))) := by
  have hall : ∀ t i, ∃ x, t < b.steps → i < b.n →
      sc.cellLogprob (sc.networkScore b t i) (b.cellAt sc.vocab (t + 1) i) = .ok x ∧ sc.WordScore b t i x := by
    intro t i
    by_cases ht : t < b.steps
    · by_cases hi : i < b.n
      · obtain ⟨x, hx⟩ := cellLogprob_ok h b hb t i ht hi
        exact ⟨x, fun _ _ => hx⟩
      · exact ⟨.nan, fun _ h => absurd h hi⟩
    · exact ⟨.nan, fun h => absurd h ht⟩
  choose f hf using hall
  refine ⟨f, fun t i ht hi => (hf t i ht hi).2, ?_⟩
  unfold Scorer.targetLogprobs
  rw [table_tail]
  have e : (table b.steps b.n (fun t i => b.cellAt sc.vocab (t + 1) i)).zipIdx = (List.range b.steps).map
      (fun t => ((List.range b.n).map (fun i => b.cellAt sc.vocab (t + 1) i), t)) := zipIdx_map_range _ _
  rw [e]
  conv_rhs => rw [table]
  apply mapE_of_map
  intro t ht
  simp only
  rw [zipIdx_map_range]
  apply mapE_of_map
  intro i hi
  simp only [predict_table h b, (hf t i (List.mem_range.mp ht) (List.mem_range.mp hi)).1]

theorem cellMask_iff {sc : Scorer S} (c : Cell) (hm : c.mask = 0 ∨ c.mask = 1) :
    (sc.cellMask c = 1 ∨ sc.cellMask c = 0) ∧ (sc.cellMask c = 1 ↔ c.mask = 1 ∧ ¬ sc.Excluded c.wordId) := by
  unfold Scorer.cellMask Scorer.Excluded
  have hu : sc.useShortlist = true ∧ sc.oosLogprobs.isSome = true ↔ sc.UsesShortlist := by
    rw [oosLogprobs_isSome]; rfl
  by_cases h1 : sc.UsesShortlist
  · rw [if_pos (hu.mpr h1), if_pos h1]
    by_cases h2 : c.wordId = sc.unkId
    · simp [h2]
    · simp only [ne_eq, h2, not_false_eq_true, if_true, mul_one, and_true]
      exact hm.symm
  · rw [if_neg (fun h => h1 (hu.mp h)), if_neg h1]
    by_cases h3 : sc.excludeUnk = true
    · rw [if_pos h3]
      by_cases h2 : c.wordId = sc.unkId
      · simp [h2, h3]
      · by_cases h4 : c.wordId < sc.vocab.numShortlist
        · simp only [ne_eq, h2, not_false_eq_true, if_true, mul_one, h4, h3, true_and, false_or, not_le, and_true]
          exact hm.symm
        · simp [h4, h3, not_lt.mp h4]
    · rw [if_neg h3]
      simp only [h3]
      simp only [Bool.false_eq_true, false_and, not_false_eq_true, and_true]
      exact hm.symm

theorem totalMask_iff {sc : Scorer S} (b : MiniBatch) (hb : b.Valid sc.vocab) (t i : Nat) (ht : t < b.steps) (hi : i < b.n) :
    sc.totalMask (b.cellAt sc.vocab (t + 1) i) = if sc.Included b t i then 1 else 0 := by
  obtain ⟨h1, h2⟩ := cellMask_iff (sc := sc) (b.cellAt sc.vocab (t + 1) i) (hb.mask (t + 1) i ht hi)
  unfold Scorer.totalMask
  by_cases hp : (memberOf sc.vocab (b.word (t + 1) i)).2 = 0
  · have e : ¬ sc.Included b t i := fun h => h.2.2 hp
    have e' : ¬ (b.cellAt sc.vocab (t + 1) i).prob ≠ 0 := not_not.mpr hp
    rw [if_neg e, if_neg e', mul_zero]
  · have e : (b.cellAt sc.vocab (t + 1) i).prob ≠ 0 := hp
    rw [if_pos e, mul_one]
    simp only [MiniBatch.cellAt] at h2
    split
    · rename_i h; exact h2.mpr ⟨h.1, h.2.1⟩
    · rename_i h
      rcases h1 with h1 | h1
      · exact absurd ⟨(h2.mp h1).1, (h2.mp h1).2, hp⟩ h
      · exact h1

theorem mem_positions {b : MiniBatch} {p : Nat × Nat} (h : p ∈ b.positions) : p.1 < b.steps ∧ p.2 < b.n := by
  unfold MiniBatch.positions at h
  obtain ⟨t, ht, hp⟩ := List.mem_flatMap.mp h
  obtain ⟨i, hi, rfl⟩ := List.mem_map.mp hp
  exact ⟨List.mem_range.mp ht, List.mem_range.mp hi⟩

theorem totalLogprob_batch [AddMonoid S] {P : Parsers} {sc : Scorer S} (h : sc.Proper P) (b : MiniBatch)
    (hb : b.Valid sc.vocab) :
    ∃ xs, sc.IncludedScores b xs ∧
      sc.totalLogprob (table (b.steps + 1) b.n (b.cellAt sc.vocab)) = .ok (Flt.sum xs, xs.length) := by
  obtain ⟨f, hf, he⟩ := targetLogprobs_table h b hb
  refine ⟨(b.positions.filter (fun p => decide (sc.Included b p.1 p.2))).map (fun p => f p.1 p.2), ?_, ?_⟩
  · unfold Scorer.IncludedScores
    rw [List.forall₂_map_right_iff, List.forall₂_same]
    intro p hp
    obtain ⟨h1, h2⟩ := mem_positions (List.mem_filter.mp hp).1
    exact hf _ _ h1 h2
  · unfold Scorer.totalLogprob
    rw [he]
    simp only [table_flatten, List.map_map, Function.comp_def]
    have e1 : ∀ p ∈ b.positions, sc.totalMask (b.cellAt sc.vocab (p.1 + 1) p.2) =
        if sc.Included b p.1 p.2 then 1 else 0 := by
      intro p hp
      obtain ⟨h1, h2⟩ := mem_positions hp
      exact totalMask_iff b hb _ _ h1 h2
    congr 2
    · rw [← Flt.sum_filter]
      congr 1
      apply List.map_congr_left
      intro p hp
      rw [e1 p hp]
      by_cases hi : sc.Included b p.1 p.2 <;> simp [hi]
    · rw [List.length_map]
      unfold MiniBatch.positions at e1
      rw [List.map_congr_left e1]
      change (b.positions.map _).sum = _
      generalize b.positions = l
      induction l with
      | nil => rfl
      | cons a l ih =>
        rw [List.map_cons, List.sum_cons, ih, List.filter_cons]
        by_cases hi : sc.Included b a.1 a.2
        · simp [hi]; omega
        · simp [hi]

theorem mulMask_one [Semiring S] (x : Flt S) : x.mulMask 1 = x := by cases x <;> simp [Flt.mulMask]

theorem scoreBatch_spec [Semiring S] {P : Parsers} {sc : Scorer S} (h : sc.Proper P) (b : MiniBatch)
    (hb : b.Valid sc.vocab) :
    ∃ r, sc.scoreBatch (table (b.steps + 1) b.n (b.cellAt sc.vocab)) = .ok r ∧ r.length = b.n ∧
      ∀ i ys, r[i]? = some ys → sc.SequenceScores b i ys := by
  obtain ⟨f, hf, he⟩ := targetLogprobs_table h b hb
  unfold Scorer.scoreBatch
  rw [he]
  have hn : numColumns (table (b.steps + 1) b.n (b.cellAt sc.vocab)) = b.n := by
    unfold numColumns table; rw [List.range_succ_eq_map]; simp
  refine ⟨_, rfl, ?_, ?_⟩
  · simp only [List.length_map, List.length_range]; exact hn
  · intro i ys hy
    simp only [hn, List.getElem?_map] at hy
    obtain ⟨i', hi', rfl⟩ := Option.map_eq_some_iff.mp hy
    obtain ⟨hlt, rfl⟩ := List.getElem?_eq_some_iff.mp hi'
    simp only [List.length_range] at hlt
    simp only [List.getElem_range]
    rw [table_column _ _ _ _ hlt]
    unfold Scorer.SequenceScores Scorer.sequenceScores
    rw [List.filter_map, List.map_map, List.forall₂_map_right_iff]
    simp only [Function.comp_def]
    have : (fun t => decide ((b.cellAt sc.vocab (t + 1) i).mask = 1)) = fun t => decide (b.mask (t + 1) i = 1) := rfl
    rw [this, List.forall₂_same]
    intro t ht
    obtain ⟨ht, hm⟩ := List.mem_filter.mp ht
    have ht := List.mem_range.mp ht
    have hm : b.mask (t + 1) i = 1 := by simpa using hm
    obtain ⟨h1, h2⟩ := cellMask_iff (sc := sc) (b.cellAt sc.vocab (t + 1) i) (hb.mask (t + 1) i ht hlt)
    by_cases hx : sc.Excluded (b.word (t + 1) i)
    · refine ⟨fun _ => ?_, fun hn => absurd hx hn⟩
      rw [if_neg]
      rw [h2]
      exact fun hn => hn.2 hx
    · refine ⟨fun hn => absurd hn hx, fun _ => ⟨f t i, ?_, hf t i ht hlt⟩⟩
      rw [if_pos (h2.mpr ⟨hm, hx⟩), h2.mpr ⟨hm, hx⟩, mulMask_one]

end

end TheanoLM
