import Verif.Model.Statistics
import Verif.Props.Vocabulary
import Mathlib.Algebra.BigOperators.Group.Finset.Basic
import Mathlib.Algebra.BigOperators.Group.Finset.Piecewise
/-!
# Lemmas about corpus statistics
-/
namespace TheanoLM

/-! ## compute_word_counts -/

theorem dictGet?_set [DecidableEq κ] (d : List (κ × β)) (k k' : κ) (x : β) :
    dictGet? (dictSet d k x) k' = if k' = k then some x else dictGet? d k' := by
  unfold dictSet
  split
  · rename_i h
    induction d with
    | nil => simp at h
    | cons p ps ih =>
      rw [List.map_cons, dictGet?_cons, dictGet?_cons]
      by_cases hp : p.1 = k
      · simp only [if_pos hp]
        by_cases hk : k' = k
        · simp [hk]
        · have : k ≠ k' := fun h => hk h.symm
          have h2 : p.1 ≠ k' := by rw [hp]; exact this
          simp only [if_neg this, if_neg h2, if_neg hk]
          by_cases hany : ps.any (fun p => decide (p.1 = k)) = true
          · rw [ih hany, if_neg hk]
          · congr 1
            have : ps.map (fun p => if p.1 = k then (k, x) else p) = ps := by
              conv_rhs => rw [← List.map_id ps]
              apply List.map_congr_left
              intro q hq
              have : q.1 ≠ k := by
                intro h
                apply hany
                rw [List.any_eq_true]
                exact ⟨q, hq, by simpa using h⟩
              simp [this]
            rw [this]
      · simp only [if_neg hp]
        have hany : ps.any (fun p => decide (p.1 = k)) = true := by simpa [hp] using h
        by_cases hk : p.1 = k'
        · have h3 : k' ≠ k := by rw [← hk]; exact hp
          simp [hk, h3]
        · simp only [if_neg hk]
          exact ih hany
  · rename_i h
    have hn : dictGet? d k = none := by
      unfold dictGet?
      rw [Option.map_eq_none_iff, List.find?_eq_none]
      intro p hp hk
      exact h (List.any_eq_true.mpr ⟨p, hp, hk⟩)
    clear h
    induction d with
    | nil =>
      rw [List.nil_append, dictGet?_cons]
      by_cases hk : k' = k
      · simp [hk]
      · have : k ≠ k' := fun h => hk h.symm
        simp [hk, this]
    | cons p ps ih =>
      rw [dictGet?_cons] at hn
      rw [List.cons_append, dictGet?_cons, dictGet?_cons]
      by_cases hp : p.1 = k
      · simp [hp] at hn
      · rw [if_neg hp] at hn
        rw [ih hn]
        by_cases hk : p.1 = k'
        · have h3 : k' ≠ k := by rw [← hk]; exact hp
          simp [hk, h3]
        · simp [hk]

theorem dictSet_keys [DecidableEq κ] (d : List (κ × β)) (k : κ) (x : β) (h : (d.map Prod.fst).Nodup) :
    ((dictSet d k x).map Prod.fst).Nodup := by
  unfold dictSet
  split
  · have : (d.map (fun p => if p.1 = k then (k, x) else p)).map Prod.fst = d.map Prod.fst := by
      rw [List.map_map]
      apply List.map_congr_left
      intro p _
      simp only [Function.comp]
      split
      · rename_i h; exact h.symm
      · rfl
    rw [this]; exact h
  · rename_i hn
    rw [List.map_append, List.nodup_append]
    refine ⟨h, by simp, ?_⟩
    intro a ha b hb hab
    simp only [List.map_cons, List.map_nil, List.mem_singleton] at hb
    obtain ⟨p, hp, rfl⟩ := List.mem_map.mp ha
    exact hn (List.any_eq_true.mpr ⟨p, hp, by simp [hab, hb]⟩)

/-- The invariant of counting: after reading the words `ws`. -/
structure CountInv (d : List (Str × Nat)) (ws : List Str) : Prop where
  keys : (d.map Prod.fst).Nodup
  get : ∀ w, dictGet? d w = if ws.count w = 0 then none else some (ws.count w)

theorem countInv_word {d : List (Str × Nat)} {ws : List Str} (h : CountInv d ws) (w : Str) :
    CountInv (countWord d w) (ws ++ [w]) := by
  unfold countWord
  have hg := h.get w
  by_cases hc : ws.count w = 0
  · rw [if_pos hc] at hg
    rw [hg]
    refine ⟨dictSet_keys _ _ _ h.keys, ?_⟩
    intro w'
    rw [dictGet?_set, List.count_append, h.get w']
    by_cases hw : w' = w
    · subst hw; simp [hc]
    · have : w ≠ w' := fun h => hw h.symm
      simp [hw, this]
  · rw [if_neg hc] at hg
    rw [hg]
    refine ⟨dictSet_keys _ _ _ h.keys, ?_⟩
    intro w'
    rw [dictGet?_set, List.count_append, h.get w']
    by_cases hw : w' = w
    · subst hw; simp
    · have : w ≠ w' := fun h => hw h.symm
      simp [hw, this]

theorem countInv_words {ws : List Str} (us : List Str) {d : List (Str × Nat)} (h : CountInv d ws) :
    CountInv (us.foldl countWord d) (ws ++ us) := by
  induction us generalizing d ws with
  | nil => simpa using h
  | cons u us ih =>
    have := ih (countInv_word h u)
    rwa [List.append_assoc, List.singleton_append] at this

theorem countInv_lines {ws : List Str} (ls : List Str) {d : List (Str × Nat)} (h : CountInv d ws) :
    CountInv (ls.foldl (fun result line => (utterance line).foldl countWord result) d)
      (ws ++ (ls.map utterance).flatten) := by
  induction ls generalizing d ws with
  | nil => simpa using h
  | cons l ls ih =>
    have := ih (countInv_words (utterance l) h)
    rwa [List.append_assoc] at this

theorem countInv_files {ws : List Str} (fs : List (List Str)) {d : List (Str × Nat)} (h : CountInv d ws) :
    CountInv (fs.foldl (fun result file => file.foldl (fun result line =>
        (utterance line).foldl countWord result) result) d) (ws ++ (fs.flatten.map utterance).flatten) := by
  induction fs generalizing d ws with
  | nil => simpa using h
  | cons f fs ih =>
    have := ih (countInv_lines f h)
    rwa [List.append_assoc, ← List.flatten_append, ← List.map_append] at this

theorem computeWordCounts_inv (files : List (List Str)) :
    CountInv (computeWordCounts files) (files.flatten.map utterance).flatten := by
  have : CountInv [] [] := ⟨by simp, by intro w; rfl⟩
  have := countInv_files files this
  rwa [List.nil_append] at this

/-! ## BigramStatistics -/

/-- Number of adjacent elements `a`, `b` in a list. -/
def pairCount [DecidableEq α] (a b : α) : List α → Nat
  | [] => 0
  | [_] => 0
  | x :: y :: l => (if x = a ∧ y = b then 1 else 0) + pairCount a b (y :: l)

theorem foldl_inc1 (s : List Nat) (u : Nat → ℤ) (a : Nat) :
    s.foldl (fun u i => inc1 u i 1) u a = u a + s.count a := by
  induction s generalizing u with
  | nil => simp
  | cons i s ih =>
    rw [List.foldl_cons, ih, List.count_cons]
    unfold inc1
    by_cases h : a = i
    · subst h; simp; ring
    · have : i ≠ a := fun h' => h h'.symm
      simp [h, this]

theorem foldl_inc2 (s : List Nat) (m : Nat → Nat → ℤ) (a b : Nat) :
    (s.dropLast.zip s.tail).foldl (fun m p => inc2 m p.1 p.2 1) m a b = m a b + pairCount a b s := by
  induction s generalizing m with
  | nil => simp [pairCount]
  | cons x s ih =>
    cases s with
    | nil => simp [pairCount]
    | cons y s =>
      have e : (x :: y :: s).dropLast.zip (x :: y :: s).tail = (x, y) :: (y :: s).dropLast.zip (y :: s).tail := rfl
      rw [e, List.foldl_cons, ih, pairCount]
      unfold inc2
      by_cases h : x = a ∧ y = b
      · obtain ⟨rfl, rfl⟩ := h
        simp; ring
      · have h' : ¬ (a = x ∧ b = y) := fun hh => h ⟨hh.1.symm, hh.2.symm⟩
        simp [h, h']

/-- Statistics of a list of ID sequences. -/
def statsOf (ids : List (List Nat)) : BigramStats :=
  ⟨fun a => (ids.flatten.count a : ℤ), fun a b => ((ids.map (pairCount a b)).sum : ℤ)⟩

def idsOfLine (v : Vocab) (unkId : Nat) (line : Str) : List Nat := (utterance line).map (sequenceId v unkId)

theorem addLine_statsOf (v : Vocab) (unkId : Nat) (ids : List (List Nat)) (line : Str) :
    addLine v unkId (statsOf ids) line = statsOf (ids ++ [idsOfLine v unkId line]) := by
  unfold addLine statsOf idsOfLine
  simp only [BigramStats.mk.injEq]
  constructor
  · funext a
    rw [foldl_inc1]; simp
  · funext a b
    rw [foldl_inc2]; simp

theorem addLines_statsOf (v : Vocab) (unkId : Nat) (ls : List Str) (ids : List (List Nat)) :
    ls.foldl (addLine v unkId) (statsOf ids) = statsOf (ids ++ ls.map (idsOfLine v unkId)) := by
  induction ls generalizing ids with
  | nil => simp
  | cons l ls ih => rw [List.foldl_cons, addLine_statsOf, ih]; simp

theorem addFiles_statsOf (v : Vocab) (unkId : Nat) (fs : List (List Str)) (ids : List (List Nat)) :
    fs.foldl (fun st file => file.foldl (addLine v unkId) st) (statsOf ids) =
      statsOf (ids ++ fs.flatten.map (idsOfLine v unkId)) := by
  induction fs generalizing ids with
  | nil => simp
  | cons f fs ih => rw [List.foldl_cons, addLines_statsOf, ih]; simp

theorem bigramStatistics_eq (v : Vocab) (files : List (List Str)) (unkId : Nat) (hu : v.wordToId unk = some unkId) :
    bigramStatistics v files = .ok (statsOf (files.flatten.map (idsOfLine v unkId))) := by
  unfold bigramStatistics
  rw [hu]
  have e : (⟨fun _ => 0, fun _ _ => 0⟩ : BigramStats) = statsOf [] := rfl
  simp only [e]
  rw [addFiles_statsOf, List.nil_append]

/-! ## Row and column sums -/

theorem sum_ite_range (n b : Nat) (hb : b < n) (x : ℤ) : ((List.range n).map (fun j => if b = j then x else 0)).sum = x := by
  have : ((List.range n).map (fun j => if b = j then x else 0)).sum = ∑ j ∈ Finset.range n, (if b = j then x else 0) := rfl
  rw [this, Finset.sum_ite_eq, if_pos (Finset.mem_range.mpr hb)]

theorem pairCount_rows (n a : Nat) (s : List Nat) (h : ∀ x ∈ s, x < n) :
    ∑ b ∈ Finset.range n, (pairCount a b s : ℤ) = s.count a - (if s.getLast? = some a then 1 else 0) := by
  induction s with
  | nil => simp [pairCount]
  | cons x s ih =>
    cases s with
    | nil =>
      by_cases hx : x = a <;> simp [pairCount, hx]
    | cons y s =>
      have ih := ih (fun z hz => h z (List.mem_cons_of_mem _ hz))
      simp only [pairCount, Nat.cast_add, Finset.sum_add_distrib]
      rw [ih, List.count_cons (b := x), List.getLast?_cons_cons]
      have hy : y < n := h y (by simp)
      by_cases hx : x = a
      · subst hx
        have : ∑ b ∈ Finset.range n, ((if x = x ∧ y = b then 1 else 0 : Nat) : ℤ) = 1 := by
          simp [Finset.sum_ite_eq, hy]
        rw [this]; simp; ring
      · simp [hx]

theorem pairCount_cols (n b : Nat) (s : List Nat) (h : ∀ x ∈ s, x < n) :
    ∑ a ∈ Finset.range n, (pairCount a b s : ℤ) = s.count b - (if s.head? = some b then 1 else 0) := by
  induction s with
  | nil => simp [pairCount]
  | cons x s ih =>
    cases s with
    | nil =>
      by_cases hx : x = b <;> simp [pairCount, hx]
    | cons y s =>
      have ih := ih (fun z hz => h z (List.mem_cons_of_mem _ hz))
      simp only [pairCount, Nat.cast_add, Finset.sum_add_distrib]
      rw [ih, List.count_cons (b := x)]
      have hxn : x < n := h x (by simp)
      have e : ∑ a ∈ Finset.range n, ((if x = a ∧ y = b then 1 else 0 : Nat) : ℤ) = if y = b then 1 else 0 := by
        by_cases hy : y = b
        · simp [hy, hxn]
        · simp [hy]
      rw [e]
      simp only [List.head?_cons, Option.some.injEq, beq_iff_eq]
      by_cases hy : y = b <;> by_cases hx : x = b <;> simp [hx, hy] <;> ring

end TheanoLM
