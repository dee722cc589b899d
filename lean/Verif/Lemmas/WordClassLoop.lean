import Verif.Lemmas.WordClasses
import Verif.Props.Statistics
import Mathlib.Algebra.Order.BigOperators.Group.Finset
import Mathlib.Data.Fintype.Pi
import Mathlib.Data.Fintype.EquivFin
/-!
# Lemmas about the word class optimization loop
-/
namespace TheanoLM

open Finset

/-! ## Neighbours of a word in a corpus -/

theorem pairCount_pos_mem {s : List Nat} {a b : Nat} (h : 0 < pairCount a b s) : a ∈ s ∧ b ∈ s := by
  induction s with
  | nil => simp [pairCount] at h
  | cons x s ih =>
    cases s with
    | nil => simp [pairCount] at h
    | cons y s =>
      rw [pairCount] at h
      by_cases hxy : x = a ∧ y = b
      · rw [← hxy.1, ← hxy.2]; simp
      · rw [if_neg hxy, zero_add] at h
        have := ih h
        exact ⟨List.mem_cons_of_mem _ this.1, List.mem_cons_of_mem _ this.2⟩

theorem left_neighbour (k : Nat) (s : List Nat) (x : Nat) (hx : x ≠ k) (hk : k ∈ s) :
    ∃ a, a ≠ k ∧ 0 < pairCount a k (x :: s) := by
  induction s generalizing x with
  | nil => simp at hk
  | cons y s ih =>
    by_cases hy : y = k
    · exact ⟨x, hx, by rw [pairCount, hy]; simp⟩
    · obtain ⟨a, h1, h2⟩ := ih y hy (by simpa [Ne.symm hy] using hk)
      exact ⟨a, h1, by rw [pairCount]; omega⟩

theorem right_neighbour (k : Nat) (s : List Nat) (e : Nat) (he : s.getLast? = some e) (hek : e ≠ k) (hk : k ∈ s) :
    ∃ b, b ≠ k ∧ 0 < pairCount k b s := by
  induction s with
  | nil => simp at hk
  | cons x s ih =>
    cases s with
    | nil =>
      simp only [List.getLast?_singleton, Option.some.injEq] at he
      rw [List.mem_singleton] at hk
      exact absurd (he.symm.trans hk.symm) hek
    | cons y s =>
      rw [List.getLast?_cons_cons] at he
      by_cases hy : k ∈ y :: s
      · obtain ⟨b, h1, h2⟩ := ih he hy
        exact ⟨b, h1, by rw [pairCount]; omega⟩
      · have hx : x = k := by
          rcases List.mem_cons.mp hk with h | h
          · exact h.symm
          · exact absurd h hy
        refine ⟨y, fun h => hy (by simp [h]), ?_⟩
        rw [pairCount, hx]; simp

/-- What the corpus statistics satisfy, as far as the optimizer is concerned: `sos` and `eos` are word IDs. -/
structure CorpusStats (n : Nat) (count : Nat → ℤ) (ww : Nat → Nat → ℤ) (sosId eosId : Nat) : Prop where
  nonneg : ∀ a, 0 ≤ count a
  nonneg2 : ∀ a b, 0 ≤ ww a b
  zero : ∀ a, count a = 0 → ∀ b, ww a b = 0 ∧ ww b a = 0
  left : ∀ k, k ≠ sosId → 0 < count k → ∃ a < n, a ≠ k ∧ ww a k ≠ 0
  right : ∀ k, k ≠ eosId → 0 < count k → ∃ b < n, b ≠ k ∧ ww k b ≠ 0

theorem sum_pos_of_mem {l : List (List Nat)} {f : List Nat → Nat} {s : List Nat} (hs : s ∈ l) (h : 0 < f s) :
    0 < (l.map f).sum := by
  induction l with
  | nil => simp at hs
  | cons x l ih =>
    rw [List.map_cons, List.sum_cons]
    rcases List.mem_cons.mp hs with rfl | h'
    · omega
    · have := ih h'; omega

theorem corpusStats_of {n : Nat} {ids : List (List Nat)} {sosId eosId : Nat} (hb : ∀ s ∈ ids, ∀ x ∈ s, x < n)
    (hd : ∀ s ∈ ids, s ≠ [] → s.head? = some sosId ∧ s.getLast? = some eosId) :
    CorpusStats n (statsOf ids).unigram (statsOf ids).bigram sosId eosId where
  nonneg a := by simp [statsOf]
  nonneg2 a b := by simp only [statsOf]; positivity
  zero a ha b := by
    simp only [statsOf, Nat.cast_eq_zero] at ha
    have hnot : ∀ s ∈ ids, a ∉ s := by
      intro s hs hc
      have : a ∈ ids.flatten := List.mem_flatten.mpr ⟨s, hs, hc⟩
      have := List.count_pos_iff.mpr this
      omega
    have e1 : (ids.map (pairCount a b)).sum = 0 := by
      rw [List.sum_eq_zero_iff]
      intro x hx
      obtain ⟨s, hs, rfl⟩ := List.mem_map.mp hx
      by_contra hc
      exact hnot s hs (pairCount_pos_mem (Nat.pos_of_ne_zero hc)).1
    have e2 : (ids.map (pairCount b a)).sum = 0 := by
      rw [List.sum_eq_zero_iff]
      intro x hx
      obtain ⟨s, hs, rfl⟩ := List.mem_map.mp hx
      by_contra hc
      exact hnot s hs (pairCount_pos_mem (Nat.pos_of_ne_zero hc)).2
    simp only [statsOf, e1, e2]
    exact ⟨rfl, rfl⟩
  left k hk hc := by
    simp only [statsOf, Nat.cast_pos] at hc
    obtain ⟨s, hs, hks⟩ := List.mem_flatten.mp (List.count_pos_iff.mp hc)
    cases s with
    | nil => simp at hks
    | cons x s =>
      have hx := (hd _ hs (by simp)).1
      simp only [List.head?_cons, Option.some.injEq] at hx
      have hxk : x ≠ k := by rw [hx]; exact hk.symm
      obtain ⟨a, h1, h2⟩ := left_neighbour k s x hxk (by simpa [Ne.symm hxk] using hks)
      refine ⟨a, hb _ hs a (pairCount_pos_mem h2).1, h1, ?_⟩
      have := sum_pos_of_mem hs h2
      simp only [statsOf]; omega
  right k hk hc := by
    simp only [statsOf, Nat.cast_pos] at hc
    obtain ⟨s, hs, hks⟩ := List.mem_flatten.mp (List.count_pos_iff.mp hc)
    have hne : s ≠ [] := by rintro rfl; simp at hks
    obtain ⟨b, h1, h2⟩ := right_neighbour k s eosId (hd _ hs hne).2 hk.symm hks
    refine ⟨b, hb _ hs b (pairCount_pos_mem h2).2, h1, ?_⟩
    have := sum_pos_of_mem hs h2
    simp only [statsOf]; omega

/-! ## The best move -/

theorem greater_false_iff {x y : Option ℝ} :
    greater x y = false ↔ x = none ∨ ∃ a b, x = some a ∧ y = some b ∧ a ≤ b := by
  cases x with
  | none => simp [greater]
  | some a =>
    cases y with
    | none => simp [greater]
    | some b => simp [greater]

theorem greater_trans {x y z : Option ℝ} (h1 : greater x y = false) (h2 : greater z y = true) :
    greater x z = false := by
  rw [greater_false_iff] at h1 ⊢
  rcases h1 with h | ⟨a, b, rfl, rfl, hab⟩
  · exact Or.inl h
  · cases z with
    | none => simp [greater] at h2
    | some c =>
      right
      simp only [greater, decide_eq_true_eq] at h2
      exact ⟨a, c, rfl, rfl, by linarith⟩

theorem findBestLoop_spec (cfg : OptCfg) (s : OptSt) (w : Nat) (cs : List Nat) (best : Option ℝ × Option Nat) :
    let r := findBestLoop cfg s w cs best
    (r = best ∨ ∃ c ∈ cs, c ≠ s.wordToClass w ∧ r = (evaluate cfg s w c, some c)) ∧
    (∀ c ∈ cs, c ≠ s.wordToClass w → greater (evaluate cfg s w c) r.1 = false) ∧
    (∀ x, greater x best.1 = false → greater x r.1 = false) := by
  induction cs generalizing best with
  | nil => simp [findBestLoop]
  | cons c cs ih =>
    simp only [findBestLoop]
    by_cases h : c = s.wordToClass w
    · rw [if_pos h]
      obtain ⟨h1, h2, h3⟩ := ih best
      refine ⟨?_, ?_, h3⟩
      · rcases h1 with h1 | ⟨c', m, e⟩
        · exact Or.inl h1
        · exact Or.inr ⟨c', by simp [m], e⟩
      · intro c' m e
        rcases List.mem_cons.mp m with rfl | m
        · exact absurd h e
        · exact h2 c' m e
    · rw [if_neg h]
      by_cases hg : greater (evaluate cfg s w c) best.1 = true
      · rw [if_pos hg]
        obtain ⟨h1, h2, h3⟩ := ih (evaluate cfg s w c, some c)
        refine ⟨?_, ?_, ?_⟩
        · rcases h1 with h1 | ⟨c', m, e⟩
          · exact Or.inr ⟨c, by simp, h, h1⟩
          · exact Or.inr ⟨c', by simp [m], e⟩
        · intro c' m e
          rcases List.mem_cons.mp m with rfl | m
          · apply h3
            rw [greater_false_iff]
            cases evaluate cfg s w c' with
            | none => exact Or.inl rfl
            | some x => exact Or.inr ⟨x, x, rfl, rfl, le_refl _⟩
          · exact h2 c' m e
        · intro x hx
          exact h3 x (greater_trans hx hg)
      · rw [if_neg hg]
        obtain ⟨h1, h2, h3⟩ := ih best
        refine ⟨?_, ?_, h3⟩
        · rcases h1 with h1 | ⟨c', m, e⟩
          · exact Or.inl h1
          · exact Or.inr ⟨c', by simp [m], e⟩
        · intro c' m e
          rcases List.mem_cons.mp m with rfl | m
          · exact h3 _ (by simpa using hg)
          · exact h2 c' m e

/-- What `move_to_best_class` does. -/
inductive MoveOutcome (cfg : OptCfg) (s : OptSt) (word : Str) : Except Err (Bool × OptSt) → Prop
  | special (h : isSpecialWord word = true) : MoveOutcome cfg s word (.ok (false, s))
  | unknown (h : cfg.vocab.wordToId word = none) : MoveOutcome cfg s word (.error .keyError)
  | alone (w : Nat) (hs : isSpecialWord word = false) (h : cfg.vocab.wordToId word = some w)
      (hc : classSize cfg s (s.wordToClass w) < 2) : MoveOutcome cfg s word (.ok (false, s))
  | optimal (w : Nat) (hs : isSpecialWord word = false) (h : cfg.vocab.wordToId word = some w)
      (hc : ∀ c < cfg.numNormal, c ≠ s.wordToClass w → ∀ d, evaluate cfg s w c = some d → d ≤ 0) :
      MoveOutcome cfg s word (.ok (false, s))
  | moved (w c : Nat) (d : ℝ) (s' : OptSt) (hs : isSpecialWord word = false) (h : cfg.vocab.wordToId word = some w)
      (h2 : 2 ≤ classSize cfg s (s.wordToClass w)) (hn : c < cfg.numNormal) (hc : c ≠ s.wordToClass w)
      (he : evaluate cfg s w c = some d) (hd : 0 < d)
      (hbest : ∀ c' < cfg.numNormal, c' ≠ s.wordToClass w → ∀ d', evaluate cfg s w c' = some d' → d' ≤ d)
      (hm : moveWord cfg s w c = .ok s') : MoveOutcome cfg s word (.ok (true, s'))
  | failed (w c : Nat) (d : ℝ) (e : Err) (hs : isSpecialWord word = false) (h : cfg.vocab.wordToId word = some w)
      (hn : c < cfg.numNormal) (hc : c ≠ s.wordToClass w) (he : evaluate cfg s w c = some d) (hd : 0 < d)
      (hm : moveWord cfg s w c = .error e) : MoveOutcome cfg s word (.error e)

theorem moveToBestClass_outcome (cfg : OptCfg) (s : OptSt) (word : Str) :
    MoveOutcome cfg s word (moveToBestClass cfg s word) := by
  unfold moveToBestClass
  by_cases hs : isSpecialWord word = true
  · rw [if_pos hs]; exact .special hs
  rw [if_neg hs]
  have hs' : isSpecialWord word = false := by simpa using hs
  cases hw : cfg.vocab.wordToId word with
  | none => exact .unknown hw
  | some w =>
    simp only
    by_cases h2 : classSize cfg s (s.wordToClass w) < 2
    · rw [if_pos h2]; exact .alone w hs' hw h2
    rw [if_neg h2]
    have hl := findBestLoop_spec cfg s w (List.range cfg.numNormal) (none, none)
    simp only at hl
    obtain ⟨h3, h4, _⟩ := hl
    have hopt : ∀ x y, (findBestLoop cfg s w (List.range cfg.numNormal) (none, none)).1 = x →
        (∀ a, x = some a → a ≤ y) → ∀ c < cfg.numNormal, c ≠ s.wordToClass w → ∀ d, evaluate cfg s w c = some d →
        d ≤ y := by
      intro x y hx hy c hc hne d hd
      have := h4 c (List.mem_range.mpr hc) hne
      rw [hx, hd, greater_false_iff] at this
      rcases this with h | ⟨a, b, h5, h6, h7⟩
      · cases h
      · cases h5
        exact le_trans h7 (hy b h6)
    unfold findBestMove
    rcases h3 with h3 | ⟨c, hc, hne, h3⟩
    · rw [h3]
      exact .optimal w hs' hw (hopt none 0 (by rw [h3]) (by simp))
    · rw [h3]
      cases he : evaluate cfg s w c with
      | none => exact .optimal w hs' hw (hopt none 0 (by rw [h3]; exact he) (by simp))
      | some d =>
        simp only
        by_cases hd : 0 < d
        · rw [if_pos hd]
          cases hm : moveWord cfg s w c with
          | error e => exact .failed w c d e hs' hw (List.mem_range.mp hc) hne he hd hm
          | ok s' =>
            exact .moved w c d s' hs' hw (by omega) (List.mem_range.mp hc) hne he hd
              (hopt (some d) d (by rw [h3]; exact he) (by intro a h; cases h; exact le_refl _)) hm
        · rw [if_neg hd]
          refine .optimal w hs' hw (hopt (some d) 0 (by rw [h3]; exact he) ?_)
          intro a h; cases h; exact not_lt.mp hd

/-! ## The likelihood depends only on the classes of the words -/

theorem classLL_congr {n C : Nat} {count : Nat → ℤ} {ww : Nat → Nat → ℤ} {cl cl' : Nat → Nat}
    (h : ∀ w < n, cl w = cl' w) : classLL n C count ww cl = classLL n C count ww cl' := by
  have e1 : ∀ a b, classPairCount n ww cl a b = classPairCount n ww cl' a b := by
    intro a b
    rw [classPairCount_ite, classPairCount_ite]
    apply sum_congr rfl; intro v hv
    apply sum_congr rfl; intro w hw
    rw [h v (mem_range.mp hv), h w (mem_range.mp hw)]
  have e2 : ∀ c, classCount n count cl c = classCount n count cl' c := by
    intro c
    rw [classCount_ite, classCount_ite]
    apply sum_congr rfl; intro v hv
    rw [h v (mem_range.mp hv)]
  unfold classLL
  simp only [e1, e2]

/-- Moving a word that does not occur does not change the likelihood. -/
theorem classLL_unused {n C : Nat} {count : Nat → ℤ} {ww : Nat → Nat → ℤ} {cl : Nat → Nat} {w c : Nat} (hw : w < n)
    (h0 : count w = 0) (h1 : ∀ b, ww w b = 0 ∧ ww b w = 0) :
    classLL n C count ww (reassign cl w c) = classLL n C count ww cl := by
  obtain ⟨r1, r2, r3, r4⟩ := rest_reassign (n := n) (w := w) count ww cl c
  have eR : ∀ b, restR n ww cl w b = 0 := fun b => sum_eq_zero (fun i _ => by simp [(h1 i).1])
  have eL : ∀ b, restL n ww cl w b = 0 := fun b => sum_eq_zero (fun i _ => by simp [(h1 i).2])
  have e1 : ∀ a b, classPairCount n ww (reassign cl w c) a b = classPairCount n ww cl a b := by
    intro a b
    rw [classPairCount_split hw, classPairCount_split hw, r2, r3, r4]
    simp [eR, eL, (h1 w).1]
  have e2 : ∀ a, classCount n count (reassign cl w c) a = classCount n count cl a := by
    intro a
    rw [classCount_split hw, classCount_split hw, r1]
    simp [h0]
  unfold classLL
  simp only [e1, e2]

/-- The possible values of the likelihood. -/
noncomputable def llValues (n C : Nat) (count : Nat → ℤ) (ww : Nat → Nat → ℤ) : Finset ℝ :=
  (univ : Finset (Fin n → Fin C)).image
    (fun f => classLL n C count ww (fun i => if h : i < n then (f ⟨i, h⟩ : Nat) else 0))

theorem classLL_mem {n C : Nat} (count : Nat → ℤ) (ww : Nat → Nat → ℤ) {cl : Nat → Nat} (h : ∀ w < n, cl w < C) :
    classLL n C count ww cl ∈ llValues n C count ww := by
  unfold llValues
  rw [mem_image]
  refine ⟨fun i => ⟨cl i, h i i.2⟩, mem_univ _, ?_⟩
  apply classLL_congr
  intro w hw
  simp [hw]

/-- The measure that decreases. -/
noncomputable def llRank (n C : Nat) (count : Nat → ℤ) (ww : Nat → Nat → ℤ) (x : ℝ) : Nat :=
  ((llValues n C count ww).filter (fun y => x < y)).card

theorem llRank_lt {n C : Nat} {count : Nat → ℤ} {ww : Nat → Nat → ℤ} {x y : ℝ} (h : x < y)
    (hy : y ∈ llValues n C count ww) : llRank n C count ww y < llRank n C count ww x := by
  unfold llRank
  apply card_lt_card
  constructor
  · intro z hz
    rw [mem_filter] at hz ⊢
    exact ⟨hz.1, h.trans hz.2⟩
  · intro hc
    have : y ∈ (llValues n C count ww).filter (fun z => y < z) := hc (mem_filter.mpr ⟨hy, h⟩)
    exact lt_irrefl _ (mem_filter.mp this).2

end TheanoLM
