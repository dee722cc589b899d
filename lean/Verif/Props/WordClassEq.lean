import Verif.Model.WordClassEq
import Verif.Lemmas.Vocabulary
import Mathlib.Data.List.Perm.Subperm
import Mathlib.Data.Rat.Lemmas
import Mathlib.Tactic.Linarith
import Mathlib.Tactic.NormNum
import Mathlib.Algebra.Order.Ring.Rat
/-!
# Comparing word classes (C104)

## Specification
-/
namespace TheanoLM

/-- The word belongs to the class with the given membership probability. -/
def Belongs (c : WordClass) (w : Nat) (p : ℚ) : Prop := (w, p) ∈ c.probs

/-- The keys of the dictionary of probabilities are distinct. -/
def ClassDict (c : WordClass) : Prop := (c.probs.map Prod.fst).Nodup

/-- The difference of two probabilities is not more than 0.00000001 plus 0.001 % of the second one. -/
def Within (p q : ℚ) : Prop := |p - q| ≤ 1 / 10 ^ 8 + 1 / 10 ^ 5 * |q|

/-- The classes have the same ID and the same words, and the probabilities of each word are the same within the tolerance. -/
structure SameClass (c d : WordClass) : Prop where
  id : c.id = d.id
  words : ∀ w, (∃ p, Belongs c w p) ↔ ∃ q, Belongs d w q
  close : ∀ w p q, Belongs c w p → Belongs d w q → Within p q

/-! ## Helper lemmas -/

theorem isClose_iff (p q : ℚ) : isClose p q = true ↔ Within p q := by
  unfold isClose Within
  rw [decide_eq_true_iff]
  norm_num

theorem within_self (p : ℚ) : Within p p := by
  unfold Within
  rw [sub_self, abs_zero]
  have := abs_nonneg p
  positivity

theorem getProb_ok {c : WordClass} (hc : ClassDict c) {w : Nat} {p : ℚ} : c.getProb w = .ok p ↔ Belongs c w p := by
  unfold WordClass.getProb Belongs
  constructor
  · intro h
    cases hd : dictGet? c.probs w with
    | none => rw [hd] at h; cases h
    | some q => rw [hd] at h; cases h; exact dictGet?_mem hd
  · intro h
    rw [dictGet?_of_mem hc h]

theorem getProb_error {c : WordClass} {w : Nat} {e : Err} (h : c.getProb w = .error e) :
    e = .keyError ∧ ¬ ∃ p, Belongs c w p := by
  unfold WordClass.getProb at h
  cases hd : dictGet? c.probs w with
  | some q => rw [hd] at h; cases h
  | none =>
    rw [hd] at h
    refine ⟨(Except.error.inj h).symm, ?_⟩
    rintro ⟨p, hp⟩
    exact (dictGet?_none _ _).1 hd (List.mem_map_of_mem (f := Prod.fst) hp)

theorem eqLoop_true {d : WordClass} (hd : ClassDict d) (items : List (Nat × ℚ)) :
    d.eqLoop items = .ok true ↔ ∀ w p, (w, p) ∈ items → ∃ q, Belongs d w q ∧ Within p q := by
  induction items with
  | nil => simp [WordClass.eqLoop]
  | cons it items ih =>
    obtain ⟨w, p⟩ := it
    unfold WordClass.eqLoop
    cases hg : d.getProb w with
    | error e =>
      constructor
      · intro h; cases h
      · intro h
        obtain ⟨q, hq, -⟩ := h w p (List.mem_cons_self ..)
        exact absurd ⟨q, hq⟩ (getProb_error hg).2
    | ok q =>
      have hq := (getProb_ok hd).1 hg
      dsimp only
      by_cases hc : isClose p q = true
      · rw [if_pos hc, ih]
        constructor
        · intro h w' p' hm
          rcases List.mem_cons.1 hm with e | hm
          · cases e; exact ⟨q, hq, (isClose_iff ..).1 hc⟩
          · exact h w' p' hm
        · intro h w' p' hm
          exact h w' p' (List.mem_cons_of_mem _ hm)
      · rw [if_neg hc]
        constructor
        · intro h; cases h
        · intro h
          obtain ⟨q', hq', hw⟩ := h w p (List.mem_cons_self ..)
          have := (getProb_ok hd).2 hq'
          rw [hg] at this
          cases this
          exact absurd ((isClose_iff ..).2 hw) hc

/-- Classes with equally many words, all words of the first of which belong to the second, have the same words. -/
theorem words_of_subset {c d : WordClass} (hc : ClassDict c) (hl : c.probs.length = d.probs.length)
    (hs : ∀ w p, Belongs c w p → ∃ q, Belongs d w q) (w : Nat) (q : ℚ) (hq : Belongs d w q) : ∃ p, Belongs c w p := by
  have hsub : c.probs.map Prod.fst ⊆ d.probs.map Prod.fst := by
    intro x hx
    obtain ⟨⟨x', p⟩, hm, rfl⟩ := List.mem_map.1 hx
    obtain ⟨q', hq'⟩ := hs x' p hm
    exact List.mem_map.2 ⟨_, hq', rfl⟩
  have hperm : (c.probs.map Prod.fst).Perm (d.probs.map Prod.fst) :=
    (hc.subperm hsub).perm_of_length_le (by simp [hl])
  have hm : w ∈ c.probs.map Prod.fst := hperm.mem_iff.2 (List.mem_map_of_mem (f := Prod.fst) hq)
  obtain ⟨⟨w', p⟩, hm', rfl⟩ := List.mem_map.1 hm
  exact ⟨p, hm'⟩

theorem length_of_words {c d : WordClass} (hc : ClassDict c) (hd : ClassDict d)
    (hs : ∀ w, (∃ p, Belongs c w p) ↔ ∃ q, Belongs d w q) : c.probs.length = d.probs.length := by
  have hperm : (c.probs.map Prod.fst).Perm (d.probs.map Prod.fst) := by
    rw [List.perm_ext_iff_of_nodup hc hd]
    intro w
    constructor
    · intro h
      obtain ⟨⟨w', p⟩, hm, rfl⟩ := List.mem_map.1 h
      obtain ⟨q, hq⟩ := (hs w').1 ⟨p, hm⟩
      exact List.mem_map.2 ⟨_, hq, rfl⟩
    · intro h
      obtain ⟨⟨w', p⟩, hm, rfl⟩ := List.mem_map.1 h
      obtain ⟨q, hq⟩ := (hs w').2 ⟨p, hm⟩
      exact List.mem_map.2 ⟨_, hq, rfl⟩
  simpa using hperm.length_eq

theorem eqLoop_total {d : WordClass} (items : List (Nat × ℚ)) (h : ∀ w p, (w, p) ∈ items → ∃ q, Belongs d w q) :
    ∃ b, d.eqLoop items = .ok b := by
  induction items with
  | nil => exact ⟨true, rfl⟩
  | cons it items ih =>
    obtain ⟨w, p⟩ := it
    unfold WordClass.eqLoop
    cases hg : d.getProb w with
    | error e => exact absurd (h w p (List.mem_cons_self ..)) (getProb_error hg).2
    | ok q =>
      dsimp only
      by_cases hc : isClose p q = true
      · rw [if_pos hc]
        exact ih fun w' p' hm => h w' p' (List.mem_cons_of_mem _ hm)
      · rw [if_neg hc]
        exact ⟨false, rfl⟩

theorem eqLoop_error {d : WordClass} {e : Err} (items : List (Nat × ℚ)) (h : d.eqLoop items = .error e) :
    e = .keyError ∧ ∃ w p, (w, p) ∈ items ∧ ¬ ∃ q, Belongs d w q := by
  induction items with
  | nil => cases h
  | cons it items ih =>
    obtain ⟨w, p⟩ := it
    unfold WordClass.eqLoop at h
    cases hg : d.getProb w with
    | error e' =>
      rw [hg] at h
      cases h
      exact ⟨(getProb_error hg).1, w, p, List.mem_cons_self .., (getProb_error hg).2⟩
    | ok q =>
      rw [hg] at h
      dsimp only at h
      by_cases hc : isClose p q = true
      · rw [if_pos hc] at h
        obtain ⟨he, w', p', hm, hn⟩ := ih h
        exact ⟨he, w', p', List.mem_cons_of_mem _ hm, hn⟩
      · rw [if_neg hc] at h
        cases h

/-! ## Property theorems -/

/-- C104: the comparison says that two word classes are the same exactly when they have the same ID and words, and the same
probabilities within the tolerance. -/
theorem C104_same (c d : WordClass) (hc : ClassDict c) (hd : ClassDict d) : c.eq (some d) = .ok true ↔ SameClass c d := by
  unfold WordClass.eq WordClass.len
  dsimp only
  constructor
  · intro h
    by_cases hid : c.id = d.id
    · rw [if_neg (by simp [hid])] at h
      by_cases hl : c.probs.length = d.probs.length
      · rw [if_neg (by simp [hl])] at h
        have hall := (eqLoop_true hd _).1 h
        refine ⟨hid, fun w => ⟨?_, ?_⟩, ?_⟩
        · rintro ⟨p, hp⟩
          obtain ⟨q, hq, -⟩ := hall w p hp
          exact ⟨q, hq⟩
        · rintro ⟨q, hq⟩
          refine words_of_subset hc hl (fun w p hp => ?_) w q hq
          obtain ⟨q', hq', -⟩ := hall w p hp
          exact ⟨q', hq'⟩
        · intro w p q hp hq
          obtain ⟨q', hq', hw⟩ := hall w p hp
          have h1 := (getProb_ok hd).2 hq
          rw [(getProb_ok hd).2 hq'] at h1
          cases h1
          exact hw
      · rw [if_pos (by simp [hl])] at h
        cases h
    · rw [if_pos (by simp [hid])] at h
      cases h
  · intro h
    rw [if_neg (by simp [h.id]), if_neg (by simp [length_of_words hc hd h.words]), eqLoop_true hd]
    intro w p hp
    obtain ⟨q, hq⟩ := (h.words w).1 ⟨p, hp⟩
    exact ⟨q, hq, h.close w p q hp hq⟩

/-- C104, the part that holds: when the classes have the same words, a different ID or a different number of words, the comparison
gives an answer, and the answer is whether the classes are the same.  Missing: classes with equally many words, some of which
are different, for which the comparison can fail with a KeyError (`C104_violated`). -/
theorem C104_answer_partial (c d : WordClass) (hc : ClassDict c) (hd : ClassDict d)
    (h : c.id ≠ d.id ∨ c.probs.length ≠ d.probs.length ∨ ∀ w, (∃ p, Belongs c w p) ↔ ∃ q, Belongs d w q) :
    (SameClass c d ∧ c.eq (some d) = .ok true ∧ c.ne (some d) = .ok false) ∨
    (¬ SameClass c d ∧ c.eq (some d) = .ok false ∧ c.ne (some d) = .ok true) := by
  have htotal : ∃ b, c.eq (some d) = .ok b := by
    unfold WordClass.eq WordClass.len
    dsimp only
    by_cases hid : c.id = d.id
    · rw [if_neg (by simp [hid])]
      by_cases hl : c.probs.length = d.probs.length
      · rw [if_neg (by simp [hl])]
        rcases h with h | h | h
        · exact absurd hid h
        · exact absurd hl h
        · exact eqLoop_total _ fun w p hm => (h w).1 ⟨p, hm⟩
      · rw [if_pos (by simp [hl])]
        exact ⟨_, rfl⟩
    · rw [if_pos (by simp [hid])]
      exact ⟨_, rfl⟩
  obtain ⟨b, hb⟩ := htotal
  have hne : c.ne (some d) = .ok (!b) := by
    unfold WordClass.ne
    rw [hb]
  have hs := C104_same c d hc hd
  cases b with
  | true => exact .inl ⟨hs.1 hb, hb, hne⟩
  | false =>
    refine .inr ⟨fun hsc => ?_, hb, hne⟩
    have := hs.2 hsc
    rw [hb] at this
    cases this

/-- C104: the only exception is a KeyError, and it means that some word of the first class does not belong to the other one, so the
classes are different. -/
theorem C104_failure_partial (c d : WordClass) {e : Err} (h : c.eq (some d) = .error e) :
    e = .keyError ∧ c.ne (some d) = .error .keyError ∧ ¬ SameClass c d := by
  have hne : c.ne (some d) = .error e := by
    unfold WordClass.ne
    rw [h]
  unfold WordClass.eq at h
  dsimp only at h
  split at h
  · cases h
  · split at h
    · cases h
    · obtain ⟨he, w, p, hm, hn⟩ := eqLoop_error _ h
      refine ⟨he, he ▸ hne, fun hs => hn ((hs.words w).1 ⟨p, hm⟩)⟩

/-- C104: a class is the same as itself. -/
theorem C104_reflexive (c : WordClass) (hc : ClassDict c) : c.eq (some c) = .ok true := by
  refine (C104_same c c hc hc).2 ⟨rfl, fun w => Iff.rfl, fun w p q hp hq => ?_⟩
  have h1 := (getProb_ok hc).2 hp
  rw [(getProb_ok hc).2 hq] at h1
  cases h1
  exact within_self _

/-- C104: a class is different from any object that is not a class. -/
theorem C104_other (c : WordClass) : c.eq none = .ok false ∧ c.ne none = .ok true := ⟨rfl, rfl⟩

/-- C104 does not hold: comparing classes that have equally many words fails when a word belongs only to the first one. -/
theorem C104_violated :
    let c := (WordClass.new 0 3 (1 / 2)).setProb 4 (1 / 2)
    let d := (WordClass.new 0 3 (1 / 2)).setProb 5 (1 / 2)
    ClassDict c ∧ ClassDict d ∧ ¬ SameClass c d ∧ c.eq (some d) = .error .keyError ∧ c.ne (some d) = .error .keyError := by
  have h : ((WordClass.new 0 3 (1 / 2)).setProb 4 (1 / 2)).eq (some ((WordClass.new 0 3 (1 / 2)).setProb 5 (1 / 2)))
      = .error .keyError := by decide +kernel
  refine ⟨by unfold ClassDict; decide, by unfold ClassDict; decide, ?_, h, ?_⟩
  · exact (C104_failure_partial _ _ h).2.2
  · exact (C104_failure_partial _ _ h).2.1

/-- C104 does not hold: the answer depends on the order of the classes, because the tolerance is relative to the probability in the
second one.  Both classes are probability distributions. -/
theorem C104_not_symmetric :
    let x : ℚ := 1 / 10 ^ 8 + 1 / 10 ^ 5 / 2
    let c := (WordClass.new 0 3 (1 / 2 - x)).setProb 4 (1 / 2 + x)
    let d := (WordClass.new 0 3 (1 / 2)).setProb 4 (1 / 2)
    c.eq (some d) = .ok true ∧ d.eq (some c) = .ok false := by decide +kernel

/-! ## The hypotheses are met -/

/-- Two classes with the same words in a different order, and slightly different probabilities. -/
example :
    let c := (WordClass.new 7 3 (1 / 4)).setProb 4 (3 / 4)
    let d := (WordClass.new 7 4 (3 / 4 + 1 / 10 ^ 9)).setProb 3 (1 / 4)
    ClassDict c ∧ ClassDict d ∧ (∀ w, (∃ p, Belongs c w p) ↔ ∃ q, Belongs d w q) ∧ SameClass c d := by
  intro c d
  have hc : ClassDict c := by unfold ClassDict; decide
  have hd : ClassDict d := by unfold ClassDict; decide
  have h : SameClass c d := (C104_same c d hc hd).1 (by decide +kernel)
  exact ⟨hc, hd, h.words, h⟩

/-- Two classes with the same words and different probabilities are told apart. -/
example :
    let c := (WordClass.new 7 3 (1 / 4)).setProb 4 (3 / 4)
    let d := (WordClass.new 7 4 (1 / 4)).setProb 3 (3 / 4)
    c.eq (some d) = .ok false ∧ c.ne (some d) = .ok true := by decide +kernel

end TheanoLM
