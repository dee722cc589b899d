import Verif.Props.OptimizerSpec
import Mathlib.Algebra.BigOperators.Intervals
import Mathlib.Algebra.BigOperators.Ring.Finset
import Mathlib.Algebra.Order.BigOperators.Group.Finset
import Mathlib.Algebra.Order.BigOperators.Group.List
import Mathlib.Tactic.Ring
import Mathlib.Tactic.FieldSimp
import Mathlib.Tactic.Linarith
/-! Lemmas about the optimizers. -/
namespace TheanoLM
set_option linter.unusedSectionVars false

section
variable {S : Type} [Field S] [LinearOrder S]

theorem applyUpdates_mem {st : OptState S} {ups : OptUpdates S} {v : OptVar} {t : List S} (h : (v, t) ∈ ups.vars)
    (hu : ∀ t', (v, t') ∈ ups.vars → t' = t) : (applyUpdates st ups).vars v = t := by
  unfold applyUpdates
  cases hf : ups.vars.find? (·.1 = v) with
  | none =>
    rw [List.find?_eq_none] at hf
    exact absurd (hf _ h) (by simp)
  | some x =>
    have h1 := List.find?_some hf
    have h2 := List.mem_of_find?_eq_some hf
    simp only [decide_eq_true_eq] at h1
    obtain ⟨a, b⟩ := x
    simp only at h1
    subst h1
    simpa [hf] using hu b h2

theorem applyUpdates_not_mem {st : OptState S} {ups : OptUpdates S} {v : OptVar} (h : ∀ t, (v, t) ∉ ups.vars) :
    (applyUpdates st ups).vars v = st.vars v := by
  unfold applyUpdates
  have : ups.vars.find? (·.1 = v) = none := by
    rw [List.find?_eq_none]
    rintro ⟨a, b⟩ hx hd
    simp only [decide_eq_true_eq] at hd
    subst hd
    exact h b hx
  simp [this]

/-- The normalized tensor of path `p`, when the tensors of `paths` are `r`. -/
def limitedTensor (sqrt : S → S) (o : OptOptions S) (paths : List Str) (r : Str → List S) (p : Str) : List S :=
  match o.maxNorm with
  | none => r p
  | some m =>
    let norm := sqrt (sumOfSquares (paths.map r))
    (r p).map fun x => x * clip norm 0 m / (o.epsilon + norm)

theorem find_map_self {α : Type} (f : Str → α) {paths : List Str} {p : Str} (h : p ∈ paths) :
    (paths.map fun q => (q, f q)).find? (·.1 = p) = some (p, f p) := by
  induction paths with
  | nil => cases h
  | cons q qs ih =>
    rw [List.map_cons, List.find?_cons]
    by_cases hq : q = p
    · subst hq; simp
    · rcases List.mem_cons.mp h with h | h
      · exact absurd h.symm hq
      · simpa [hq] using ih h

theorem deltaOf_normalize (sqrt : S → S) (o : OptOptions S) (r : Str → List S) {paths : List Str} {p : Str}
    (h : p ∈ paths) :
    deltaOf (normalizeDeltas sqrt o (paths.map fun q => (q, r q))) p = limitedTensor sqrt o paths r p := by
  unfold deltaOf normalizeDeltas limitedTensor
  cases hm : o.maxNorm with
  | none => simp only [find_map_self r h]; rfl
  | some m =>
    simp only [List.map_map]
    have : (Prod.snd ∘ fun q => (q, r q)) = r := rfl
    rw [this]
    have := find_map_self (fun q => (r q).map fun x =>
      x * clip (sqrt (sumOfSquares (paths.map r))) 0 m / (o.epsilon + sqrt (sumOfSquares (paths.map r)))) h
    simp only [Function.comp_def] at this ⊢
    rw [this]; rfl

theorem limitedTensor_length (sqrt : S → S) (o : OptOptions S) (paths : List Str) (r : Str → List S) (p : Str) :
    (limitedTensor sqrt o paths r p).length = (r p).length := by
  unfold limitedTensor; split <;> simp

theorem sum_list_eq_range (l : List S) (f : S → S) :
    (l.map f).sum = ∑ i ∈ Finset.range l.length, f (l.getD i 0) := by
  induction l with
  | nil => simp
  | cons a l ih =>
    rw [List.map_cons, List.sum_cons, List.length_cons, Finset.sum_range_succ', ih, add_comm]
    simp

theorem sumOfSquares_eq (paths : List Str) (r : Str → List S) :
    sumOfSquares (paths.map r) = (paths.map fun p => ∑ i ∈ Finset.range (r p).length, (r p).getD i 0 ^ 2).sum := by
  unfold sumOfSquares
  rw [List.map_map]
  congr 1
  apply List.map_congr_left
  intro p _
  exact sum_list_eq_range (r p) (· ^ 2)

theorem getD_zipWith (f : S → S → S) {a b : List S} {i : Nat} (ha : i < a.length) (hb : i < b.length) :
    (List.zipWith f a b).getD i 0 = f (a.getD i 0) (b.getD i 0) := by
  simp [List.getD_eq_getElem?_getD, ha, hb]

theorem getD_map' (f : S → S) {a : List S} {i : Nat} (ha : i < a.length) :
    (a.map f).getD i 0 = f (a.getD i 0) := by
  simp [List.getD_eq_getElem?_getD, ha]

/-- The elements of the normalized tensors are limited in the sense of the specification. -/
theorem limited_limitedTensor (sqrt : S → S) (o : OptOptions S) (paths : List Str) (r : Str → List S) (len : Str → Nat)
    (hl : ∀ p ∈ paths, (r p).length = len p) (raw : Str → Nat → S)
    (hr : ∀ p ∈ paths, ∀ i < len p, (r p).getD i 0 = raw p i) :
    Limited sqrt o.epsilon o.maxNorm paths len raw (fun p i => (limitedTensor sqrt o paths r p).getD i 0) := by
  have hn : sqrt (sumOfSquares (paths.map r)) = totalNorm sqrt paths len raw := by
    unfold totalNorm
    rw [sumOfSquares_eq]
    congr 2
    apply List.map_congr_left
    intro p hp
    rw [hl p hp]
    exact Finset.sum_congr rfl fun i hi => by rw [hr p hp i (Finset.mem_range.mp hi)]
  intro p hp i hi
  unfold limitedTensor
  cases hm : o.maxNorm with
  | none => exact hr p hp i hi
  | some m =>
    simp only [hn]
    rw [getD_map' _ (by rw [hl p hp]; exact hi), hr p hp i hi]
    unfold clip
    rw [mul_div_assoc]

theorem decayingMean_zero (gamma x0 : S) (x : Nat → S) : decayingMean gamma x0 x 0 = x0 := by
  simp [decayingMean]

theorem decayingMean_succ (gamma x0 : S) (x : Nat → S) (n : Nat) :
    decayingMean gamma x0 x (n + 1) = gamma * decayingMean gamma x0 x n + (1 - gamma) * x n := by
  unfold decayingMean
  rw [Finset.sum_range_succ, Nat.add_sub_cancel, Nat.sub_self]
  have : ∑ k ∈ Finset.range n, gamma ^ (n - k) * x k = gamma * ∑ k ∈ Finset.range n, gamma ^ (n - 1 - k) * x k := by
    rw [Finset.mul_sum]
    apply Finset.sum_congr rfl
    intro k hk
    have hk := Finset.mem_range.mp hk
    rw [← mul_assoc, ← pow_succ', show n - 1 - k + 1 = n - k from by omega]
  rw [this]
  ring

/-! Names of state variables. -/

theorem sfx_ne {p q s t : Str} (k : Nat) (hs : k ≤ s.length) (ht : k ≤ t.length)
    (h : (s.reverse).take k ≠ (t.reverse).take k) : p ++ s ≠ q ++ t := by
  intro he
  have := congrArg (fun l => (l.reverse).take k) he
  simp only [List.reverse_append] at this
  rw [List.take_append_of_le_length (by simpa using hs), List.take_append_of_le_length (by simpa using ht)] at this
  exact h this

theorem ne_meanSqrDelta {p q : Str} : p ++ sfxMeanSqrGradient ≠ q ++ sfxMeanSqrDelta :=
  sfx_ne 1 (by decide) (by decide) (by decide)
theorem ne_meanGradient {p q : Str} : p ++ sfxMeanGradient ≠ q ++ sfxMeanSqrGradient :=
  sfx_ne 11 (by decide) (by decide) (by decide)
theorem ne_velocity {p q : Str} : p ++ sfxMeanSqrGradient ≠ q ++ sfxVelocity :=
  sfx_ne 1 (by decide) (by decide) (by decide)

end
end TheanoLM
