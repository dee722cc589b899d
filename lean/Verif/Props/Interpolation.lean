import Mathlib.Analysis.SpecialFunctions.Log.Basic
import Mathlib.Analysis.Complex.ExponentialBounds
import Mathlib.Algebra.BigOperators.Intervals
import Mathlib.Algebra.BigOperators.Field
import Mathlib.Tactic.Linarith
import Mathlib.Tactic.FieldSimp
import Mathlib.Tactic.Positivity
import Mathlib.Tactic.NormNum
import Verif.Model.Interpolation
/-!
# C62: interpolation weights behave as probabilities, and C63: noise distributions are distributions over the classes

Over the real numbers, for any set of exponentials that are rounded to zero in floating point arithmetic.
-/
set_option linter.unusedSectionVars false
namespace TheanoLM

/-- The real functions. -/
noncomputable def realFun (underflow : ℝ → Bool) : ProbFun ℝ := ⟨Real.exp, Real.log, underflow⟩

/-! ## Specification -/

/-- `lp` is the logarithm of `p` (minus infinity for zero). -/
def IsLogOf (lp : Flt ℝ) (p : ℝ) : Prop := (lp = .negInf ∧ p = 0) ∨ ∃ x, lp = .fin x ∧ p = Real.exp x

/-- A finite number or minus infinity. -/
def IsLogProb (lp : Flt ℝ) : Prop := ∃ p, IsLogOf lp p

/-- The order of finite numbers and minus infinity. -/
def FltLe : Flt ℝ → Flt ℝ → Prop
  | .negInf, .negInf => True
  | .negInf, .fin _ => True
  | .fin x, .fin y => x ≤ y
  | _, _ => False

/-! ## Helpers -/

theorem isLogOf_fun {lp lp' : Flt ℝ} {p : ℝ} (h : IsLogOf lp p) (h' : IsLogOf lp' p) : lp = lp' := by
  rcases h with ⟨rfl, rfl⟩ | ⟨x, rfl, rfl⟩ <;> rcases h' with ⟨rfl, hp⟩ | ⟨y, rfl, hp⟩
  · rfl
  · exact absurd hp (Real.exp_pos y).ne
  · exact absurd hp (Real.exp_pos x).ne'
  · rw [Real.exp_injective hp]

theorem isLogOf_le {lp lp' : Flt ℝ} {p p' : ℝ} (h : IsLogOf lp p) (h' : IsLogOf lp' p') (hle : p ≤ p') : FltLe lp lp' := by
  rcases h with ⟨rfl, rfl⟩ | ⟨x, rfl, rfl⟩ <;> rcases h' with ⟨rfl, rfl⟩ | ⟨y, rfl, rfl⟩
  · trivial
  · trivial
  · exact absurd hle (not_le.mpr (Real.exp_pos x))
  · exact Real.exp_le_exp.mp hle

theorem isLogOf_nonneg {lp : Flt ℝ} {p : ℝ} (h : IsLogOf lp p) : 0 ≤ p := by
  rcases h with ⟨rfl, rfl⟩ | ⟨x, rfl, rfl⟩
  · exact le_refl _
  · exact (Real.exp_pos x).le

theorem exp_of_isLogOf {lp : Flt ℝ} {p : ℝ} (h : IsLogOf lp p) : Flt.exp Real.exp lp = .fin p := by
  rcases h with ⟨rfl, rfl⟩ | ⟨x, rfl, rfl⟩ <;> rfl

theorem exp64_of_isPos {u : ℝ → Bool} {lp : Flt ℝ} {p : ℝ} (h : IsLogOf lp p)
    (hp : (Flt.exp (realFun u).exp64 lp).isPos = true) : Flt.exp (realFun u).exp64 lp = .fin p := by
  rcases h with ⟨rfl, rfl⟩ | ⟨x, rfl, rfl⟩
  · rfl
  · show Flt.fin _ = Flt.fin _
    unfold ProbFun.exp64
    by_cases hu : (realFun u).underflow x = true
    · have : (Flt.fin ((realFun u).exp64 x)).isPos = true := hp
      rw [ProbFun.exp64, if_pos hu] at this
      simp [Flt.isPos] at this
    · rw [if_neg hu]
      rfl

theorem scale_fin (w p : ℝ) : (Flt.fin p).scale w = .fin (w * p) := rfl

theorem decimalLn_isLogOf {u : ℝ → Bool} {p : ℝ} (h : 0 ≤ p) : ∃ r, decimalLn (realFun u) (.fin p) = .ok r ∧ IsLogOf r p := by
  unfold decimalLn
  rcases h.lt_or_eq with h | h
  · refine ⟨_, if_pos h, .inr ⟨_, rfl, ?_⟩⟩
    exact (Real.exp_log h).symm
  · simp only
    rw [if_neg (by rw [← h]; exact lt_irrefl _), if_pos h.symm]
    exact ⟨_, rfl, .inl ⟨rfl, h.symm⟩⟩

theorem log_isLogOf {u : ℝ → Bool} {p : ℝ} (h : 0 ≤ p) : IsLogOf (Flt.log (realFun u) (.fin p)) p := by
  unfold Flt.log
  rcases h.lt_or_eq with h | h
  · exact .inr ⟨_, if_pos h, (Real.exp_log h).symm⟩
  · simp only
    rw [if_neg (by rw [← h]; exact lt_irrefl _), if_pos h.symm]
    exact .inl ⟨rfl, h.symm⟩

/-! ## C62 -/

/-- The result is the logarithm of the weighted sum of the probabilities, whichever exponentials are rounded to zero. -/
theorem C62_value (u : ℝ → Bool) {lp1 lp2 : Flt ℝ} {p1 p2 w : ℝ} (h1 : IsLogOf lp1 p1) (h2 : IsLogOf lp2 p2) (hw0 : 0 ≤ w)
    (hw1 : w ≤ 1) : ∃ r, interpolateLinear (realFun u) lp1 lp2 w = .ok r ∧ IsLogOf r (w * p1 + (1 - w) * p2) := by
  have hp1 := isLogOf_nonneg h1
  have hp2 := isLogOf_nonneg h2
  have hw2 : 0 ≤ 1 - w := by linarith
  have hs : 0 ≤ w * p1 + (1 - w) * p2 := add_nonneg (mul_nonneg hw0 hp1) (mul_nonneg hw2 hp2)
  unfold interpolateLinear
  simp only
  split
  · rename_i hpos
    rw [exp64_of_isPos h1 hpos.1, exp64_of_isPos h2 hpos.2, scale_fin, scale_fin]
    exact ⟨_, rfl, log_isLogOf hs⟩
  · have e1 : (if w ≠ 0 then (Flt.exp (realFun u).exp lp1).scale w else .fin 0) = .fin (w * p1) := by
      by_cases hw : w = 0
      · rw [if_neg (by simpa using hw), hw, zero_mul]
      · rw [if_pos hw, show (realFun u).exp = Real.exp from rfl, exp_of_isLogOf h1, scale_fin]
    rw [e1]
    have e2 : (if 1 - w ≠ 0 then decimalAdd (.fin (w * p1)) ((Flt.exp (realFun u).exp lp2).scale (1 - w)) else .ok (.fin (w * p1))) =
        .ok (.fin (w * p1 + (1 - w) * p2)) := by
      by_cases hw : 1 - w = 0
      · rw [if_neg (by simpa using hw), hw, zero_mul, add_zero]
      · rw [if_pos hw, show (realFun u).exp = Real.exp from rfl, exp_of_isLogOf h2, scale_fin]
        rfl
    rw [e2]
    exact decimalLn_isLogOf hs

/-- Linear interpolation of two log probabilities with a weight between zero and one is between the two. -/
theorem C62 (u : ℝ → Bool) {lp1 lp2 : Flt ℝ} {w : ℝ} (h1 : IsLogProb lp1) (h2 : IsLogProb lp2) (hw0 : 0 ≤ w) (hw1 : w ≤ 1) :
    ∃ r, interpolateLinear (realFun u) lp1 lp2 w = .ok r ∧ IsLogProb r ∧
      (FltLe lp1 lp2 → FltLe lp1 r ∧ FltLe r lp2) ∧ (FltLe lp2 lp1 → FltLe lp2 r ∧ FltLe r lp1) := by
  obtain ⟨p1, h1⟩ := h1
  obtain ⟨p2, h2⟩ := h2
  obtain ⟨r, hr, hl⟩ := C62_value u h1 h2 hw0 hw1
  have hle {a b : Flt ℝ} {p q : ℝ} (ha : IsLogOf a p) (hb : IsLogOf b q) (h : FltLe a b) : p ≤ q := by
    rcases ha with ⟨rfl, rfl⟩ | ⟨x, rfl, rfl⟩ <;> rcases hb with ⟨rfl, rfl⟩ | ⟨y, rfl, rfl⟩
    · exact le_refl _
    · exact (Real.exp_pos y).le
    · exact absurd h (by simp [FltLe])
    · exact Real.exp_le_exp.mpr h
  refine ⟨r, hr, ⟨_, hl⟩, fun h => ?_, fun h => ?_⟩
  · have := hle h1 h2 h
    exact ⟨isLogOf_le h1 hl (by nlinarith), isLogOf_le hl h2 (by nlinarith)⟩
  · have := hle h2 h1 h
    exact ⟨isLogOf_le h2 hl (by nlinarith), isLogOf_le hl h1 (by nlinarith)⟩

/-- With weight one the result is the first log probability and with weight zero the second, even when the other is minus infinity
(or not a number). -/
theorem C62_weights (u : ℝ → Bool) {lp other : Flt ℝ} (h : IsLogProb lp) (ho : other ≠ .posInf) :
    interpolateLinear (realFun u) lp other 1 = .ok lp ∧ interpolateLinear (realFun u) other lp 0 = .ok lp := by
  obtain ⟨p, hp⟩ := h
  cases other with
  | posInf => exact absurd rfl ho
  | nan =>
    obtain ⟨r, hr, hl⟩ := decimalLn_isLogOf (u := u) (isLogOf_nonneg hp)
    rw [isLogOf_fun hl hp] at hr
    constructor
    · unfold interpolateLinear
      simp only
      rw [if_neg (by simp [Flt.exp, Flt.isPos]), if_pos one_ne_zero, if_neg (by simp),
        show (realFun u).exp = Real.exp from rfl, exp_of_isLogOf hp, scale_fin, one_mul]
      exact hr
    · unfold interpolateLinear
      simp only
      rw [if_neg (by simp [Flt.exp, Flt.isPos]), if_neg (show ¬ ((0 : ℝ) ≠ 0) by simp), if_pos (show (1 - 0 : ℝ) ≠ 0 by simp),
        show (realFun u).exp = Real.exp from rfl, exp_of_isLogOf hp, scale_fin]
      show decimalLn (realFun u) (Flt.fin (0 + (1 - 0) * p)) = _
      rw [sub_zero, one_mul, zero_add]
      exact hr
  | negInf =>
    have ho : IsLogOf .negInf 0 := .inl ⟨rfl, rfl⟩
    obtain ⟨r, hr, hl⟩ := C62_value u hp ho (w := 1) zero_le_one (le_refl _)
    obtain ⟨r', hr', hl'⟩ := C62_value u ho hp (w := 0) (le_refl _) zero_le_one
    rw [hr, hr', isLogOf_fun hl (lp' := lp) (by simpa using hp), isLogOf_fun hl' (lp' := lp) (by simpa using hp)]
    exact ⟨rfl, rfl⟩
  | fin x =>
    have ho : IsLogOf (.fin x) (Real.exp x) := .inr ⟨x, rfl, rfl⟩
    obtain ⟨r, hr, hl⟩ := C62_value u hp ho (w := 1) zero_le_one (le_refl _)
    obtain ⟨r', hr', hl'⟩ := C62_value u ho hp (w := 0) (le_refl _) zero_le_one
    rw [hr, hr', isLogOf_fun hl (lp' := lp) (by simpa using hp), isLogOf_fun hl' (lp' := lp) (by simpa using hp)]
    exact ⟨rfl, rfl⟩

theorem zero_add_flt (x : Flt ℝ) : (Flt.fin 0).add x = x := by
  cases x <;> simp [Flt.add]

/-- Log-linear interpolation ignores a term with zero weight, whatever it is: the result is the other log probability times its
weight. -/
theorem C62_loglinear_zero {lp : Flt ℝ} (other : Flt ℝ) {w : ℝ} (h : IsLogProb lp) (hw : 0 < w) :
    ∃ r, interpolateLoglinearFlt lp other w 0 = .ok r ∧ interpolateLoglinearFlt other lp 0 w = .ok r ∧
      (lp = .negInf → r = .negInf) ∧ ∀ x, lp = .fin x → r = .fin (w * x) := by
  have e : ∀ r : Flt ℝ, r ≠ .nan → lp.scale w = r → interpolateLoglinearFlt lp other w 0 = .ok r ∧
      interpolateLoglinearFlt other lp 0 w = .ok r := by
    intro r hr hs
    unfold interpolateLoglinearFlt
    simp only [ne_eq, not_true_eq_false, if_false, hw.ne', not_false_eq_true, if_true, zero_add_flt, hs, hr]
    exact ⟨trivial, trivial⟩
  obtain ⟨p, ⟨rfl, -⟩ | ⟨x, rfl, -⟩⟩ := h
  · refine ⟨.negInf, ?_⟩
    obtain ⟨h1, h2⟩ := e .negInf (by simp) (by simp [Flt.scale, hw.ne', hw])
    exact ⟨h1, h2, fun _ => rfl, fun x hx => by cases hx⟩
  · refine ⟨.fin (w * x), ?_⟩
    obtain ⟨h1, h2⟩ := e (.fin (w * x)) (by simp) rfl
    exact ⟨h1, h2, fun hx => (by cases hx), fun y hy => by cases hy; rfl⟩

/-- Both weights positive: the weighted sum, or minus infinity if one of the log probabilities is. -/
theorem C62_loglinear {lp1 lp2 : Flt ℝ} {w1 w2 : ℝ} (h1 : IsLogProb lp1) (h2 : IsLogProb lp2) (hw1 : 0 < w1) (hw2 : 0 < w2) :
    ∃ r, interpolateLoglinearFlt lp1 lp2 w1 w2 = .ok r ∧ (lp1 = .negInf ∨ lp2 = .negInf → r = .negInf) ∧
      ∀ x y, lp1 = .fin x → lp2 = .fin y → r = .fin (w1 * x + w2 * y) := by
  obtain ⟨p, ⟨rfl, -⟩ | ⟨x, rfl, -⟩⟩ := h1 <;> obtain ⟨q, ⟨rfl, -⟩ | ⟨y, rfl, -⟩⟩ := h2 <;>
    simp [interpolateLoglinearFlt, Flt.scale, Flt.add, hw1.ne', hw2.ne', hw1, hw2]

/-- An undefined value is never returned as the interpolated log probability: it is an assertion failure.  This happens exactly when a
term with a nonzero weight is undefined, or the terms are opposite infinities. -/
theorem C62_loglinear_nan (lp1 lp2 : Flt ℝ) (w1 w2 : ℝ) :
    interpolateLoglinearFlt lp1 lp2 w1 w2 ≠ .ok .nan ∧
    (interpolateLoglinearFlt lp1 lp2 w1 w2 = .error .assertion ↔
      (w1 ≠ 0 ∧ lp1 = .nan) ∨ (w2 ≠ 0 ∧ lp2 = .nan) ∨
      (w1 ≠ 0 ∧ w2 ≠ 0 ∧ ((lp1.scale w1 = .posInf ∧ lp2.scale w2 = .negInf) ∨ (lp1.scale w1 = .negInf ∧ lp2.scale w2 = .posInf)))) := by
  rcases lt_trichotomy w1 0 with h1 | rfl | h1 <;> rcases lt_trichotomy w2 0 with h2 | rfl | h2 <;>
    cases lp1 <;> cases lp2 <;>
    simp [interpolateLoglinearFlt, Flt.scale, Flt.add, *, ne_of_lt, ne_of_gt, not_lt_of_gt]

example : interpolateLoglinearFlt (.negInf : Flt ℝ) .posInf 1 1 = .error .assertion := by
  rw [(C62_loglinear_nan _ _ _ _).2]
  simp [Flt.scale]

/-- The hypotheses: an ordinary and a minus infinite log probability, with and without underflow. -/
example (u : ℝ → Bool) : ∃ r, interpolateLinear (realFun u) (.fin (-1000)) .negInf (1 / 4) = .ok r ∧
    IsLogOf r (1 / 4 * Real.exp (-1000)) := by
  obtain ⟨r, hr, h⟩ := C62_value u (lp1 := .fin (-1000)) (lp2 := .negInf) (.inr ⟨_, rfl, rfl⟩) (.inl ⟨rfl, rfl⟩) (w := 1 / 4)
    (by norm_num) (by norm_num)
  exact ⟨r, hr, by simpa using h⟩

/-! ## C63 -/

/-- The uniform distribution over `n` classes: probabilities are positive and sum to one, the samples are class IDs, and a class is
sampled exactly when the random number is in an interval whose length, relative to the length of the range of the random numbers, is
the probability of the class. -/
theorem C63_uniform {n : Nat} (hn : 0 < n) :
    (∀ k, 0 < (uniformProb n k : ℝ)) ∧ (∑ k ∈ Finset.range n, (uniformProb n k : ℝ)) = 1 ∧
    (∀ u : ℝ, 0 ≤ u → u < n → uniformSample u < n) ∧
    ∀ k < n, ∃ a b : ℝ, 0 ≤ a ∧ a < b ∧ b ≤ n ∧ (b - a) / n = uniformProb n k ∧
      ∀ u : ℝ, 0 ≤ u → (uniformSample u = k ↔ a ≤ u ∧ u < b) := by
  have hn' : (0 : ℝ) < n := Nat.cast_pos.mpr hn
  refine ⟨fun k => by unfold uniformProb; positivity, ?_, fun u h0 h1 => (Nat.floor_lt h0).mpr h1, fun k hk => ?_⟩
  · unfold uniformProb
    rw [Finset.sum_const, Finset.card_range, nsmul_eq_mul]
    field_simp
  · refine ⟨k, k + 1, Nat.cast_nonneg k, by linarith, by exact_mod_cast hk, by unfold uniformProb; ring, fun u hu => ?_⟩
    exact Nat.floor_eq_iff hu

theorem log_ratio (k : Nat) : Real.log (((k : ℝ) + 2) / (k + 1)) = Real.log (k + 2) - Real.log (k + 1) :=
  Real.log_div (by positivity) (by positivity)

/-- The same for the log-uniform distribution; the range of the random numbers ends at the logarithm of `n + 1`. -/
theorem C63_loguniform (uf : ℝ → Bool) {n : Nat} (hn : 0 < n) :
    (∀ k, 0 < logUniformProb (realFun uf) n k) ∧ (∑ k ∈ Finset.range n, logUniformProb (realFun uf) n k) = 1 ∧
    (∀ u : ℝ, 0 ≤ u → u < logSupport (realFun uf) n → logUniformSample (realFun uf) u < n) ∧
    ∀ k < n, ∃ a b : ℝ, 0 ≤ a ∧ a < b ∧ b ≤ logSupport (realFun uf) n ∧
      (b - a) / logSupport (realFun uf) n = logUniformProb (realFun uf) n k ∧
      ∀ u : ℝ, 0 ≤ u → (logUniformSample (realFun uf) u = k ↔ a ≤ u ∧ u < b) := by
  have hn' : (0 : ℝ) < n := Nat.cast_pos.mpr hn
  have hs : 0 < logSupport (realFun uf) n := Real.log_pos (by linarith)
  have hlt (k : Nat) : Real.log ((k : ℝ) + 1) < Real.log (k + 2) := Real.log_lt_log (by positivity) (by linarith)
  refine ⟨fun k => ?_, ?_, fun u h0 h1 => ?_, fun k hk => ?_⟩
  · refine div_pos ?_ hs
    show 0 < Real.log _
    rw [log_ratio]
    linarith [hlt k]
  · unfold logUniformProb
    rw [← Finset.sum_div]
    have : ∑ k ∈ Finset.range n, (realFun uf).ln (((k : ℝ) + 2) / (k + 1)) = logSupport (realFun uf) n := by
      show ∑ k ∈ Finset.range n, Real.log (((k : ℝ) + 2) / (k + 1)) = Real.log (n + 1)
      have h := Finset.sum_range_sub (fun k : Nat => Real.log ((k : ℝ) + 1)) n
      rw [show Real.log ((0 : Nat) + 1 : ℝ) = 0 by simp, sub_zero] at h
      rw [← h]
      refine Finset.sum_congr rfl fun k _ => ?_
      rw [log_ratio]
      push_cast
      rw [add_assoc, one_add_one_eq_two]
    rw [this, div_self hs.ne']
  · have he : 1 ≤ Real.exp u := Real.one_le_exp h0
    refine (Nat.floor_lt (sub_nonneg.mpr he)).mpr ?_
    have := (Real.lt_log_iff_exp_lt (by linarith)).mp h1
    show Real.exp u - 1 < n
    linarith
  · have hk' : (k : ℝ) + 1 ≤ n := by exact_mod_cast hk
    refine ⟨Real.log (k + 1), Real.log (k + 2), Real.log_nonneg (by linarith [Nat.cast_nonneg (α := ℝ) k]), hlt k,
      Real.log_le_log (by positivity) (by linarith), ?_, fun u hu => ?_⟩
    · unfold logUniformProb
      rw [show (realFun uf).ln = Real.log from rfl, log_ratio]
    · have he : 1 ≤ Real.exp u := Real.one_le_exp hu
      have hf : logUniformSample (realFun uf) u = ⌊Real.exp u - 1⌋₊ := rfl
      rw [hf, Nat.floor_eq_iff (sub_nonneg.mpr he), Real.log_le_iff_le_exp (by positivity), Real.lt_log_iff_exp_lt (by positivity)]
      constructor <;> rintro ⟨h1, h2⟩ <;> constructor <;> linarith

/-- The samples from a multinomial distribution are class IDs, whatever Theano returns; its probabilities are the given ones. -/
theorem C63_multinomial {probs : List ℝ} (hn : probs ≠ []) (x : Int) :
    ∃ k : Nat, multinomialSample probs.length x = k ∧ k < probs.length ∧ ∃ p, multinomialProb probs k = .ok p ∧ p ∈ probs := by
  have hpos : (0 : Int) < probs.length := by
    exact_mod_cast List.length_pos_iff.mpr hn
  have h0 := Int.emod_nonneg x hpos.ne'
  have h1 := Int.emod_lt_of_pos x hpos
  refine ⟨(x % probs.length).toNat, ?_, by omega, ?_⟩
  · unfold multinomialSample
    omega
  · have hlt : (x % probs.length).toNat < probs.length := by omega
    refine ⟨probs[(x % probs.length).toNat], ?_, List.getElem_mem hlt⟩
    unfold multinomialProb
    rw [List.getElem?_eq_getElem hlt]

/-- The cases of `C63_loguniform` for two classes: the random number one gives the last class. -/
example : 0 < 2 ∧ (0 : ℝ) ≤ 1 ∧ (1 : ℝ) < logSupport (realFun fun _ => false) 2 := by
  refine ⟨by norm_num, by norm_num, ?_⟩
  show 1 < Real.log ((2 : Nat) + 1)
  rw [Real.lt_log_iff_exp_lt (by norm_num)]
  have h := Real.exp_one_lt_d9
  have : (2.7182818286 : ℝ) < (2 : Nat) + 1 := by norm_num
  exact lt_trans h this

end TheanoLM
