import Verif.Lemmas.LanguageModel
import Mathlib.Data.List.Induction
/-!
# Sums of the probabilities of sentences
-/
namespace TheanoLM

/-- The probability of the words `ws` after the words `h`, when `q` gives the probabilities of the words. -/
noncomputable def prefProb (q : List Nat → Nat → ℝ) : List Nat → List Nat → ℝ
  | _, [] => 1
  | h, w :: ws => q h w * prefProb q (h ++ [w]) ws

theorem prefProb_snoc (q : List Nat → Nat → ℝ) (w : Nat) : ∀ ws h, prefProb q h (ws ++ [w]) = prefProb q h ws * q (h ++ ws) w
  | [], h => by simp [prefProb]
  | x :: ws, h => by
    show q h x * prefProb q (h ++ [x]) (ws ++ [w]) = q h x * prefProb q (h ++ [x]) ws * _
    rw [prefProb_snoc q w ws, mul_assoc, List.append_assoc]
    rfl

theorem treeProb_eq (q : List Nat → Nat → ℝ) (last : Nat) : ∀ ws h, treeProb q last h ws = prefProb q h ws * q (h ++ ws) last
  | [], h => by simp [prefProb, treeProb]
  | x :: ws, h => by
    show q h x * treeProb q last (h ++ [x]) ws = q h x * prefProb q (h ++ [x]) ws * _
    rw [treeProb_eq q last ws, mul_assoc, List.append_assoc]
    rfl

theorem prefProb_nonneg {q : List Nat → Nat → ℝ} (hq : ∀ h w, 0 ≤ q h w) : ∀ ws h, 0 ≤ prefProb q h ws
  | [], _ => zero_le_one
  | w :: ws, h => mul_nonneg (hq h w) (prefProb_nonneg hq ws _)

/-- The lists of `n` words of the set. -/
def wordLists (B : Finset Nat) : Nat → Finset (List Nat)
  | 0 => {[]}
  | n + 1 => (wordLists B n ×ˢ B).image fun x => x.1 ++ [x.2]

theorem mem_wordLists {B : Finset Nat} : ∀ {n : Nat} {ws : List Nat}, ws ∈ wordLists B n ↔ ws.length = n ∧ ∀ w ∈ ws, w ∈ B
  | 0, ws => by
    unfold wordLists
    rw [Finset.mem_singleton, List.length_eq_zero_iff]
    constructor
    · rintro rfl; simp
    · exact fun h => h.1
  | n + 1, ws => by
    unfold wordLists
    rw [Finset.mem_image]
    constructor
    · rintro ⟨⟨l, w⟩, hl, rfl⟩
      obtain ⟨h1, h2⟩ := Finset.mem_product.mp hl
      obtain ⟨h3, h4⟩ := mem_wordLists.mp h1
      refine ⟨by simp only [List.length_append, List.length_singleton]; rw [h3], fun x hx => ?_⟩
      rcases List.mem_append.mp hx with hx | hx
      · exact h4 x hx
      · rw [List.mem_singleton.mp hx]; exact h2
    · rintro ⟨h1, h2⟩
      rcases List.eq_nil_or_concat ws with rfl | ⟨l, w, rfl⟩
      · simp at h1
      · refine ⟨(l, w), Finset.mem_product.mpr ⟨mem_wordLists.mpr ⟨by simpa using h1, fun x hx => h2 x (by simp [hx])⟩, h2 w (by simp)⟩, by simp⟩

theorem sum_wordLists (B : Finset Nat) (n : Nat) (f : List Nat → ℝ) :
    ∑ ws ∈ wordLists B (n + 1), f ws = ∑ ws ∈ wordLists B n, ∑ w ∈ B, f (ws ++ [w]) := by
  show ∑ ws ∈ (wordLists B n ×ˢ B).image (fun x => x.1 ++ [x.2]), f ws = _
  rw [Finset.sum_image, Finset.sum_product]
  rintro ⟨l, w⟩ _ ⟨l', w'⟩ _ h
  obtain ⟨h1, h2⟩ := List.append_inj' h rfl
  cases h2
  simp only at h1
  rw [h1]

section
variable {q : List Nat → Nat → ℝ} {A : Finset Nat} {last : Nat}

theorem prefProb_step (hl : last ∈ A) (hs : ∀ h, h ≠ [] → ∑ w ∈ A, q h w = 1) {h : List Nat} (hne : h ≠ []) (n : Nat) :
    ∑ ws ∈ wordLists (A.erase last) (n + 1), prefProb q h ws =
      ∑ ws ∈ wordLists (A.erase last) n, prefProb q h ws * (1 - q (h ++ ws) last) := by
  rw [sum_wordLists]
  refine Finset.sum_congr rfl fun ws _ => ?_
  simp only [prefProb_snoc]
  rw [← Finset.mul_sum, ← hs (h ++ ws) (by simp [hne]), ← Finset.add_sum_erase A _ hl, add_sub_cancel_left]

/-- The probability that there are `n` words without the last word. -/
theorem prefProb_sum (hq : ∀ h w, 0 ≤ q h w) (hl : last ∈ A) (hs : ∀ h, h ≠ [] → ∑ w ∈ A, q h w = 1) {δ : ℝ} (h1 : δ ≤ 1)
    (hδ : ∀ h, h ≠ [] → δ ≤ q h last) {h : List Nat} (hne : h ≠ []) :
    ∀ n, ∑ ws ∈ wordLists (A.erase last) n, prefProb q h ws ≤ (1 - δ) ^ n
  | 0 => by simp [wordLists, prefProb]
  | n + 1 => by
    rw [prefProb_step hl hs hne]
    calc _ ≤ ∑ ws ∈ wordLists (A.erase last) n, prefProb q h ws * (1 - δ) := by
          refine Finset.sum_le_sum fun ws _ => mul_le_mul_of_nonneg_left ?_ (prefProb_nonneg hq ws h)
          linarith [hδ (h ++ ws) (by simp [hne])]
      _ = (∑ ws ∈ wordLists (A.erase last) n, prefProb q h ws) * (1 - δ) := by rw [Finset.sum_mul]
      _ ≤ (1 - δ) ^ n * (1 - δ) := mul_le_mul_of_nonneg_right (prefProb_sum hq hl hs h1 hδ hne n) (by linarith)
      _ = (1 - δ) ^ (n + 1) := (pow_succ _ _).symm

/-- The sentences with less than `n` words and the beginnings of `n` words have all the probability. -/
theorem treeProb_total (hl : last ∈ A) (hs : ∀ h, h ≠ [] → ∑ w ∈ A, q h w = 1) {h : List Nat} (hne : h ≠ []) :
    ∀ n, ∑ k ∈ Finset.range n, ∑ ws ∈ wordLists (A.erase last) k, treeProb q last h ws +
      ∑ ws ∈ wordLists (A.erase last) n, prefProb q h ws = 1
  | 0 => by simp [wordLists, prefProb]
  | n + 1 => by
    rw [Finset.sum_range_succ, prefProb_step hl hs hne, add_assoc, ← Finset.sum_add_distrib]
    refine Eq.trans ?_ (treeProb_total hl hs hne n)
    congr 1
    refine Finset.sum_congr rfl fun ws _ => ?_
    rw [treeProb_eq]
    ring

end
end TheanoLM
