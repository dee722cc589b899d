import Mathlib.Data.List.Induction
import Verif.Props.Vocabulary
/-!
# C126: the number of normal classes
-/
namespace TheanoLM

/-- The class has one word, which starts with `<`. -/
def MarkedClass (v : Vocab) (c : Nat) : Prop := ∃ i rest, membersOf v c = [i] ∧ v.idToWord[i]? = some ('<' :: rest)

theorem dropEnd_spec {α : Type} (p : α → Bool) (l : List α) : (l.reverse.dropWhile p).length ≤ l.length ∧
    (∀ c x, (l.reverse.dropWhile p).length ≤ c → l[c]? = some x → p x = true) ∧
    ∀ c x, c + 1 = (l.reverse.dropWhile p).length → l[c]? = some x → p x = false := by
  induction l using List.reverseRecOn with
  | nil => simp
  | append_singleton l a ih =>
    obtain ⟨h1, h2, h3⟩ := ih
    rw [List.reverse_append, List.reverse_singleton, List.singleton_append, List.dropWhile_cons]
    split
    · rename_i hp
      refine ⟨by rw [List.length_append]; exact le_trans h1 (Nat.le_add_right _ _), fun c x hc hx => ?_, fun c x hc hx => ?_⟩
      · by_cases hlt : c < l.length
        · rw [List.getElem?_append_left hlt] at hx
          exact h2 c x hc hx
        · rw [List.getElem?_append_right (by omega)] at hx
          have := List.mem_of_getElem? hx
          rw [List.mem_singleton.mp this]
          exact hp
      · rw [List.getElem?_append_left (by omega)] at hx
        exact h3 c x hc hx
    · rename_i hp
      have hlen : (a :: l.reverse).length = l.length + 1 := by simp
      rw [hlen]
      refine ⟨by simp, fun c x hc hx => ?_, fun c x hc hx => ?_⟩
      · rw [List.getElem?_eq_none (by simpa using hc)] at hx
        cases hx
      · have : c = l.length := by omega
        subst this
        rw [List.getElem?_append_right (le_refl _)] at hx
        simp only [Nat.sub_self, List.getElem?_cons_zero, Option.some.injEq] at hx
        subst hx
        simpa using hp

theorem special_marked {v : Vocab} {n : Nat} {ps : List ℚ} (h : VInv v n ps) {c : Nat} {k : WordClass} (hk : v.classes[c]? = some k) :
    isSpecialClass v.idToWord k = true ↔ MarkedClass v c := by
  have hc : c < n := by
    have := (List.getElem?_eq_some_iff.mp hk).1
    rw [h.cls, classList_length] at this
    exact this
  rw [h.cls, classList_get hc] at hk
  injection hk with hk
  subst hk
  unfold isSpecialClass MarkedClass
  rw [membersOf_eq]
  have hlt : ∀ i ∈ idsOf v.classOf c, i < v.idToWord.length := by
    intro i hi
    unfold idsOf at hi
    have := List.mem_range.mp (List.mem_filter.mp hi).1
    have := h.short
    omega
  rcases hids : idsOf v.classOf c with _ | ⟨i, _ | ⟨j, rest⟩⟩
  · simp
  · have hi := hlt i (by rw [hids]; simp)
    simp only [List.map_cons, List.map_nil, List.getD_eq_getElem?_getD, List.getElem?_eq_getElem hi, Option.getD_some]
    constructor
    · intro hh
      cases hw : v.idToWord[i] with
      | nil => rw [hw] at hh; simp at hh
      | cons x xs =>
        rw [hw] at hh
        simp only [List.head?_cons, beq_iff_eq, Option.some.injEq] at hh
        subst hh
        exact ⟨i, xs, rfl, by rw [List.getElem?_eq_getElem hi, hw]⟩
    · rintro ⟨i', xs, e, hw⟩
      simp only [List.cons.injEq, and_true] at e
      subst e
      rw [List.getElem?_eq_getElem hi] at hw
      injection hw with hw
      rw [hw]
      rfl
  · simp

/-- C126: the classes after the normal classes are exactly the longest sequence of classes at the end that have one word that starts with
`<`. -/
theorem C126_normal_classes (P : Parsers) (v : Vocab) (h : Constructible P v) :
    v.numNormal ≤ v.numClasses ∧ (∀ c, v.numNormal ≤ c → c < v.numClasses → MarkedClass v c) ∧
    ∀ c, c + 1 = v.numNormal → ¬ MarkedClass v c := by
  obtain ⟨n, ps, hv⟩ := h.inv
  rw [hv.normal]
  obtain ⟨h1, h2, h3⟩ := dropEnd_spec (isSpecialClass v.idToWord) v.classes
  refine ⟨h1, fun c hc hlt => ?_, fun c hc hm => ?_⟩
  · have hk := List.getElem?_eq_getElem (show c < v.classes.length from hlt)
    exact (special_marked hv hk).mp (h2 c _ hc hk)
  · have hlt : c < v.classes.length := by
      unfold numNormalClasses at hc
      omega
    have hk := List.getElem?_eq_getElem hlt
    have := h3 c _ hc hk
    rw [(special_marked hv hk).mpr hm] at this
    cases this

/-- C126: words that do not start with `<` are in normal classes. -/
theorem C126_normal_words (P : Parsers) (v : Vocab) (h : Constructible P v) (i c : Nat) (hi : i < v.numShortlist)
    (hc : v.classOf[i]? = some c) (hw : ∀ rest, v.idToWord[i]? ≠ some ('<' :: rest)) : c < v.numNormal := by
  by_contra hge
  obtain ⟨n, ps, hv⟩ := h.inv
  have hlt : c < v.numClasses := by
    rw [hv.numClasses]
    exact hv.lt c (List.mem_of_getElem? hc)
  obtain ⟨j, rest, hj, hjw⟩ := (C126_normal_classes P v h).2.1 c (by omega) hlt
  have : i ∈ membersOf v c := List.mem_filter.mpr ⟨List.mem_range.mpr hi, by simpa using hc⟩
  rw [hj] at this
  rw [List.mem_singleton.mp this] at hw
  exact hw rest hjw

example : ∃ v, Constructible exParsers v ∧ v.numNormal = 2 ∧ v.numClasses = 5 := by
  obtain ⟨v, h1, h2⟩ : ∃ v, vocabFromFile exParsers exVocabLines .classes ["x".toList] = .ok v ∧ v.numNormal = 2 ∧ v.numClasses = 5 := by
    decide +kernel
  exact ⟨v, .file _ _ _ _ h1, h2⟩

/-- A word that starts with `<` in the middle of the vocabulary is in a normal class. -/
example : ∃ v, Constructible exParsers v ∧ v.numNormal = 2 ∧ v.numClasses = 5 := by
  obtain ⟨v, h1, h2⟩ : ∃ v, vocabFromFile exParsers ["<b>".toList, "a>".toList] .words [] = .ok v ∧ v.numNormal = 2 ∧ v.numClasses = 5 := by
    decide +kernel
  exact ⟨v, .file _ _ _ _ h1, h2⟩

end TheanoLM
