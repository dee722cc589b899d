import Verif.Props.MergeSubwordsSpec
import Mathlib.Algebra.Group.Basic
/-!
# Lemmas about merging subwords
-/
set_option linter.unusedSectionVars false

namespace TheanoLM

section
variable {S : Type} [AddMonoid S]

theorem addLogprob_none_right (a : Option S) : addLogprob a none = none := by cases a <;> rfl

theorem totalLogprob_cons (a : Option S) (l : List (Option S)) :
    totalLogprob (a :: l) = addLogprob a (totalLogprob l) := by
  cases a <;> simp only [totalLogprob] <;> cases totalLogprob l <;> rfl

theorem addLogprob_assoc (a b c : Option S) : addLogprob (addLogprob a b) c = addLogprob a (addLogprob b c) := by
  cases a <;> cases b <;> cases c <;> simp [addLogprob, add_assoc]

theorem addLogprob_zero (a : Option S) : addLogprob a (some 0) = a := by cases a <;> simp [addLogprob]

theorem zero_addLogprob (a : Option S) : addLogprob (some 0) a = a := by cases a <;> simp [addLogprob]

theorem totalLogprob_append (l m : List (Option S)) :
    totalLogprob (l ++ m) = addLogprob (totalLogprob l) (totalLogprob m) := by
  induction l with
  | nil => exact (zero_addLogprob _).symm
  | cons a l ih => rw [List.cons_append, totalLogprob_cons, totalLogprob_cons, ih, addLogprob_assoc]

theorem totalLogprob_flatten (ls : List (List (Option S))) :
    totalLogprob ls.flatten = totalLogprob (ls.map totalLogprob) := by
  induction ls with
  | nil => rfl
  | cons l ls ih => rw [List.flatten_cons, totalLogprob_append, ih, List.map_cons, totalLogprob_cons]

theorem totalLogprob_snoc (l : List (Option S)) (a : Option S) :
    totalLogprob (l ++ [a]) = addLogprob (totalLogprob l) a := by
  rw [totalLogprob_append, totalLogprob_cons]; simp only [totalLogprob, addLogprob_zero]

theorem totalLogprob_eq_none (l : List (Option S)) : totalLogprob l = none ↔ none ∈ l := by
  induction l with
  | nil => simp [totalLogprob]
  | cons a l ih => cases a <;> simp [totalLogprob, ih]

theorem canJoin_iff (cw : List Str) (s : Str) : canJoin cw s = true ↔ ∃ l ∈ cw.getLast?, Joined l s := by
  unfold canJoin
  cases h : cw.getLast? with
  | none => simp
  | some l =>
    simp only [Bool.and_eq_true, beq_iff_eq, Option.mem_def, Option.some.injEq, exists_eq_left', Joined]
    constructor
    · rintro ⟨h1, h2⟩
      refine ⟨?_, ?_⟩
      · obtain ⟨x, hx⟩ := List.getLast?_eq_some_iff.mp h1
        exact ⟨x, hx⟩
      · cases s with
        | nil => simp at h2
        | cons c s => simp at h2; exact ⟨s, by rw [h2]⟩
    · rintro ⟨⟨x, rfl⟩, ⟨y, rfl⟩⟩
      simp

theorem flush_affix (seg : List (Str × Option S)) (hne : seg ≠ [])
    (words : List (List Str)) (lps : List (Option S)) :
    flushWord words lps (seg.map Prod.fst) (totalLogprob (seg.map Prod.snd)) =
      (words ++ [seg.map Prod.fst], lps ++ [totalLogprob (seg.map Prod.snd)]) := by
  unfold flushWord
  rw [if_pos (by simpa using hne)]

theorem mergeAffix_inv (ps : List (Str × Option S)) : ∀ (seg : List (Str × Option S)), seg ≠ [] →
    seg.IsChain (fun a b => Joined a.1 b.1) → ∀ (words : List (List Str)) (lps : List (Option S)),
    ∃ g gs, (∃ t, g = seg ++ t) ∧ AffixWords (seg ++ ps) (g :: gs) ∧
      mergeAffix ps words lps (seg.map Prod.fst) (totalLogprob (seg.map Prod.snd)) =
        (words ++ (g :: gs).map (·.map Prod.fst), lps ++ (g :: gs).map (fun g => totalLogprob (g.map Prod.snd))) := by
  induction ps with
  | nil =>
    intro seg hne hch words lps
    refine ⟨seg, [], ⟨[], by simp⟩, ⟨by simp, by simpa using hne, by simpa using hch, List.isChain_singleton _⟩, ?_⟩
    rw [mergeAffix, flush_affix seg hne]; rfl
  | cons p ps ih =>
    obtain ⟨sw, lp⟩ := p
    intro seg hne hch words lps
    rw [mergeAffix]
    by_cases hj : canJoin (seg.map Prod.fst) sw = true
    · rw [if_pos hj]
      obtain ⟨l, hl, hjl⟩ := (canJoin_iff _ _).mp hj
      have hch' : (seg ++ [(sw, lp)]).IsChain (fun a b => Joined a.1 b.1) := by
        rw [List.isChain_append]
        refine ⟨hch, List.isChain_singleton _, ?_⟩
        intro a ha b hb
        simp at hb; subst hb
        rw [List.getLast?_map] at hl
        rw [Option.mem_def] at ha
        rw [ha] at hl
        simp at hl; subst hl
        exact hjl
      obtain ⟨g, gs, ⟨t, ht⟩, hw, he⟩ := ih (seg ++ [(sw, lp)]) (by simp) hch' words lps
      refine ⟨g, gs, ⟨(sw, lp) :: t, by rw [ht]; simp⟩, by simpa using hw, ?_⟩
      rw [← he, List.map_append, List.map_append, totalLogprob_append]
      simp [totalLogprob_cons, totalLogprob, addLogprob_zero]
    · rw [if_neg hj, if_pos (by simpa using hne)]
      obtain ⟨g, gs, ⟨t, ht⟩, hw, he⟩ := ih [(sw, lp)] (by simp) (List.isChain_singleton _)
        (words ++ [seg.map Prod.fst]) (lps ++ [totalLogprob (seg.map Prod.snd)])
      refine ⟨seg, g :: gs, ⟨[], by simp⟩, ⟨?_, ?_, ?_, ?_⟩, ?_⟩
      · rw [List.flatten_cons, hw.all]; rfl
      · intro x hx
        rcases List.mem_cons.mp hx with rfl | hx
        · exact hne
        · exact hw.nonempty x hx
      · intro x hx
        rcases List.mem_cons.mp hx with rfl | hx
        · exact hch
        · exact hw.joined x hx
      · refine List.IsChain.cons_cons ?_ hw.maximal
        intro a ha b hb hab
        rw [ht] at hb; simp at hb; subst hb
        apply hj
        rw [canJoin_iff]
        refine ⟨a.1, ?_, hab⟩
        rw [List.getLast?_map]
        rw [Option.mem_def] at ha
        rw [ha]; rfl
      · have e : totalLogprob [lp] = lp := by simp [totalLogprob_cons, totalLogprob, addLogprob_zero]
        simp only [List.map_cons, List.map_nil, e] at he
        rw [he]
        simp

theorem mergeAffix_spec (ps : List (Str × Option S)) (words : List (List Str)) (lps : List (Option S)) :
    ∃ gs, AffixWords ps gs ∧ mergeAffix ps words lps [] (some 0) =
      (words ++ gs.map (·.map Prod.fst), lps ++ gs.map (fun g => totalLogprob (g.map Prod.snd))) := by
  cases ps with
  | nil => exact ⟨[], ⟨rfl, by simp, by simp, List.isChain_nil⟩, by simp [mergeAffix, flushWord]⟩
  | cons p ps =>
    obtain ⟨sw, lp⟩ := p
    obtain ⟨g, gs, -, hw, he⟩ := mergeAffix_inv ps [(sw, lp)] (by simp) (List.isChain_singleton _) words lps
    refine ⟨g :: gs, hw, ?_⟩
    rw [← he, mergeAffix, if_neg (by simp [canJoin]), if_neg (by simp)]
    have e : totalLogprob [lp] = lp := by simp [totalLogprob_cons, totalLogprob, addLogprob_zero]
    simp [e]

theorem shownWord_eq_nil (g : List (Str × Option S)) : shownWord g = [] ↔ g = [] := by
  unfold shownWord
  split
  · rename_i h
    simp only [List.cons_ne_self, false_iff]
    rintro rfl; simp at h
  · simp

theorem mergeBoundary_inv (ps : List (Str × Option S)) : ∀ (seg : List (Str × Option S)),
    (∀ p ∈ seg, p.1 ≠ wordBoundaryToken) → ∀ (words : List (List Str)) (lps : List (Option S)),
    ∃ full last, BoundaryWords (seg ++ ps) full last ∧
      mergeBoundary ps words lps (shownWord seg) (totalLogprob (seg.map Prod.snd)) =
        (words ++ (nonemptySegments full last).map (fun s => shownWord s.1),
         lps ++ (nonemptySegments full last).map (fun s => totalLogprob (s.2.map Prod.snd))) := by
  induction ps with
  | nil =>
    intro seg hseg words lps
    refine ⟨[], seg, ⟨by simp, by simp, by simp, hseg⟩, ?_⟩
    rw [mergeBoundary, flushWord]
    by_cases h : seg = []
    · subst h; simp [shownWord, nonemptySegments]
    · rw [if_pos (by rw [ne_eq, shownWord_eq_nil]; exact h)]
      simp [nonemptySegments, h]
  | cons p ps ih =>
    obtain ⟨sw, lp⟩ := p
    intro seg hseg words lps
    rw [mergeBoundary]
    by_cases hw : sw = wordBoundaryToken
    · rw [if_pos hw]
      have e0 : shownWord ([] : List (Str × Option S)) = [] := by simp [shownWord]
      by_cases hne : seg = []
      · subst hne
        rw [if_neg (by simp [shownWord])]
        obtain ⟨full, last, hb, he⟩ := ih [] (by simp) words lps
        simp only [e0, List.map_nil, totalLogprob] at he
        refine ⟨([], (sw, lp)) :: full, last, ⟨?_, ?_, ?_, hb.innerLast⟩, ?_⟩
        · rw [List.flatMap_cons]; simpa using hb.all
        · intro s hs
          rcases List.mem_cons.mp hs with rfl | hs
          · exact hw
          · exact hb.ends s hs
        · intro s hs
          rcases List.mem_cons.mp hs with rfl | hs
          · simp
          · exact hb.inner s hs
        · rw [e0, he]; simp [nonemptySegments]
      · rw [if_pos (by rw [ne_eq, shownWord_eq_nil]; exact hne)]
        obtain ⟨full, last, hb, he⟩ := ih [] (by simp) (words ++ [shownWord seg])
          (lps ++ [addLogprob (totalLogprob (seg.map Prod.snd)) lp])
        simp only [e0, List.map_nil, totalLogprob] at he
        refine ⟨(seg, (sw, lp)) :: full, last, ⟨?_, ?_, ?_, hb.innerLast⟩, ?_⟩
        · rw [List.flatMap_cons]
          have := hb.all
          simp only [List.nil_append] at this
          simp [this]
        · intro s hs
          rcases List.mem_cons.mp hs with rfl | hs
          · exact hw
          · exact hb.ends s hs
        · intro s hs
          rcases List.mem_cons.mp hs with rfl | hs
          · exact hseg
          · exact hb.inner s hs
        · rw [he]; simp [nonemptySegments, hne, totalLogprob_snoc]
    · rw [if_neg hw]
      have hseg' : ∀ p ∈ seg ++ [(sw, lp)], p.1 ≠ wordBoundaryToken := by
        intro p hp
        rcases List.mem_append.mp hp with hp | hp
        · exact hseg p hp
        · simp at hp; subst hp; exact hw
      obtain ⟨full, last, hb, he⟩ := ih (seg ++ [(sw, lp)]) hseg' words lps
      refine ⟨full, last, by simpa using hb, ?_⟩
      rw [← he, List.map_append]
      simp only [List.map_cons, List.map_nil, totalLogprob_snoc]
      by_cases hu : unk ∈ seg.map Prod.fst
      · have e1 : shownWord seg = [unk] := by simp only [shownWord, if_pos hu]
        have e2 : shownWord (seg ++ [(sw, lp)]) = [unk] := by
          unfold shownWord; rw [if_pos]; rw [List.map_append]; exact List.mem_append_left _ hu
        rw [e1, e2, if_pos (by simp)]
      · have e1 : shownWord seg = seg.map Prod.fst := by simp only [shownWord, if_neg hu]
        by_cases hs : sw = unk
        · have e2 : shownWord (seg ++ [(sw, lp)]) = [unk] := by
            unfold shownWord; rw [if_pos]; rw [List.map_append, hs]; simp
          rw [e1, e2, if_pos (Or.inr hs)]
        · have e2 : shownWord (seg ++ [(sw, lp)]) = seg.map Prod.fst ++ [sw] := by
            unfold shownWord; rw [if_neg]
            · simp
            · rw [List.map_append, List.mem_append]
              simp only [List.map_cons, List.map_nil, List.mem_singleton]
              rintro (h | h)
              · exact hu h
              · exact hs h.symm
          rw [e1, e2, if_neg]
          rintro (h | h)
          · exact hu h
          · exact hs h

theorem mergeBoundary_spec (ps : List (Str × Option S)) (words : List (List Str)) (lps : List (Option S)) :
    ∃ full last, BoundaryWords ps full last ∧ mergeBoundary ps words lps [] (some 0) =
        (words ++ (nonemptySegments full last).map (fun s => shownWord s.1),
         lps ++ (nonemptySegments full last).map (fun s => totalLogprob (s.2.map Prod.snd))) := by
  obtain ⟨full, last, hb, he⟩ := mergeBoundary_inv ps [] (by simp) words lps
  exact ⟨full, last, by simpa using hb, by simpa [shownWord, totalLogprob] using he⟩

end

end TheanoLM
