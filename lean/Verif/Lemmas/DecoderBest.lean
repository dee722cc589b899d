import Verif.Lemmas.DecoderPath
import Mathlib.Tactic.Abel
/-!
# Lemmas about the lattice decoder: scores of paths, and decoding without pruning
-/
namespace TheanoLM

variable {S St : Type}

set_option linter.unusedSectionVars false

section
variable [Field S] [LinearOrder S] {D : Decoder S St} {L : Lattice S}

theorem loglinear_eq (a b p q : S) : interpolateLoglinear a b p q = p * a + q * b := by
  unfold interpolateLoglinear
  by_cases hp : p = 0 <;> by_cases hq : q = 0 <;> simp [hp, hq]

theorem limitToShortlist_eq (V : DecVocab S) (w : HistWord) : limitToShortlist V w = netId V w := by
  cases w <;> rfl

theorem netState_snoc (ws : List HistWord) (w : HistWord) : netState D (ws ++ [w]) =
    D.net.next (netState D ws) (netId D.vocab w) (D.vocab.classId (netId D.vocab w)) := by
  simp [netState, List.foldl_append]

/-- The state and the history of a token on a path. -/
theorem runPath_state (ls : List (Link S)) : ∃ before prev, (runPath D L ls).history = before ++ [prev] ∧
    (runPath D L ls).state = netState D before := by
  induction ls using List.reverseRecOn with
  | nil => exact ⟨[], _, rfl, rfl⟩
  | append_singleton ls k ih =>
    obtain ⟨before, prev, h1, h2⟩ := ih
    rw [runPath_snoc]
    unfold propagateLink
    simp only
    cases hk : k.word with
    | none => exact ⟨before, prev, h1, h2⟩
    | some w =>
      refine ⟨before ++ [prev], histWord D.vocab w, ?_, ?_⟩
      · simp only [mkToken, h1]
      · simp only [mkToken, appendWord, h1, h2, lastWord, List.getLast?_append, List.getLast?_singleton,
          Option.some_or, Option.getD_some, limitToShortlist_eq]
        rw [netState_snoc]

/-- The score that the decoder adds for a word: the membership score is the one of the previous word. -/
theorem appendWord_eq (before : List HistWord) (prev w : HistWord) (s : Option S) :
    (appendWord D (netState D before) prev w s).2 =
      handleUnkLogprob D.vocab w (classScore D before prev w + memberScore D.vocab prev) s := by
  simp only [appendWord, limitToShortlist_eq, classScore, memberScore]

theorem handleUnk_known (V : DecVocab S) (w : HistWord) (x : S) (s : Option S) (h : s = none ∨ ¬ IsUnknown V w) :
    handleUnkLogprob V w x s = x + oosScore V w := by
  unfold handleUnkLogprob oosScore
  cases ho : V.oosLogprob with
  | some oos =>
    cases w with
    | inl i => rfl
    | inr t =>
      rcases h with rfl | h
      · simp
      · exact absurd trivial h
  | none =>
    cases w with
    | inl i =>
      simp only [add_zero]
      split
      · rfl
      · rename_i hi
        rcases h with rfl | h
        · rfl
        · exact absurd ⟨ho, by simpa using hi⟩ h
    | inr t =>
      rcases h with rfl | h
      · simp
      · exact absurd trivial h

theorem handleUnk_unknown (V : DecVocab S) (w : HistWord) (x y : S) (h : IsUnknown V w) :
    handleUnkLogprob V w x (some y) = y := by
  unfold handleUnkLogprob
  cases w with
  | inl i =>
    obtain ⟨h1, h2⟩ := h
    simp [h1, h2]
  | inr t => cases V.oosLogprob <;> simp

theorem unkScore_eq {k : Link S} {s : Option S} (h : UnkScore D k s) : oovLogprob D k = s := by
  unfold oovLogprob
  cases hu : D.unkFromLattice with
  | true => rw [if_pos rfl, h.1 hu]
  | false => rw [if_neg (by simp), h.2 hu]

theorem histIs_eq {w : Str} {h : HistWord} (hi : HistIs D.vocab w h) : histWord D.vocab w = h := by
  unfold histWord
  cases hw : D.vocab.wordToId w with
  | some i => simp only; rw [hi.1 i hw]
  | none => simp only; rw [hi.2 hw]

/-- Either no score replaces the scores of unknown words, or all words have the same membership score as `<unk>`. -/
def NoClassEffect (D : Decoder S St) : Prop :=
  (D.unkFromLattice = false ∧ D.unkPenalty = none) ∨ ∀ w : HistWord, memberScore D.vocab w = D.vocab.logMember D.vocab.unk

theorem isUnknown_member {V : DecVocab S} {w : HistWord} (h : IsUnknown V w) :
    memberScore V w = V.logMember V.unk := by
  cases w with
  | inl i => simp [memberScore, netId, h.2]
  | inr t => rfl

/-- The NNLM score of a token differs from the sum of the log probabilities of the words by the membership scores of
the first and the last word. -/
theorem nnPath_run (hc : NoClassEffect D) {ls : List (Link S)} {h : List HistWord} {x : S} (hp : NNPath D ls h x) :
    (runPath D L ls).history = h ∧ ∃ before prev, h = before ++ [prev] ∧ (runPath D L ls).state = netState D before ∧
      (runPath D L ls).nnLm + memberScore D.vocab prev = x + memberScore D.vocab (.inl D.vocab.sos) := by
  induction hp with
  | nil => exact ⟨rfl, [], _, rfl, rfl, by simp [runPath, mkToken]⟩
  | null ls k h x _ hw ih =>
    rw [runPath_snoc]
    unfold propagateLink
    simp only [hw, mkToken]
    exact ih
  | word ls k before prev w text s x y _ hw hh hs hy ih =>
    obtain ⟨h1, before', prev', h2, h3, h4⟩ := ih
    obtain ⟨rfl, e⟩ := List.append_inj' h2 (by simp)
    simp only [List.cons.injEq, and_true] at e
    subst e
    rw [runPath_snoc]
    unfold propagateLink
    simp only [hw, mkToken, h1, h3, lastWord, List.getLast?_append, List.getLast?_singleton, Option.some_or,
      Option.getD_some, histIs_eq hh, unkScore_eq hs]
    refine ⟨by simp, before ++ [prev], w, by simp, ?_, ?_⟩
    · simp only [appendWord, limitToShortlist_eq]
      rw [netState_snoc]
    · rw [appendWord_eq]
      by_cases hu : s = none ∨ ¬ IsUnknown D.vocab w
      · rw [handleUnk_known _ _ _ _ hu, hy.2 hu]
        have : (runPath D L ls).nnLm = x + memberScore D.vocab (.inl D.vocab.sos) - memberScore D.vocab prev :=
          eq_sub_of_add_eq h4
        rw [this]; ring
      · push Not at hu
        obtain ⟨hs0, hu⟩ := hu
        obtain ⟨v, rfl⟩ := Option.ne_none_iff_exists'.mp hs0
        rw [handleUnk_unknown _ _ _ _ hu, hy.1 v rfl hu]
        have hm : memberScore D.vocab prev = memberScore D.vocab w := by
          rcases hc with ⟨c1, c2⟩ | hc
          · have := hs.2 c1
            rw [c2] at this
            cases this
          · rw [hc prev, isUnknown_member hu]
        rw [hm] at h4
        have : (runPath D L ls).nnLm = x + memberScore D.vocab (.inl D.vocab.sos) - memberScore D.vocab w :=
          eq_sub_of_add_eq h4
        rw [this]; ring

theorem nnComplete_run (hc : NoClassEffect D)
    (he : memberScore D.vocab (.inl D.vocab.sos) = memberScore D.vocab (.inl D.vocab.eos)) {ls : List (Link S)} {z : S}
    (hp : NNComplete D ls z) : (runEnd D L ls).nnLm = z := by
  obtain ⟨before, prev, x, y, h1, h2, rfl⟩ := hp
  obtain ⟨g1, before', prev', g2, g3, g4⟩ := nnPath_run (L := L) hc h1
  obtain ⟨rfl, e⟩ := List.append_inj' g2 (by simp)
  simp only [List.cons.injEq, and_true] at e
  subst e
  unfold runEnd propagateEnd
  simp only [mkToken, g1, g3, lastWord, List.getLast?_append, List.getLast?_singleton, Option.some_or,
      Option.getD_some]
  rw [appendWord_eq, handleUnk_known _ _ _ _ (Or.inl rfl), h2.2 (Or.inl rfl)]
  have : (runPath D L ls).nnLm = x + memberScore D.vocab (.inl D.vocab.sos) - memberScore D.vocab prev :=
    eq_sub_of_add_eq g4
  rw [this, he]; ring

/-- The NNLM score of a token is the sum of the scores that the decoder adds. -/
theorem addedPath_run {ls : List (Link S)} {h : List HistWord} {x : S} (hp : AddedPath D ls h x) :
    (runPath D L ls).history = h ∧ ∃ before prev, h = before ++ [prev] ∧ (runPath D L ls).state = netState D before ∧
      (runPath D L ls).nnLm = x := by
  induction hp with
  | nil => exact ⟨rfl, [], _, rfl, rfl, by simp [runPath, mkToken]⟩
  | null ls k h x _ hw ih =>
    rw [runPath_snoc]
    unfold propagateLink
    simp only [hw, mkToken]
    exact ih
  | word ls k before prev w text s x y _ hw hh hs hy ih =>
    obtain ⟨h1, before', prev', h2, h3, h4⟩ := ih
    obtain ⟨rfl, e⟩ := List.append_inj' h2 (by simp)
    simp only [List.cons.injEq, and_true] at e
    subst e
    rw [runPath_snoc]
    unfold propagateLink
    simp only [hw, mkToken, h1, h3, lastWord, List.getLast?_append, List.getLast?_singleton, Option.some_or,
      Option.getD_some, histIs_eq hh, unkScore_eq hs]
    refine ⟨by simp, before ++ [prev], w, by simp, ?_, ?_⟩
    · simp only [appendWord, limitToShortlist_eq]
      rw [netState_snoc]
    · rw [appendWord_eq, h4]
      by_cases hu : s = none ∨ ¬ IsUnknown D.vocab w
      · rw [handleUnk_known _ _ _ _ hu, hy.2 hu]
      · push Not at hu
        obtain ⟨hs0, hu⟩ := hu
        obtain ⟨v, rfl⟩ := Option.ne_none_iff_exists'.mp hs0
        rw [handleUnk_unknown _ _ _ _ hu, hy.1 v rfl hu]

theorem addedComplete_run {ls : List (Link S)} {z : S} (hp : AddedComplete D ls z) : (runEnd D L ls).nnLm = z := by
  obtain ⟨before, prev, x, y, h1, h2, rfl⟩ := hp
  obtain ⟨g1, before', prev', g2, g3, g4⟩ := addedPath_run (L := L) h1
  obtain ⟨rfl, e⟩ := List.append_inj' g2 (by simp)
  simp only [List.cons.injEq, and_true] at e
  subst e
  unfold runEnd propagateEnd
  simp only [mkToken, g1, g3, g4, lastWord, List.getLast?_append, List.getLast?_singleton, Option.some_or,
      Option.getD_some]
  rw [appendWord_eq, handleUnk_known _ _ _ _ (Or.inl rfl), h2.2 (Or.inl rfl)]

theorem addedScore_exists (before : List HistWord) (prev w : HistWord) (s : Option S) :
    ∃ x, AddedScore D before prev w s x := by
  classical
  by_cases hu : s = none ∨ ¬ IsUnknown D.vocab w
  · refine ⟨_, ?_, fun _ => rfl⟩
    intro y hs hu'
    rcases hu with hu | hu
    · rw [hu] at hs; cases hs
    · exact absurd hu' hu
  · push Not at hu
    obtain ⟨hs0, hu'⟩ := hu
    obtain ⟨v, rfl⟩ := Option.ne_none_iff_exists'.mp hs0
    refine ⟨v, ?_, ?_⟩
    · intro y hy _; cases hy; rfl
    · rintro (h | h)
      · cases h
      · exact absurd hu' h

theorem addedPath_exists (ls : List (Link S)) : ∃ before prev x, AddedPath D ls (before ++ [prev]) x := by
  induction ls using List.reverseRecOn with
  | nil => exact ⟨[], _, 0, .nil⟩
  | append_singleton ls k ih =>
    obtain ⟨before, prev, x, hp⟩ := ih
    cases hw : k.word with
    | none => exact ⟨before, prev, x, .null ls k _ x hp hw⟩
    | some w =>
      obtain ⟨y, hy⟩ := addedScore_exists (D := D) before prev (histWord D.vocab w) (oovLogprob D k)
      refine ⟨before ++ [prev], histWord D.vocab w, x + y, ?_⟩
      have := AddedPath.word ls k before prev (histWord D.vocab w) w (oovLogprob D k) x y hp hw (histIs_histWord _ _)
        ⟨fun hu => by simp [oovLogprob, hu], fun hu => by simp [oovLogprob, hu]⟩ hy
      simpa using this

theorem addedComplete_exists (ls : List (Link S)) : ∃ z, AddedComplete D ls z := by
  obtain ⟨before, prev, x, hp⟩ := addedPath_exists (D := D) ls
  obtain ⟨y, hy⟩ := addedScore_exists (D := D) before prev (.inl D.vocab.eos) none
  exact ⟨x + y, before, prev, x, y, hp, hy, rfl⟩

theorem wordScore_exists (before : List HistWord) (prev w : HistWord) (s : Option S) :
    ∃ x, WordScore D before prev w s x := by
  classical
  by_cases hu : s = none ∨ ¬ IsUnknown D.vocab w
  · refine ⟨_, ?_, fun _ => rfl⟩
    intro y hs hu'
    rcases hu with hu | hu
    · rw [hu] at hs; cases hs
    · exact absurd hu' hu
  · push Not at hu
    obtain ⟨hs0, hu'⟩ := hu
    obtain ⟨v, rfl⟩ := Option.ne_none_iff_exists'.mp hs0
    refine ⟨v, ?_, ?_⟩
    · intro y hy _; cases hy; rfl
    · rintro (h | h)
      · cases h
      · exact absurd hu' h

/-- Every path has a score. -/
theorem nnPath_exists (ls : List (Link S)) : ∃ before prev x, NNPath D ls (before ++ [prev]) x := by
  induction ls using List.reverseRecOn with
  | nil => exact ⟨[], _, 0, .nil⟩
  | append_singleton ls k ih =>
    obtain ⟨before, prev, x, hp⟩ := ih
    cases hw : k.word with
    | none => exact ⟨before, prev, x, .null ls k _ x hp hw⟩
    | some w =>
      obtain ⟨y, hy⟩ := wordScore_exists (D := D) before prev (histWord D.vocab w) (oovLogprob D k)
      refine ⟨before ++ [prev], histWord D.vocab w, x + y, ?_⟩
      have := NNPath.word ls k before prev (histWord D.vocab w) w (oovLogprob D k) x y hp hw (histIs_histWord _ _)
        ⟨fun hu => by simp [oovLogprob, hu], fun hu => by simp [oovLogprob, hu]⟩ hy
      simpa using this

theorem nnComplete_exists (ls : List (Link S)) : ∃ z, NNComplete D ls z := by
  obtain ⟨before, prev, x, hp⟩ := nnPath_exists (D := D) ls
  obtain ⟨y, hy⟩ := wordScore_exists (D := D) before prev (.inl D.vocab.eos) none
  exact ⟨x + y, before, prev, x, y, hp, hy, rfl⟩

theorem runEnd_total (hl : D.linear = false) (ls : List (Link S)) :
    (runEnd D L ls).total = pathScore D L ls (runEnd D L ls).nnLm := by
  obtain ⟨_, hg, ht⟩ := computed_end (D := D) (L := L) ls
  rw [ht, hg]
  obtain ⟨h1, h2, h3⟩ := runPath_attrs (D := D) (L := L) ls
  obtain ⟨g1, g2, g3⟩ := propagateEnd_attrs (D := D) (decLmScale D L) (decWiPenalty D L) (runPath D L ls)
  have e1 : (runEnd D L ls).history = .inl D.vocab.sos :: (pathWords D.vocab ls ++ [.inl D.vocab.eos]) := by
    unfold runEnd; rw [g1, h1]; simp
  have e2 : (runEnd D L ls).ac = acOf ls := by unfold runEnd; rw [g2, h2]
  have e3 : (runEnd D L ls).latLm = lmOf ls := by unfold runEnd; rw [g3, h3]
  have e4 : (runEnd D L ls).history.length = (pathText ls).length + 2 := by rw [e1]; simp [pathWords]
  unfold graphLogprob pathScore
  simp only [hl, Bool.false_eq_true, if_false, loglinear_eq, e2, e3, e4]
  unfold decLmScale decWiPenalty
  push_cast
  ring

end
end TheanoLM
