import Verif.Props.Statistics
import Verif.Props.Parsing
import Verif.Props.TrainVocabulary
import Verif.Lemmas.VocabBuild
import Verif.Lemmas.VocabProbs
/-!
# The order of the training text and the word counts: C148
-/
namespace TheanoLM

/-! ## Specification -/

/-- The texts consist of the same lines, in any order, divided to files in any way. -/
def SameLines (files files' : List (List Str)) : Prop := files.flatten.Perm files'.flatten

/-- The words that are not special tokens occur all different numbers of times in the utterances `us`. -/
def NoTies (us : List (List Str)) : Prop :=
  ∀ w ∈ us.flatten, ∀ w' ∈ us.flatten, w ∉ [sos, eos, unk] → w' ∉ [sos, eos, unk] →
    us.flatten.count w = us.flatten.count w' → w = w'

/-! ## Lemmas -/

theorem countsById_perm (ws : List Str) {c c' : List (Str × Nat)} (hp : c.Perm c') :
    (c.map Prod.fst).Nodup → ∀ a, countsById ws c a = countsById ws c' a := by
  induction hp with
  | nil => intros; rfl
  | cons x _ ih =>
    intro hn a
    rw [List.map_cons, List.nodup_cons] at hn
    obtain ⟨w, n⟩ := x
    simp only [countsById]
    split <;> exact ih hn.2 _
  | swap x y l =>
    intro hn a
    obtain ⟨w, n⟩ := x
    obtain ⟨w', n'⟩ := y
    have hne : w' ≠ w := by
      intro e
      subst e
      simp at hn
    simp only [countsById]
    rcases h1 : wordToId ws w with _ | i <;> rcases h2 : wordToId ws w' with _ | j <;> simp only []
    have hij : j ≠ i := by
      intro e
      subst e
      have := (wordToId_get h1).symm.trans (wordToId_get h2)
      simp only [Option.some.injEq] at this
      exact hne this.symm
    rw [List.set_comm _ _ hij]
  | trans h1 _ ih1 ih2 =>
    intro hn a
    rw [ih1 hn a]
    exact ih2 ((h1.map _).nodup_iff.mp hn) a

theorem computeProbs_perm (v : Vocab) {c c' : List (Str × Nat)} (hp : c.Perm c') (hn : (c.map Prod.fst).Nodup)
    (b : Bool) : computeProbs v c b = computeProbs v c' b := by
  unfold computeProbs
  rw [countsById_perm v.idToWord hp hn]

theorem sortByCount_eq {c c' : List (Str × Nat)} (hp : c.Perm c')
    (hd : ∀ x ∈ c, ∀ y ∈ c, x.2 = y.2 → x = y) : sortByCount c = sortByCount c' := by
  have h : (sortByCount c).Perm (sortByCount c') :=
    (sortByCount_perm c).trans (hp.trans (sortByCount_perm c').symm)
  refine h.eq_of_pairwise ?_ (sortByCount_sorted c) (sortByCount_sorted c')
  intro a b ha hb h1 h2
  exact hd a ((sortByCount_perm c).mem_iff.mp ha) b
    (hp.mem_iff.mpr ((sortByCount_perm c').mem_iff.mp hb)) (le_antisymm h1 h2)

/-! ## Properties -/

/-- C148: the word counts of texts of the same lines are the same dictionary; only the order of its keys may differ. -/
theorem C148_counts (files files' : List (List Str)) (h : SameLines files files') :
    (computeWordCounts files).Perm (computeWordCounts files') := by
  obtain ⟨n1, m1⟩ := C19_words files _ (utterancesOf_exists files)
  obtain ⟨n2, m2⟩ := C19_words files' _ (utterancesOf_exists files')
  have hp : ((files.flatten.map utterance).flatten).Perm ((files'.flatten.map utterance).flatten) :=
    (h.map utterance).flatten
  rw [List.perm_ext_iff_of_nodup n1.of_map n2.of_map]
  rintro ⟨w, n⟩
  rw [m1, m2, hp.mem_iff, hp.count_eq]

example : SameLines [["a b\n".toList, "c\n".toList], ["b\n".toList]] [["b\n".toList, "c\n".toList, "a b\n".toList]] := by
  unfold SameLines; decide +kernel

/-- C148: the probabilities computed to a given vocabulary from texts of the same lines are the same. -/
theorem C148_probs (v : Vocab) (files files' : List (List Str)) (h : SameLines files files') (update : Bool) :
    computeProbs v (computeWordCounts files) update = computeProbs v (computeWordCounts files') update :=
  computeProbs_perm v (C148_counts files files' h) (C19_words files _ (utterancesOf_exists files)).1 update

/-- C148: the vocabularies created from texts of the same lines are the same, word IDs included, if no two words are
equally frequent.  What is missing: with equally frequent words the word IDs depend on the order (`C148_violated`). -/
theorem C148_vocabulary_partial (files files' us : List (List Str)) (h : SameLines files files')
    (hu : UtterancesOf files us) (hd : NoTies us) (numClasses : Option Nat) :
    vocabFromWordCounts (computeWordCounts files) numClasses =
      vocabFromWordCounts (computeWordCounts files') numClasses := by
  obtain ⟨n1, m1⟩ := C19_words files us hu
  have hp := (C148_counts files files' h).filter (fun p => decide (p.1 ≠ sos ∧ p.1 ≠ eos ∧ p.1 ≠ unk))
  have hs := sortByCount_eq hp (by
    rintro ⟨w, n⟩ hx ⟨w', n'⟩ hy e
    rw [List.mem_filter, m1] at hx hy
    obtain ⟨⟨a1, a2⟩, a3⟩ := hx
    obtain ⟨⟨b1, b2⟩, b3⟩ := hy
    simp only [decide_eq_true_eq] at a3 b3 e
    have hw := hd w a1 w' b1 (by simpa using a3) (by simpa using b3) (by rw [← a2, ← b2, e])
    rw [hw, e])
  have hn := n1.sublist (List.Sublist.map Prod.fst
    (List.filter_sublist (p := fun p => decide (p.1 ≠ sos ∧ p.1 ≠ eos ∧ p.1 ≠ unk)) (l := computeWordCounts files)))
  simp only [vocabFromWordCounts]
  rw [hs, hp.length_eq]
  split
  · rfl
  · split
    · rfl
    · split
      · rfl
      · exact computeProbs_perm _ hp hn true

example : ∃ us, UtterancesOf [["a b\n".toList, "b\n".toList]] us ∧ NoTies us :=
  ⟨_, utterancesOf_exists _, by unfold NoTies; decide +kernel⟩

/-- C148: also when words are equally frequent, the vocabularies that the train command creates from texts of the same lines
consist of the same words, and if there is any other word than the special tokens, every word has the same unigram
probability in them. -/
theorem C148_words (P : Parsers) (format : VocFormat) (numClasses : Option Nat) (hc : numClasses ≠ some 0)
    (files files' us : List (List Str)) (h : SameLines files files') (hu : UtterancesOf files us) :
    ∃ v f v' f', readVocabulary P none format numClasses files ⟨none, false⟩ = .ok (v, f) ∧
      readVocabulary P none format numClasses files' ⟨none, false⟩ = .ok (v', f') ∧
      v.idToWord.Perm v'.idToWord ∧
      ((∃ w ∈ us.flatten, w ∉ [sos, eos, unk]) → ∃ u u', v.unigram = some u ∧ v'.unigram = some u' ∧
        ∀ (i j : Nat) (w : Str), v.idToWord[i]? = some w → v'.idToWord[j]? = some w → ∃ p, u[i]? = some p ∧ u'[j]? = some p) := by
  have hp : (us.flatten).Perm ((files'.flatten.map utterance).flatten) := by
    rw [utterancesOf_eq hu]
    exact (h.map utterance).flatten
  obtain ⟨v, f, a1, a2, a3, -, u, a4, -, a5⟩ := C90_text P format numClasses hc files us hu
  obtain ⟨v', f', b1, b2, b3, -, u', b4, -, b5⟩ := C90_text P format numClasses hc files' _ (utterancesOf_exists files')
  refine ⟨v, f, v', f', a1, b1, ?_, ?_⟩
  · rw [List.perm_ext_iff_of_nodup a2 b2]
    intro w
    rw [a3, b3, hp.mem_iff]
  · rintro ⟨w0, hw0, hs0⟩
    refine ⟨u, u', a4, b4, ?_⟩
    intro i j w hi hj
    obtain ⟨p, p1, p2⟩ := a5 i w hi
    obtain ⟨q, q1, q2⟩ := b5 j w hj
    have hf := hp.filter (fun w => decide (¬ SpecialToken w))
    rw [← hf.length_eq, ← hf.count_eq, ← p2] at q2
    have hne : ((us.flatten.filter (fun w => decide (¬ SpecialToken w))).length : ℚ) ≠ 0 := by
      have hm : w0 ∈ us.flatten.filter (fun w => decide (¬ SpecialToken w)) :=
        List.mem_filter.mpr ⟨hw0, by simpa [SpecialToken] using hs0⟩
      exact_mod_cast (List.length_pos_of_mem hm).ne'
    exact ⟨p, p1, by rw [q1, mul_right_cancel₀ hne q2]⟩

example : ∃ us, UtterancesOf [["a\n".toList, "b\n".toList]] us ∧ ∃ w ∈ us.flatten, w ∉ [sos, eos, unk] :=
  ⟨_, utterancesOf_exists _, "a".toList, by decide +kernel, by decide +kernel⟩

/-- C148 is violated: when the lines `a` and `b` change places, the words change their IDs. -/
theorem C148_violated : ∃ files files' : List (List Str), SameLines files files' ∧
    ∃ v v', vocabFromWordCounts (computeWordCounts files) none = .ok v ∧
      vocabFromWordCounts (computeWordCounts files') none = .ok v' ∧
      v.wordToId "a".toList = some 0 ∧ v'.wordToId "a".toList = some 1 := by
  refine ⟨[["a\n".toList, "b\n".toList]], [["b\n".toList, "a\n".toList]], by unfold SameLines; decide +kernel, ?_⟩
  have h : ∀ (r r' : Except Err Vocab), (match r, r' with
      | .ok v, .ok v' => decide (v.wordToId "a".toList = some 0 ∧ v'.wordToId "a".toList = some 1)
      | _, _ => false) = true → ∃ v v', r = .ok v ∧ r' = .ok v' ∧
        v.wordToId "a".toList = some 0 ∧ v'.wordToId "a".toList = some 1 := by
    intro r r' h
    rcases r with _ | v
    · simp at h
    · rcases r' with _ | v'
      · simp at h
      · exact ⟨v, v', rfl, rfl, of_decide_eq_true h⟩
  exact h _ _ (by decide +kernel)

/-- C148: the counts of the words in two texts together are the sums of the counts in the texts. -/
theorem C148_sum (files files' : List (List Str)) (w : Str) :
    (dictGet? (computeWordCounts (files ++ files')) w).getD 0 =
      (dictGet? (computeWordCounts files) w).getD 0 + (dictGet? (computeWordCounts files') w).getD 0 := by
  have key : ∀ fs : List (List Str), (dictGet? (computeWordCounts fs) w).getD 0 =
      ((fs.flatten.map utterance).flatten).count w := by
    intro fs
    rw [(computeWordCounts_inv fs).get w]
    split
    · rename_i h; rw [h]; rfl
    · rfl
  rw [key, key, key, List.flatten_append, List.map_append, List.flatten_append, List.count_append]

example : (dictGet? (computeWordCounts ([["a b\n".toList]] ++ [["b\n".toList]])) "b".toList).getD 0 = 2 := by
  decide +kernel

/-- C148: the documentation of `compute_word_counts` (statistics.py:14-15) says that the start and end of sentence markers
are not added.  Both are counted in every text where some line has a word, also when they do not occur in the text. -/
theorem C148_markers (files : List (List Str)) (line : Str) (ws : List Str) (hl : line ∈ files.flatten)
    (hw : Words line ws) (hne : ws ≠ []) :
    (∃ n, 0 < n ∧ (sos, n) ∈ computeWordCounts files) ∧ (∃ n, 0 < n ∧ (eos, n) ∈ computeWordCounts files) := by
  obtain ⟨u, h1, h2, h3, -⟩ := C01_delimited line ws hw hne
  have hu : u ∈ files.flatten.map utterance :=
    List.mem_map.mpr ⟨line, hl, by unfold utterance; rw [h1]⟩
  have key : ∀ w ∈ u, ∃ n, 0 < n ∧ (w, n) ∈ computeWordCounts files := by
    intro w hwu
    have hm : w ∈ (files.flatten.map utterance).flatten := List.mem_flatten.mpr ⟨u, hu, hwu⟩
    exact ⟨_, List.count_pos_iff.mpr hm, ((C19_words files _ (utterancesOf_exists files)).2 w _).mpr ⟨hm, rfl⟩⟩
  exact ⟨key _ (List.mem_of_head? h2), key _ (List.mem_of_getLast? h3)⟩

example : (sos, 2) ∈ computeWordCounts [["a b\n".toList, "b\n".toList]] := by decide +kernel

end TheanoLM
