import Verif.Lemmas.ScoreText
/-!
# Property C76: the statistics that the score command reports
-/
set_option linter.unusedSectionVars false

namespace TheanoLM

section
variable {S : Type} [Field S] [LinearOrder S]

/-- C76: The score command succeeds unless a perplexity has no predicted word (`C76_violated`): with word level output every
sentence needs a predicted word, and otherwise one is needed in the text unless it is empty. -/
theorem C76_succeeds_partial (P : Parsers) (sc : Scorer S) (h : sc.Proper P) (marking : Marking) (hm : marking ≠ .other) (wl : Bool)
    (bs : List TextBatch) (hv : ∀ b ∈ bs, b.1.Valid sc.vocab ∧ b.WellFormed) :
    ∃ sents, TextSentences sc marking bs sents ∧
      ((wl = true → ∀ s ∈ sents, s.predicted ≠ []) ∧ (sents = [] ∨ ∃ s ∈ sents, s.predicted ≠ []) →
        ∃ rep, scoreText sc marking wl (bs.map TextBatch.given) = .ok rep) ∧
      (¬ ((wl = true → ∀ s ∈ sents, s.predicted ≠ []) ∧ (sents = [] ∨ ∃ s ∈ sents, s.predicted ≠ [])) →
        scoreText sc marking wl (bs.map TextBatch.given) = .error .zeroDivision) := by
  obtain ⟨sents, hs, he⟩ := scoreTextBatches_eq sc h marking hm wl bs hv (ScoreStats.zero, [])
  refine ⟨sents, hs, ?_⟩
  obtain ⟨-, -, h3, h4, -⟩ := foldl_addSentence sents (ScoreStats.zero (S := S))
  have hcount := sentences_count sents hs.lengths
  have h0 : (ScoreStats.zero (S := S)).words = 0 ∧ (ScoreStats.zero (S := S)).probs = 0 := ⟨rfl, rfl⟩
  unfold scoreText
  rw [he, textResult]
  by_cases hc : wl = true ∧ ∃ s ∈ sents, s.predicted = []
  · rw [if_pos hc]
    constructor
    · rintro ⟨h1, -⟩
      obtain ⟨hw, s, hs, hp⟩ := hc
      exact absurd hp (h1 hw s hs)
    · intro; rfl
  · rw [if_neg hc]
    have hc' : wl = true → ∀ s ∈ sents, s.predicted ≠ [] := fun hw s hs hp => hc ⟨hw, s, hs, hp⟩
    simp only
    by_cases hne : sents = []
    · rw [if_neg (by rw [h3, h0.1, hne]; simp)]
      exact ⟨fun _ => ⟨_, rfl⟩, fun hn => absurd ⟨hc', Or.inl hne⟩ hn⟩
    · have hpos := List.length_pos_iff.mpr hne
      rw [if_pos (by rw [h3]; omega)]
      by_cases hp : ∃ s ∈ sents, s.predicted ≠ []
      · have hq : (sents.flatMap Sentence.predicted) ≠ [] := by
          intro e
          obtain ⟨s, hs, hp⟩ := hp
          exact hp (List.flatMap_eq_nil_iff.mp e s hs)
        have := List.length_pos_iff.mpr hq
        rw [if_neg (by rw [h4]; omega)]
        exact ⟨fun _ => ⟨_, rfl⟩, fun hn => absurd ⟨hc', Or.inr hp⟩ hn⟩
      · have hq : (sents.flatMap Sentence.predicted) = [] := by
          rw [List.flatMap_eq_nil_iff]
          intro s hs
          by_contra hn
          exact hp ⟨s, hs, hn⟩
        rw [if_pos (by rw [h4, h0.2, hq]; rfl)]
        exact ⟨fun hn => absurd hn.2 (by simp only [not_or]; exact ⟨hne, hp⟩), fun _ => rfl⟩

/-- C76: The score command reports the number of sentences, tokens, words, predicted probabilities, unknown words and zero
probabilities of the text; every word is of exactly one kind: the first word of a sentence, predicted, unknown or of zero
probability.  The cross entropy is the negated mean of the predicted log probabilities, and the perplexity is its
exponential. -/
theorem C76_statistics (P : Parsers) (sc : Scorer S) (h : sc.Proper P) (marking : Marking) (hm : marking ≠ .other) (wl : Bool)
    (bs : List TextBatch) (hv : ∀ b ∈ bs, b.1.Valid sc.vocab ∧ b.WellFormed) (rep : ScoreReport S)
    (hr : scoreText sc marking wl (bs.map TextBatch.given) = .ok rep) :
    ∃ sents, TextSentences sc marking bs sents ∧
      rep.stats.sentences = sents.length ∧
      rep.stats.tokens = (sents.map Sentence.tokens).sum ∧
      rep.stats.words = (sents.map (fun s => s.words.length)).sum ∧
      rep.stats.probs = (sents.flatMap Sentence.predicted).length ∧
      rep.stats.unks = (sents.flatMap Sentence.lps).countP (fun lp => lp.isNone) ∧
      rep.stats.zeroprobs = (sents.flatMap Sentence.lps).countP (fun lp => match lp with | some .negInf => true | _ => false) ∧
      rep.stats.words = rep.stats.sentences + rep.stats.probs + rep.stats.unks + rep.stats.zeroprobs ∧
      (sents ≠ [] → ∃ ce, rep.crossEntropy = some ce ∧ rep.perplexity = some (ce.exp sc.exp) ∧
        ce = (Flt.sum (sents.flatMap Sentence.predicted)).neg.divNat (sents.flatMap Sentence.predicted).length ∧
        sents.flatMap Sentence.predicted ≠ []) ∧
      (sents = [] → rep.crossEntropy = none ∧ rep.perplexity = none) ∧
      (wl = true → List.Forall₂ (fun s p => s.predicted ≠ [] ∧
        p = ((Flt.sum s.predicted).neg.divNat s.predicted.length).exp sc.exp) sents rep.sentencePerplexities) ∧
      (wl = false → rep.sentencePerplexities = []) := by
  obtain ⟨sents, hs, he⟩ := scoreTextBatches_eq sc h marking hm wl bs hv (ScoreStats.zero, [])
  obtain ⟨h1, h2, h3, h4, h5, h6, h7⟩ := foldl_addSentence sents (ScoreStats.zero (S := S))
  have hcount := sentences_count sents hs.lengths
  have z : (ScoreStats.zero (S := S)) = ⟨.fin 0, 0, 0, 0, 0, 0, 0⟩ := rfl
  simp only [z, Nat.zero_add, Flt.zero_add'] at h1 h2 h3 h4 h5 h6 h7
  unfold scoreText at hr
  rw [he, textResult] at hr
  by_cases hc : wl = true ∧ ∃ s ∈ sents, s.predicted = []
  · rw [if_pos hc] at hr; cases hr
  · rw [if_neg hc] at hr
    simp only [z, List.nil_append] at hr
    refine ⟨sents, hs, ?_⟩
    have hpp : ∀ pps, pps = (if wl = true then sents.map (sentencePerplexity sc.exp) else []) →
        (wl = true → List.Forall₂ (fun s p => s.predicted ≠ [] ∧
          p = ((Flt.sum s.predicted).neg.divNat s.predicted.length).exp sc.exp) sents pps) ∧
        (wl = false → pps = []) := by
      rintro pps rfl
      constructor
      · intro hw
        rw [if_pos hw, List.forall₂_map_right_iff, List.forall₂_same]
        exact fun s hs => ⟨fun hp => hc ⟨hw, s, hs, hp⟩, rfl⟩
      · intro hw; simp [hw]
    by_cases hne : sents = []
    · have h00 : (sents.map (fun s => s.words.length)).sum = 0 := by rw [hne]; rfl
      rw [if_neg (by rw [h3, h00]; simp)] at hr
      cases hr
      refine ⟨h1, h2, h3, h4, h5, h6, ?_, fun hn => absurd hne hn, fun _ => ⟨rfl, rfl⟩, hpp _ rfl⟩
      simp only
      rw [h1, h3, h4, h5, h6]; exact hcount
    · have hpos := List.length_pos_iff.mpr hne
      rw [if_pos (by rw [h3]; omega)] at hr
      by_cases hp : (sents.flatMap Sentence.predicted).length = 0
      · rw [if_pos (by rw [h4, hp])] at hr; cases hr
      · rw [if_neg (by rw [h4]; exact hp)] at hr
        cases hr
        refine ⟨h1, h2, h3, h4, h5, h6, ?_, fun _ => ⟨_, rfl, rfl, ?_, fun e => hp (by rw [e]; rfl)⟩, fun hn => absurd hn hne,
          hpp _ rfl⟩
        · simp only
          rw [h1, h3, h4, h5, h6]; exact hcount
        · rw [h4, h7]

end

/-! ## Examples -/

/-- The words of `exScoreBatch`. -/
def exScoreTexts : List (List Str) :=
  [["<s>".toList, "a".toList, "x".toList, "</s>".toList], ["<s>".toList, "zzz".toList, "</s>".toList]]

theorem exScoreBatch_wellFormed : TextBatch.WellFormed (exScoreBatch, exScoreTexts) := by
  refine ⟨rfl, ?_, ?_⟩
  · intro i ws h
    match i with
    | 0 => simp [exScoreTexts] at h; subst h; decide +kernel
    | 1 => simp [exScoreTexts] at h; subst h; decide +kernel
    | i + 2 => simp [exScoreTexts] at h
  · intro i hi
    match i, hi with
    | 0, _ => rfl
    | 1, _ => rfl
    | i + 2, hi => simp [exScoreBatch] at hi

/-- Seven words, of which two are first words and one is unknown. -/
example : ∃ rep, scoreText (exScorer true false) .noMarking true [TextBatch.given (exScoreBatch, exScoreTexts)] = .ok rep ∧
    rep.stats.sentences = 2 ∧ rep.stats.tokens = 7 ∧ rep.stats.words = 7 ∧ rep.stats.probs = 4 ∧ rep.stats.unks = 1 ∧
    rep.stats.zeroprobs = 0 := by decide +kernel

/-- C76 is violated: a text with word boundary tokens, whose only word is unknown, cannot be scored. -/
theorem C76_violated : ∃ (sc : Scorer ℚ) (b : TextBatch), sc.Proper exParsers ∧ b.1.Valid sc.vocab ∧ b.WellFormed ∧
    b.2 = [["<s>".toList, "zzz".toList, "</s>".toList]] ∧
    scoreText sc .wordBoundary false [b.given] = .error .zeroDivision := by
  refine ⟨exScorer true false, (⟨2, 1, fun t _ => [3, 5, 4].getD t 0, fun _ _ => 1⟩,
    [["<s>".toList, "zzz".toList, "</s>".toList]]), exScorer_proper _ _, ?_, ?_, rfl, by decide +kernel⟩
  · constructor
    · intro t i ht hi
      have ht' : t ≤ 2 := ht
      clear hi
      revert i
      interval_cases t
      · exact fun _ => show 3 < exScoreVocab.numWords by decide +kernel
      · exact fun _ => show 5 < exScoreVocab.numWords by decide +kernel
      · exact fun _ => show 4 < exScoreVocab.numWords by decide +kernel
    · intro t i _ _; exact Or.inr rfl
  · refine ⟨rfl, ?_, fun _ _ => rfl⟩
    intro i ws h
    match i with
    | 0 => simp at h; subst h; decide +kernel
    | i + 1 => simp at h

end TheanoLM
