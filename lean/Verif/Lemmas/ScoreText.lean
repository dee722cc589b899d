import Verif.Props.ScoreTextSpec
import Verif.Props.MergeSubwords
import Verif.Props.TextScorer
/-!
# Lemmas for C76
-/
set_option linter.unusedSectionVars false

namespace TheanoLM

section
variable {S : Type} [Field S]

theorem predictedLogprobs_eq (s : Sentence S) : predictedLogprobs s.lps = s.predicted := by
  unfold predictedLogprobs Sentence.predicted
  congr 1
  funext lp
  rcases lp with _ | (_ | _ | _ | _) <;> rfl

/-- The statistics after one more sentence. -/
def addSentence (st : ScoreStats S) (s : Sentence S) : ScoreStats S :=
  ⟨st.total.add (Flt.sum s.predicted), st.sentences + 1, st.tokens + s.tokens, st.words + s.words.length,
    st.probs + s.predicted.length, st.unks + s.lps.countP (fun lp => lp.isNone),
    st.zeroprobs + s.lps.countP (fun lp => match lp with | some .negInf => true | _ => false)⟩

def sentencePerplexity (exp : S → S) (s : Sentence S) : Flt S :=
  (((Flt.sum s.predicted).neg).divNat s.predicted.length).exp exp

theorem scoreTextSequence_eq (exp : S → S) (marking : Marking) (wl : Bool) (st : ScoreStats S) (ws : List Str)
    (ys : List (Option (Flt S))) (s : Sentence S) (h : mergeSubwords ws ys marking = .ok (s.words, s.lps)) :
    scoreTextSequence exp marking wl st s.tokens ws ys =
      if wl = true ∧ s.predicted = [] then .error .zeroDivision
      else .ok (addSentence st s, if wl then some (sentencePerplexity exp s) else none) := by
  unfold scoreTextSequence
  rw [h]
  have hc := C37_count ws ys marking s.words s.lps h
  simp only [predictedLogprobs_eq]
  cases wl with
  | false =>
    simp only [Bool.false_eq_true, if_false, false_and, addSentence]
    congr 4
  | true =>
    rw [if_pos rfl, if_neg (by omega)]
    by_cases hp : s.predicted = []
    · rw [if_pos (by rw [hp]; rfl), if_pos ⟨rfl, hp⟩]
    · rw [if_neg (by simpa using hp), if_neg (fun e => hp e.2)]
      rfl

open Classical in
/-- The statistics of the whole text. -/
noncomputable def textResult (exp : S → S) (wl : Bool) (sents : List (Sentence S)) (acc : ScoreStats S × List (Flt S)) :
    Except Err (ScoreStats S × List (Flt S)) :=
  if wl = true ∧ ∃ s ∈ sents, s.predicted = [] then .error .zeroDivision
  else .ok (sents.foldl addSentence acc.1, acc.2 ++ if wl then sents.map (sentencePerplexity exp) else [])

theorem textResult_nil (exp : S → S) (wl : Bool) (acc : ScoreStats S × List (Flt S)) :
    textResult exp wl [] acc = .ok acc := by
  unfold textResult
  rw [if_neg (by simp)]
  cases wl <;> simp

theorem textResult_append (exp : S → S) (wl : Bool) (a b : List (Sentence S)) (acc : ScoreStats S × List (Flt S)) :
    textResult exp wl (a ++ b) acc =
      match textResult exp wl a acc with
      | .error e => .error e
      | .ok acc => textResult exp wl b acc := by
  unfold textResult
  by_cases ha : wl = true ∧ ∃ s ∈ a, s.predicted = []
  · rw [if_pos ha, if_pos]
    obtain ⟨h, s, hs, he⟩ := ha
    exact ⟨h, s, by simp [hs], he⟩
  · rw [if_neg ha]
    simp only
    by_cases hb : wl = true ∧ ∃ s ∈ b, s.predicted = []
    · rw [if_pos hb, if_pos]
      obtain ⟨h, s, hs, he⟩ := hb
      exact ⟨h, s, by simp [hs], he⟩
    · rw [if_neg hb, if_neg]
      · cases wl <;> simp
      · rintro ⟨h, s, hs, he⟩
        rcases List.mem_append.mp hs with hs | hs
        · exact ha ⟨h, s, hs, he⟩
        · exact hb ⟨h, s, hs, he⟩

theorem textResult_singleton (exp : S → S) (wl : Bool) (s : Sentence S) (acc : ScoreStats S × List (Flt S)) :
    textResult exp wl [s] acc =
      if wl = true ∧ s.predicted = [] then .error .zeroDivision
      else .ok (addSentence acc.1 s, acc.2 ++ (if wl then some (sentencePerplexity exp s) else none).toList) := by
  unfold textResult
  by_cases h : wl = true ∧ s.predicted = []
  · rw [if_pos h, if_pos ⟨h.1, s, by simp, h.2⟩]
  · rw [if_neg h, if_neg (by simpa using h)]
    cases wl <;> simp

theorem sequenceScores_length {sc : Scorer S} {b : MiniBatch} {i : Nat} {ys : List (Option (Flt S))}
    (h : sc.SequenceScores b i ys) (h0 : b.mask 0 i = 1) : ys.length + 1 = b.numTokens i := by
  have := h.length_eq
  unfold MiniBatch.numTokens
  rw [List.range_succ_eq_map, List.filter_cons_of_pos (by simp [h0]), List.length_cons, List.filter_map, List.length_map,
    ← this]
  rfl

theorem scoreTextSequences_eq (exp : S → S) (sc : Scorer S) (marking : Marking) (hm : marking ≠ .other) (wl : Bool)
    (b : TextBatch) (hw : b.WellFormed) (r : List (List (Option (Flt S)))) (k : Nat) (hk : k + r.length = b.1.n)
    (hr : ∀ m ys, r[m]? = some ys → sc.SequenceScores b.1 (k + m) ys) (acc : ScoreStats S × List (Flt S)) :
    ∃ sents, List.Forall₂ (fun (p : TextBatch × Nat) s => ∃ ws ys, p.1.2[p.2]? = some ws ∧
        sc.SequenceScores p.1.1 p.2 ys ∧
        mergeSubwords ws ys marking = .ok (s.words, s.lps) ∧ s.tokens = p.1.1.numTokens p.2)
      ((List.range' k r.length).map (fun i => (b, i))) sents ∧
      scoreTextSequences exp marking wl b.1.matrices.2 b.2 r k acc = textResult exp wl sents acc := by
  induction r generalizing k acc with
  | nil => exact ⟨[], by simp, by rw [textResult_nil]; rfl⟩
  | cons ys rest ih =>
    rw [List.length_cons] at hk
    have hlt : k < b.2.length := by rw [hw.count]; omega
    have hws : b.2[k]? = some b.2[k] := List.getElem?_eq_getElem hlt
    have hys : sc.SequenceScores b.1 k ys := hr 0 ys rfl
    have hlen := sequenceScores_length hys (hw.first k (by omega))
    obtain ⟨⟨mw, ml⟩, hmerge⟩ := (C37_succeeds b.2[k] ys marking).mpr ⟨by rw [hlen, hw.length k _ hws], hm⟩
    have hcol : ((b.1.matrices.2.filterMap (·[k]?)).filter (fun m => decide (m = 1))).length = b.1.numTokens k := by
      unfold MiniBatch.matrices MiniBatch.numTokens
      rw [table_column _ _ _ _ (by omega), List.filter_map, List.length_map]
      rfl
    have hone := scoreTextSequence_eq exp marking wl acc.1 b.2[k] ys ⟨b.1.numTokens k, mw, ml⟩ hmerge
    have hstep := textResult_singleton exp wl ⟨b.1.numTokens k, mw, ml⟩ acc
    have hrest : ∀ m ys, rest[m]? = some ys → sc.SequenceScores b.1 (k + 1 + m) ys := by
      intro m ys' h
      have := hr (m + 1) ys' (by simpa using h)
      rwa [show k + 1 + m = k + (m + 1) by omega]
    simp only [scoreTextSequences, hws, hcol, hone]
    by_cases hc : wl = true ∧ (Sentence.mk (b.1.numTokens k) mw ml).predicted = []
    · obtain ⟨sents, hs, he⟩ := ih (k + 1) (by omega) hrest acc
      refine ⟨⟨b.1.numTokens k, mw, ml⟩ :: sents, ?_, ?_⟩
      · rw [List.length_cons, List.range'_succ, List.map_cons]
        exact .cons ⟨_, ys, hws, hys, hmerge, rfl⟩ hs
      · rw [← List.singleton_append, textResult_append, hstep, if_pos hc, if_pos hc]
    · rw [if_neg hc] at hstep ⊢
      simp only
      obtain ⟨sents, hs, he⟩ := ih (k + 1) (by omega) hrest
        (addSentence acc.1 ⟨b.1.numTokens k, mw, ml⟩,
          acc.2 ++ (if wl then some (sentencePerplexity exp ⟨b.1.numTokens k, mw, ml⟩) else none).toList)
      refine ⟨⟨b.1.numTokens k, mw, ml⟩ :: sents, ?_, ?_⟩
      · rw [List.length_cons, List.range'_succ, List.map_cons]
        exact .cons ⟨_, ys, hws, hys, hmerge, rfl⟩ hs
      · rw [← List.singleton_append, textResult_append, hstep, he]

theorem scoreTextBatches_eq [LinearOrder S] {P : Parsers} (sc : Scorer S) (h : sc.Proper P) (marking : Marking)
    (hm : marking ≠ .other) (wl : Bool) (bs : List TextBatch) (hv : ∀ b ∈ bs, b.1.Valid sc.vocab ∧ b.WellFormed)
    (acc : ScoreStats S × List (Flt S)) :
    ∃ sents, TextSentences sc marking bs sents ∧
      scoreTextBatches sc marking wl (bs.map TextBatch.given) acc = textResult sc.exp wl sents acc := by
  induction bs generalizing acc with
  | nil => exact ⟨[], by simp [TextSentences], by rw [textResult_nil]; rfl⟩
  | cons b rest ih =>
    obtain ⟨hb, hw⟩ := hv b (by simp)
    obtain ⟨batch, r, h1, h2, h3, h4⟩ := C38_score_batch P sc h b.1 hb
    obtain ⟨s1, hs1, he1⟩ := scoreTextSequences_eq sc.exp sc marking hm wl b hw r 0 (by omega) (by simpa using h4) acc
    rw [h3, ← List.range_eq_range'] at hs1
    have hih := ih (fun b hb => hv b (by simp [hb]))
    simp only [List.map_cons, TextBatch.given, scoreTextBatches, h1, h2, he1]
    cases hr : textResult sc.exp wl s1 acc with
    | error e =>
      obtain ⟨s2, hs2, he2⟩ := hih acc
      refine ⟨s1 ++ s2, ?_, by rw [textResult_append, hr]⟩
      rw [TextSentences, List.flatMap_cons]
      exact List.rel_append hs1 hs2
    | ok acc' =>
      obtain ⟨s2, hs2, he2⟩ := hih acc'
      refine ⟨s1 ++ s2, ?_, by rw [textResult_append, hr]; exact he2⟩
      rw [TextSentences, List.flatMap_cons]
      exact List.rel_append hs1 hs2

theorem Flt.sum_append (a b : List (Flt S)) : Flt.sum (a ++ b) = (Flt.sum a).add (Flt.sum b) := by
  induction a with
  | nil => rw [List.nil_append]; exact (Flt.zero_add' _).symm
  | cons x a ih => rw [List.cons_append, Flt.sum_cons, Flt.sum_cons, ih, Flt.add_assoc']

theorem foldl_addSentence (sents : List (Sentence S)) (st : ScoreStats S) :
    (sents.foldl addSentence st).sentences = st.sentences + sents.length ∧
    (sents.foldl addSentence st).tokens = st.tokens + (sents.map Sentence.tokens).sum ∧
    (sents.foldl addSentence st).words = st.words + (sents.map (fun s => s.words.length)).sum ∧
    (sents.foldl addSentence st).probs = st.probs + (sents.flatMap Sentence.predicted).length ∧
    (sents.foldl addSentence st).unks = st.unks + (sents.flatMap Sentence.lps).countP (fun lp => lp.isNone) ∧
    (sents.foldl addSentence st).zeroprobs = st.zeroprobs + (sents.flatMap Sentence.lps).countP
      (fun lp => match lp with | some .negInf => true | _ => false) ∧
    (sents.foldl addSentence st).total = st.total.add (Flt.sum (sents.flatMap Sentence.predicted)) := by
  induction sents generalizing st with
  | nil => simp [Flt.sum, Flt.add_zero']
  | cons s rest ih =>
    obtain ⟨h1, h2, h3, h4, h5, h6, h7⟩ := ih (addSentence st s)
    rw [List.foldl_cons, h1, h2, h3, h4, h5, h6, h7]
    refine ⟨?_, ?_, ?_, ?_, ?_, ?_, ?_⟩
    · simp [addSentence]; omega
    · simp [addSentence]; omega
    · simp [addSentence]; omega
    · simp [addSentence]; omega
    · simp [addSentence]; omega
    · simp [addSentence]; omega
    · rw [List.flatMap_cons, Flt.sum_append, ← Flt.add_assoc']; rfl

theorem sentence_count (s : Sentence S) (h : s.lps.length + 1 = s.words.length) :
    s.words.length = 1 + s.predicted.length + s.lps.countP (fun lp => lp.isNone) +
      s.lps.countP (fun lp => match lp with | some .negInf => true | _ => false) := by
  rw [← h]
  unfold Sentence.predicted
  generalize s.lps = l
  induction l with
  | nil => rfl
  | cons lp l ih =>
    rcases lp with _ | (_ | _ | _ | _) <;> simp at ih ⊢ <;> omega

theorem TextSentences.lengths {sc : Scorer S} {marking : Marking} {bs : List TextBatch} {sents : List (Sentence S)}
    (h : TextSentences sc marking bs sents) : ∀ s ∈ sents, s.lps.length + 1 = s.words.length := by
  intro s hs
  unfold TextSentences at h
  generalize (bs.flatMap fun b => (List.range b.1.n).map fun i => (b, i)) = l at h
  induction h with
  | nil => simp at hs
  | cons h1 _ ih =>
    rcases List.mem_cons.mp hs with rfl | hs
    · obtain ⟨ws, ys, -, -, hm, -⟩ := h1
      exact C37_count _ _ _ _ _ hm
    · exact ih hs

theorem sentences_count (sents : List (Sentence S)) (h : ∀ s ∈ sents, s.lps.length + 1 = s.words.length) :
    (sents.map (fun s => s.words.length)).sum = sents.length + (sents.flatMap Sentence.predicted).length +
      (sents.flatMap Sentence.lps).countP (fun lp => lp.isNone) + (sents.flatMap Sentence.lps).countP
        (fun lp => match lp with | some .negInf => true | _ => false) := by
  induction sents with
  | nil => simp
  | cons s rest ih =>
    have h1 := sentence_count s (h s (by simp))
    have h2 := ih (fun s hs => h s (by simp [hs]))
    simp only [List.map_cons, List.sum_cons, List.flatMap_cons, List.length_append, List.length_cons, List.countP_append]
    omega

end

end TheanoLM
