import Verif.Lemmas.TextScorer
import Mathlib.Algebra.Order.BigOperators.Group.List
import Mathlib.Tactic.IntervalCases
/-!
# Properties C38, C39 and C75: scoring text
-/
set_option linter.unusedSectionVars false

namespace TheanoLM

section
variable {S : Type} [Field S] [LinearOrder S]

/-! ## C38 -/

/-- The log probability of a word is determined by the scorer and the mini-batch. -/
theorem C38_word_score_unique (sc : Scorer S) (b : MiniBatch) (t i : Nat) (x y : Flt S) (hx : sc.WordScore b t i x)
    (hy : sc.WordScore b t i y) : x = y := by
  by_cases h : sc.UsesShortlist
  · obtain ⟨r, q, hr, hq, rfl⟩ := hx.2 h
    obtain ⟨r', q', hr', hq', rfl⟩ := hy.2 h
    rw [hr] at hr'; cases hr'
    rw [hq] at hq'; cases hq'
    rfl
  · rw [hx.1 h, hy.1 h]

theorem includedScores_unique {sc : Scorer S} {b : MiniBatch} {xs ys : List (Flt S)} (hx : sc.IncludedScores b xs)
    (hy : sc.IncludedScores b ys) : xs = ys := by
  unfold Scorer.IncludedScores at hx hy
  generalize b.positions.filter _ = l at hx hy
  induction hx generalizing ys with
  | nil => cases hy; rfl
  | cons h _ ih =>
    cases hy with
    | cons h' ht' => rw [C38_word_score_unique _ _ _ _ _ _ h h', ih ht']

theorem perplexityLoop_ok {P : Parsers} {sc : Scorer S} (h : sc.Proper P) (bs : List MiniBatch)
    (hb : ∀ b ∈ bs, b.Valid sc.vocab) (a : S) (k : Nat) (r : Flt S × Nat) :
    sc.perplexityLoop (bs.map MiniBatch.matrices) (.fin a) k = .ok r ↔
      ∃ vals : List (List S), List.Forall₂ (fun b xs => sc.IncludedScores b (xs.map .fin) ∧ xs.sum ≤ 0) bs vals ∧
        r = (.fin (a + vals.flatten.sum), k + vals.flatten.length) := by
  induction bs generalizing a k with
  | nil =>
    simp only [List.map_nil, Scorer.perplexityLoop, List.forall₂_nil_left_iff, exists_eq_left]
    simp [eq_comm]
  | cons b bs ih =>
    rw [List.map_cons]
    obtain ⟨xs, hxs, ht⟩ := totalLogprob_batch h b (hb b List.mem_cons_self)
    have hc := cells_table h b
    rw [show b.matrices = (b.matrices.1, b.matrices.2) from rfl, Scorer.perplexityLoop, hc]
    simp only [ht]
    constructor
    · intro hr
      cases hk : checkLogprob (Flt.sum xs) with
      | error e => rw [hk] at hr; cases hr
      | ok y =>
        rw [hk] at hr
        simp only at hr
        obtain ⟨-, c, hc1, hc2⟩ := checkLogprob_ok.mp hk
        obtain ⟨zs, hz1, hz2⟩ := Flt.sum_eq_fin.mp hc1
        rw [hc1] at hr
        obtain ⟨vals, hv1, hv2⟩ := (ih (fun b hb' => hb b (List.mem_cons_of_mem _ hb')) (a + c) (k + xs.length)).mp hr
        refine ⟨zs :: vals, .cons ⟨by rw [← hz1]; exact hxs, by rw [← hz2]; exact hc2⟩ hv1, ?_⟩
        rw [hv2, List.flatten_cons, List.sum_append, List.length_append, hz2, hz1, List.length_map, add_assoc, add_assoc]
    · rintro ⟨vals, hv, rfl⟩
      cases hv with
      | cons hv1 hv2 =>
        rename_i zs vals
        have e := includedScores_unique hxs hv1.1
        have hs : Flt.sum xs = .fin zs.sum := Flt.sum_eq_fin.mpr ⟨zs, e, rfl⟩
        have hk : checkLogprob (Flt.sum xs) = .ok (.fin zs.sum) := checkLogprob_ok.mpr ⟨hs, _, hs, hv1.2⟩
        rw [hk]
        simp only
        rw [hs]
        refine (ih (fun b hb' => hb b (List.mem_cons_of_mem _ hb')) (a + zs.sum) (k + xs.length)).mpr ⟨vals, hv2, ?_⟩
        rw [e, List.flatten_cons, List.sum_append, List.length_append, List.length_map, add_assoc, add_assoc]

/-- C38: the perplexity is computed exactly when the log probability of every included word is finite, their sum in each
mini-batch is not positive, and there is at least one included word.  It is then the exponential of minus the sum of the log
probabilities of the included words of the text divided by their number. -/
theorem C38_perplexity (P : Parsers) (sc : Scorer S) (h : sc.Proper P) (bs : List MiniBatch)
    (hb : ∀ b ∈ bs, b.Valid sc.vocab) (p : Flt S) :
    sc.computePerplexity (bs.map MiniBatch.matrices) = .ok p ↔
      ∃ vals : List (List S), List.Forall₂ (fun b xs => sc.IncludedScores b (xs.map .fin) ∧ xs.sum ≤ 0) bs vals ∧
        vals.flatten ≠ [] ∧ p = .fin (sc.exp (-vals.flatten.sum / vals.flatten.length)) := by
  unfold Scorer.computePerplexity
  constructor
  · intro hp
    cases hl : sc.perplexityLoop (bs.map MiniBatch.matrices) (.fin 0) 0 with
    | error e => rw [hl] at hp; cases hp
    | ok r =>
      rw [hl] at hp
      obtain ⟨vals, hv, rfl⟩ := (perplexityLoop_ok h bs hb 0 0 r).mp hl
      simp only [zero_add] at hp
      split at hp
      · cases hp
      · rename_i hn
        refine ⟨vals, hv, fun e => hn (by rw [e]; rfl), ?_⟩
        cases hp; rfl
  · rintro ⟨vals, hv, hne, rfl⟩
    rw [(perplexityLoop_ok h bs hb 0 0 _).mpr ⟨vals, hv, rfl⟩]
    simp only [zero_add]
    rw [if_neg (fun e => hne (List.length_eq_zero_iff.mp e))]
    rfl

/-- C38: when no word is included, computing the perplexity raises `ValueError`. -/
theorem C38_no_words (P : Parsers) (sc : Scorer S) (h : sc.Proper P) (bs : List MiniBatch)
    (hb : ∀ b ∈ bs, b.Valid sc.vocab)
    (hno : ∀ b ∈ bs, ∀ t i, t < b.steps → i < b.n → ¬ sc.Included b t i) :
    sc.computePerplexity (bs.map MiniBatch.matrices) = .error .valueError := by
  have hv : List.Forall₂ (fun b xs => sc.IncludedScores b (xs.map Flt.fin) ∧ xs.sum ≤ 0) bs
      (bs.map (fun _ => ([] : List S))) := by
    rw [List.forall₂_map_right_iff, List.forall₂_same]
    intro b hb'
    refine ⟨?_, by simp⟩
    unfold Scorer.IncludedScores
    rw [List.filter_eq_nil_iff.mpr]
    · exact .nil
    · intro p hp
      obtain ⟨h1, h2⟩ := mem_positions hp
      simpa using hno b hb' p.1 p.2 h1 h2
  unfold Scorer.computePerplexity
  rw [(perplexityLoop_ok h bs hb 0 0 _).mpr ⟨_, hv, rfl⟩]
  simp only
  rw [if_pos]
  simp

/-- C38: the scores of a mini-batch are, for each sequence, the log probabilities of the target words before the end of the
sequence, with `None` in place of excluded words. -/
theorem C38_score_batch (P : Parsers) (sc : Scorer S) (h : sc.Proper P) (b : MiniBatch) (hb : b.Valid sc.vocab) :
    ∃ batch r, sc.cells b.matrices.1 b.matrices.2 = .ok batch ∧ sc.scoreBatch batch = .ok r ∧ r.length = b.n ∧
      ∀ i ys, r[i]? = some ys → sc.SequenceScores b i ys := by
  obtain ⟨r, h1, h2, h3⟩ := scoreBatch_spec h b hb
  exact ⟨_, r, cells_table h b, h1, h2, h3⟩

/-- Every pair of rectangular matrices of the same shape with at least one row is a mini-batch as in the theorems above, in
particular those that the batch iterators create (`C07_training`, `C07_scoring`). -/
theorem C38_all_matrices (wordIds mask : List (List Nat)) (T n : Nat) (hw : Shape wordIds (T + 1) n)
    (hm : Shape mask (T + 1) n) : ∃ b : MiniBatch, b.matrices = (wordIds, mask) ∧ b.steps = T ∧ b.n = n := by
  refine ⟨⟨T, n, fun t i => (wordIds.getD t []).getD i default, fun t i => (mask.getD t []).getD i default⟩, ?_, rfl, rfl⟩
  unfold MiniBatch.matrices
  simp only [Prod.mk.injEq]
  exact ⟨(table_of_shape hw).symm, (table_of_shape hm).symm⟩

/-! ## C39 -/

/-- C39: a blank line has no score. -/
theorem C39_blank (sc : Scorer S) (line : Str) (h : utteranceFromLine line = .ok []) : sc.scoreLine line = .ok none := by
  unfold Scorer.scoreLine
  rw [h]
  simp

theorem sentence_cells (v : Vocab) (ids : List Nat) (hne : ids ≠ []) :
    ids.map (fun w => [Cell.mk w (memberOf v w).1 (memberOf v w).2 1]) =
      table ((sentenceBatch ids).steps + 1) (sentenceBatch ids).n ((sentenceBatch ids).cellAt v) := by
  have hl : ids.length - 1 + 1 = ids.length := by
    have := List.length_pos_iff.mpr hne
    omega
  apply List.ext_getElem
  · simp [table, sentenceBatch, hl]
  · intro t h1 h2
    simp only [List.length_map] at h1
    simp [table, sentenceBatch, MiniBatch.cellAt, h1]

theorem sentence_valid {P : Parsers} {sc : Scorer S} (h : sc.Proper P) {ids : List Nat} (hne : ids ≠ [])
    (hids : ∀ w ∈ ids, w < sc.vocab.numShortlist) : (sentenceBatch ids).Valid sc.vocab := by
  obtain ⟨n, ps, hv⟩ := h.vocab.inv
  constructor
  · intro t i ht _
    have := List.length_pos_iff.mpr hne
    have ht' : t < ids.length := by simp only [sentenceBatch] at ht; omega
    have hs := hids ids[t] (List.getElem_mem ht')
    have hsl : sc.vocab.numShortlist ≤ sc.vocab.numWords := hv.short
    simp only [sentenceBatch, List.getD_eq_getElem?_getD, List.getElem?_eq_getElem ht', Option.getD_some]
    omega
  · intro t i _ _
    exact Or.inr rfl

theorem memberOf_shortlist {P : Parsers} {v : Vocab} (h : Constructible P v) {w : Nat} (hw : w < v.numShortlist) :
    v.classOf[w]? = some (memberOf v w).1 ∧ v.getWordProb w = .ok (memberOf v w).2 := by
  obtain ⟨n, ps, hv⟩ := h.inv
  obtain ⟨c, p, hc, -, hs⟩ := classMembership_ok hv w
  have := hs hw
  simpa [memberOf, hc] using this

theorem Flt.sum_map_filterMap (l : List α) (f : α → Option (Flt S)) :
    Flt.sum (l.filterMap f) = Flt.sum (l.map (fun a => (f a).getD (.fin 0))) := by
  induction l with
  | nil => rfl
  | cons a l ih =>
    rw [List.filterMap_cons, List.map_cons, Flt.sum_cons, ← ih]
    cases f a with
    | none => rw [Option.getD_none, Flt.zero_add']
    | some x => rw [Option.getD_some]; exact Flt.sum_cons _ _

/-- C39: the score of a line whose words are in the shortlist or unknown is the sum of the scores that the words get in a
mini-batch that consists of the line, leaving out the words with zero class membership probability; it is an error if the sum
is not a finite non-positive number.

Missing from the full claim: see `C39_violated`. -/
theorem C39_line_partial (P : Parsers) (sc : Scorer S) (h : sc.Proper P) (line : Str) (ids : List Nat)
    (hids : sc.vocab.wordsToIds (utterance line) = .ok ids) (hne : ids ≠ [])
    (hshort : ∀ w ∈ ids, w < sc.vocab.numShortlist) :
    ∃ batch ys, sc.cells (sentenceBatch ids).matrices.1 (sentenceBatch ids).matrices.2 = .ok batch ∧
      sc.scoreBatch batch = .ok [ys] ∧ ys.length + 1 = ids.length ∧
      sc.scoreLine line =
        match checkLogprob (Flt.sum ((ys.zip ids.tail).filterMap
          (fun p => if (memberOf sc.vocab p.2).2 = 0 then none else p.1))) with
        | .error e => .error e
        | .ok x => .ok (some x) := by
  have hval := sentence_valid h hne hshort
  have hpos := List.length_pos_iff.mpr hne
  obtain ⟨r, h1, h2, h3⟩ := scoreBatch_spec h (sentenceBatch ids) hval
  have hr1 : r.length = 1 := h2
  obtain ⟨ys, rfl⟩ := List.length_eq_one_iff.mp hr1
  have hseq := h3 0 ys rfl
  have hfilter : (List.range (sentenceBatch ids).steps).filter (fun t => decide ((sentenceBatch ids).mask (t + 1) 0 = 1)) =
      List.range (sentenceBatch ids).steps := by
    rw [List.filter_eq_self]; intro t _; rfl
  unfold Scorer.SequenceScores at hseq
  rw [hfilter] at hseq
  have hylen : ys.length = ids.length - 1 := by
    have := hseq.length_eq
    simp only [List.length_range] at this
    exact this.symm
  refine ⟨_, ys, cells_table h _, h1, by omega, ?_⟩
  obtain ⟨u, hu⟩ : ∃ u, utteranceFromLine line = .ok u := by
    cases hu : utteranceFromLine line with
    | ok u => exact ⟨u, rfl⟩
    | error e =>
      exfalso
      apply hne
      have : utterance line = [] := by unfold utterance; rw [hu]
      rw [this] at hids
      unfold Vocab.wordsToIds at hids
      rw [h.unk] at hids
      cases hids; rfl
  have huu : utterance line = u := by unfold utterance; rw [hu]
  rw [huu] at hids
  have hune : u ≠ [] := by
    rintro rfl
    unfold Vocab.wordsToIds at hids
    rw [h.unk] at hids
    cases hids
    exact hne rfl
  unfold Scorer.scoreLine
  rw [hu]
  simp only [if_neg hune, hids]
  rw [mapE_eq (g := fun w => (w, (memberOf sc.vocab w).1, (memberOf sc.vocab w).2))]
  · simp only
    unfold Scorer.scoreSequence
    rw [List.map_map]
    have hcells : ids.map ((fun p : Nat × Nat × ℚ => [Cell.mk p.1 p.2.1 p.2.2 1]) ∘
        fun w => (w, (memberOf sc.vocab w).1, (memberOf sc.vocab w).2)) =
        ids.map (fun w => [Cell.mk w (memberOf sc.vocab w).1 (memberOf sc.vocab w).2 1]) := rfl
    rw [hcells, sentence_cells sc.vocab ids hne]
    obtain ⟨xs, hxs, ht⟩ := totalLogprob_batch h (sentenceBatch ids) hval
    rw [ht]
    simp only
    have hsum : Flt.sum xs = Flt.sum ((ys.zip ids.tail).filterMap
          (fun p => if (memberOf sc.vocab p.2).2 = 0 then none else p.1)) := by
      have hxs' : xs = ((List.range (sentenceBatch ids).steps).filter
          (fun t => decide (sc.Included (sentenceBatch ids) t 0))).map (fun t => (ys.getD t none).getD (.fin 0)) := by
        apply includedScores_unique hxs
        unfold Scorer.IncludedScores
        have hp : (sentenceBatch ids).positions = (List.range (sentenceBatch ids).steps).map (fun t => (t, 0)) := by
          unfold MiniBatch.positions
          rw [show (sentenceBatch ids).n = 1 from rfl]
          rw [List.flatMap_def]
          induction List.range (sentenceBatch ids).steps with
          | nil => rfl
          | cons a l ih => rw [List.map_cons, List.flatten_cons, ih]; rfl
        rw [hp, List.filter_map, List.forall₂_map_left_iff, List.forall₂_map_right_iff]
        simp only [Function.comp_def]
        rw [List.forall₂_same]
        intro t ht
        obtain ⟨ht, hin⟩ := List.mem_filter.mp ht
        have hin : sc.Included (sentenceBatch ids) t 0 := by simpa using hin
        have ht := List.mem_range.mp ht
        have hty : t < ys.length := by rw [hylen]; exact ht
        have hget := (List.forall₂_iff_get.mp hseq).2 t (by simpa using ht) hty
        simp only [List.get_eq_getElem, List.getElem_range] at hget
        obtain ⟨x, hx1, hx2⟩ := hget.2 hin.2.1
        simp only [List.getD_eq_getElem?_getD, List.getElem?_eq_getElem hty, Option.getD_some, hx1]
        exact hx2
      have hz : ys.zip ids.tail = (List.range (sentenceBatch ids).steps).map
          (fun t => (ys.getD t none, (sentenceBatch ids).word (t + 1) 0)) := by
        apply List.ext_getElem
        · simp [sentenceBatch, hylen]
        · intro t h1 h2
          simp only [List.length_zip, List.length_tail, hylen, min_self] at h1
          have hty : t < ys.length := by rw [hylen]; exact h1
          have hti : t + 1 < ids.length := by omega
          simp [sentenceBatch, hty, hti]
      rw [hxs', hz, Flt.sum_map_filterMap, List.map_map, ← Flt.sum_filter]
      congr 1
      apply List.map_congr_left
      intro t ht
      have ht := List.mem_range.mp ht
      have hty : t < ys.length := by rw [hylen]; exact ht
      have hget := (List.forall₂_iff_get.mp hseq).2 t (by simpa using ht) hty
      simp only [List.get_eq_getElem, List.getElem_range] at hget
      have hm : (sentenceBatch ids).mask (t + 1) 0 = 1 := rfl
      simp only [Function.comp_def]
      by_cases hp : (memberOf sc.vocab ((sentenceBatch ids).word (t + 1) 0)).2 = 0
      · have : ¬ sc.Included (sentenceBatch ids) t 0 := fun h => h.2.2 hp
        simp [this, hp]
      · by_cases hx : sc.Excluded ((sentenceBatch ids).word (t + 1) 0)
        · have : ¬ sc.Included (sentenceBatch ids) t 0 := fun h => h.2.1 hx
          have e := hget.1 hx
          simp [this, hp, hty, e]
        · have : sc.Included (sentenceBatch ids) t 0 := ⟨hm, hx, hp⟩
          simp [this, hp, hty]
    rw [hsum]
    split <;> rename_i h <;> rw [h]
  · intro w hw
    obtain ⟨e1, e2⟩ := memberOf_shortlist h.vocab (hshort w hw)
    rw [e1, e2]

/-- C39: when the line is scored together with other sequences, its words get the same scores, if the network predicts the same
log probabilities for it as alone (`C59` is about this). -/
theorem C39_in_batch (P : Parsers) (sc : Scorer S) (h : sc.Proper P) (b b' : MiniBatch) (hb : b.Valid sc.vocab)
    (hb' : b'.Valid sc.vocab) (i i' : Nat) (hi : i < b.n) (hi' : i' < b'.n) (len : Nat)
    (hlen : len ≤ b.steps) (hlen' : len ≤ b'.steps)
    (hm : ∀ t, t < b.steps → (b.mask (t + 1) i = 1 ↔ t < len)) (hm' : ∀ t, t < b'.steps → (b'.mask (t + 1) i' = 1 ↔ t < len))
    (hword : ∀ t, t < len → b.word (t + 1) i = b'.word (t + 1) i')
    (hnet : ∀ t, t < len → sc.networkScore b t i = sc.networkScore b' t i') :
    ∃ batch r batch' r', sc.cells b.matrices.1 b.matrices.2 = .ok batch ∧ sc.scoreBatch batch = .ok r ∧
      sc.cells b'.matrices.1 b'.matrices.2 = .ok batch' ∧ sc.scoreBatch batch' = .ok r' ∧ r[i]? = r'[i']? ∧
      (r[i]?).isSome = true := by
  obtain ⟨batch, r, h1, h2, h3, h4⟩ := C38_score_batch P sc h b hb
  obtain ⟨batch', r', h1', h2', h3', h4'⟩ := C38_score_batch P sc h b' hb'
  refine ⟨batch, r, batch', r', h1, h2, h1', h2', ?_, by rw [List.getElem?_eq_getElem (by omega)]; rfl⟩
  have hir : i < r.length := by omega
  have hir' : i' < r'.length := by omega
  rw [List.getElem?_eq_getElem hir, List.getElem?_eq_getElem hir']
  have hs := h4 i _ (List.getElem?_eq_getElem hir)
  have hs' := h4' i' _ (List.getElem?_eq_getElem hir')
  unfold Scorer.SequenceScores at hs hs'
  have hf : ∀ (bb : MiniBatch) (j : Nat), len ≤ bb.steps → (∀ t, t < bb.steps → (bb.mask (t + 1) j = 1 ↔ t < len)) →
      (List.range bb.steps).filter (fun t => decide (bb.mask (t + 1) j = 1)) = List.range len := by
    intro bb j hl hmm
    have e : (List.range bb.steps).filter (fun t => decide (bb.mask (t + 1) j = 1)) =
        (List.range bb.steps).filter (fun t => decide (t < len)) := by
      apply List.filter_congr
      intro t ht
      simp [hmm t (List.mem_range.mp ht)]
    rw [e]
    obtain ⟨d, hd⟩ := Nat.exists_eq_add_of_le hl
    rw [hd, List.range_add, List.filter_append, List.filter_eq_self.mpr, List.filter_eq_nil_iff.mpr, List.append_nil]
    · intro a ha
      obtain ⟨k, -, rfl⟩ := List.mem_map.mp ha
      simp
    · intro a ha
      simpa using ha
  rw [hf b i hlen hm] at hs
  rw [hf b' i' hlen' hm'] at hs'
  congr 1
  have hl1 := hs.length_eq
  have hl2 := hs'.length_eq
  apply List.ext_getElem
  · omega
  · intro t ht ht'
    have ht0 : t < len := by simp only [List.length_range] at hl1; omega
    have g := (List.forall₂_iff_get.mp hs).2 t (by simpa using ht0) ht
    have g' := (List.forall₂_iff_get.mp hs').2 t (by simpa using ht0) ht'
    simp only [List.get_eq_getElem, List.getElem_range] at g g'
    rw [← hword t ht0] at g'
    by_cases hx : sc.Excluded (b.word (t + 1) i)
    · rw [g.1 hx, g'.1 hx]
    · obtain ⟨x, hx1, hx2⟩ := g.2 hx
      obtain ⟨y, hy1, hy2⟩ := g'.2 hx
      rw [hx1, hy1]
      congr 1
      apply C38_word_score_unique sc b t i x y hx2
      unfold Scorer.WordScore at hy2 ⊢
      rw [← hword t ht0, ← hnet t ht0] at hy2
      exact hy2

end

/-! ## C75 -/

/-- C75: without a shortlist, no out-of-shortlist word and no unknown word is scored, if excluding unknown words is requested.

Missing from the full claim (made by the documentation of the scoring functions): the same when a shortlist is used, see
`C75_violated`. -/
theorem C75_excluded_partial {S : Type} [Field S] [LinearOrder S] (P : Parsers) (sc : Scorer S) (h : sc.Proper P) (b : MiniBatch)
    (hb : b.Valid sc.vocab) (hx : sc.excludeUnk = true) (hs : sc.useShortlist = false ∨ sc.vocab.unigram = none)
    (batch : List (List Cell)) (r : List (List (Option (Flt S)))) (hc : sc.cells b.matrices.1 b.matrices.2 = .ok batch)
    (hr : sc.scoreBatch batch = .ok r) (i : Nat) (ys : List (Option (Flt S))) (hi : r[i]? = some ys)
    (hall : ∀ t, t < b.steps → b.mask (t + 1) i = 1) (t : Nat) (ht : t < b.steps)
    (hw : sc.vocab.numShortlist ≤ b.word (t + 1) i ∨ b.word (t + 1) i = sc.unkId) : ys[t]? = some none := by
  obtain ⟨batch', r', h1, h2, -, h4⟩ := C38_score_batch P sc h b hb
  rw [hc] at h1; cases h1
  rw [hr] at h2; cases h2
  have hseq := h4 i ys hi
  unfold Scorer.SequenceScores at hseq
  rw [List.filter_eq_self.mpr (by intro a ha; simpa using hall a (List.mem_range.mp ha))] at hseq
  have hl := hseq.length_eq
  simp only [List.length_range] at hl
  have g := (List.forall₂_iff_get.mp hseq).2 t (by simpa using ht) (by omega)
  simp only [List.get_eq_getElem, List.getElem_range] at g
  rw [List.getElem?_eq_getElem (by omega), g.1]
  unfold Scorer.Excluded
  rw [if_neg]
  · exact ⟨hx, hw.symm⟩
  · rintro ⟨h5, h6⟩
    rcases hs with hs | hs
    · rw [hs] at h5; cases h5
    · exact h6 hs

/-! ## Examples -/

/-- A vocabulary with the classes `{b, c}`, `{a}` and the special tokens, and the out-of-shortlist words `x` and `y`. -/
def exScoreVocab : Vocab where
  idToWord := ["b", "a", "c", "<s>", "</s>", "<unk>", "x", "y"].map String.toList
  classOf := [0, 1, 0, 2, 3, 4]
  classes := [⟨0, [(0, 0), (2, 1)]⟩, ⟨1, [(1, 1)]⟩, ⟨2, [(3, 1)]⟩, ⟨3, [(4, 1)]⟩, ⟨4, [(5, 1)]⟩]
  numNormal := 2
  unigram := some [0, 5/10, 1/10, 0, 0, 0, 1/10, 3/10]

def exScoreCounts : List (Str × Nat) := [("a".toList, 5), ("c".toList, 1), ("x".toList, 1), ("y".toList, 3)]

theorem exScoreVocab_constructible : Constructible exParsers exScoreVocab := by
  obtain ⟨v, h1, h2⟩ : ∃ v, vocabFromFile exParsers exVocabLines .classes ["x".toList, "y".toList] = .ok v ∧
      computeProbs v exScoreCounts true = .ok exScoreVocab := by decide +kernel
  exact .probs v _ exScoreCounts true (.file _ _ _ v h1) (by decide +kernel) h2

/-- A scorer whose network gives the log probability -1 to the word of the first time step, -2 to the second one and so on.
The logarithm is replaced with a function that has rational values. -/
def exScorer (useShortlist excludeUnk : Bool) : Scorer ℚ where
  vocab := exScoreVocab
  unkId := 5
  net := fun _ _ _ _ t _ => .fin (-(t + 1))
  log p := if p = 0 then .negInf else .fin (p - 1)
  exp x := 1 + x
  useShortlist := useShortlist
  excludeUnk := excludeUnk

theorem exScorer_proper (u e : Bool) : (exScorer u e).Proper exParsers :=
  ⟨exScoreVocab_constructible, show exScoreVocab.wordToId unk = some 5 by decide +kernel⟩

/-- Two sentences, `<s> a x </s>` and `<s> zzz </s>`. -/
def exScoreBatch : MiniBatch where
  steps := 3
  n := 2
  word t i := (([[3, 3], [1, 5], [6, 4], [4, 5]].getD t []).getD i 0)
  mask t i := (([[1, 1], [1, 1], [1, 1], [1, 0]].getD t []).getD i 0)

theorem exScoreBatch_valid : exScoreBatch.Valid exScoreVocab := by
  constructor
  · intro t i ht hi
    simp only [exScoreBatch] at ht hi
    interval_cases t <;> interval_cases i <;> decide +kernel
  · intro t i ht hi
    simp only [exScoreBatch] at ht hi
    interval_cases t <;> interval_cases i <;> decide +kernel

/-- The hypotheses of `C38_perplexity` are met: the unknown word is excluded, and the out-of-shortlist word is given its share
of the probability of `<unk>`. -/
example : (exScorer true false).computePerplexity [exScoreBatch.matrices] = .ok (.fin (1 + (35/4) / 4)) := by decide +kernel

/-- Without a shortlist and exclusion the unknown word is included. -/
example : (exScorer false false).computePerplexity [exScoreBatch.matrices] = .ok (.fin (1 + 9 / 5)) := by decide +kernel

/-- Only unknown words: an error. -/
example : (exScorer true false).computePerplexity [([[3], [5]], [[1], [1]])] = .error .valueError := by decide +kernel

/-- The hypotheses of `C39_line_partial` are met by the line `a b c`, in which `b` has zero membership probability. -/
example : (exScorer true false).vocab.wordsToIds (utterance "a b c".toList) = .ok [3, 1, 0, 2, 4] ∧
    (∀ w ∈ [3, 1, 0, 2, 4], w < (exScorer true false).vocab.numShortlist) ∧
    (exScorer true false).scoreLine "a b c".toList = .ok (some (.fin (-8))) := by decide +kernel

/-- C39 is violated: scoring a line that contains an out-of-shortlist word fails, although a mini-batch with the same words
gets scores. -/
theorem C39_violated : ∃ (sc : Scorer ℚ) (line : Str) (ids : List Nat) (batch : List (List Cell)) (ys : List (Option (Flt ℚ))),
    sc.Proper exParsers ∧ sc.vocab.wordsToIds (utterance line) = .ok ids ∧
    sc.cells (sentenceBatch ids).matrices.1 (sentenceBatch ids).matrices.2 = .ok batch ∧ sc.scoreBatch batch = .ok [ys] ∧
    (∀ y ∈ ys, ∃ q, y = some (.fin q)) ∧ sc.scoreLine line = .error .indexError := by
  refine ⟨exScorer true false, "a x".toList, [3, 1, 6, 4], table 4 1 ((sentenceBatch [3, 1, 6, 4]).cellAt exScoreVocab),
    [some (.fin (-1)), some (.fin (-11/4)), some (.fin (-3))],
    exScorer_proper _ _, by decide +kernel, by decide +kernel, by decide +kernel, ?_, by decide +kernel⟩
  intro y hy
  simp only [List.mem_cons, List.not_mem_nil, or_false] at hy
  rcases hy with rfl | rfl | rfl <;> exact ⟨_, rfl⟩

/-- C75 is violated: an out-of-shortlist word is scored although excluding unknown words is requested, when a shortlist is used
(the second word of the first sentence). -/
theorem C75_violated : ∃ (sc : Scorer ℚ) (b : MiniBatch) (batch : List (List Cell)) (r : List (List (Option (Flt ℚ)))),
    sc.Proper exParsers ∧ b.Valid sc.vocab ∧ sc.excludeUnk = true ∧ sc.useShortlist = true ∧
    sc.cells b.matrices.1 b.matrices.2 = .ok batch ∧ sc.scoreBatch batch = .ok r ∧
    sc.vocab.numShortlist ≤ b.word 2 0 ∧ ∃ ys, r[0]? = some ys ∧ ys[1]? = some (some (.fin (-11/4))) :=
  ⟨exScorer true true, exScoreBatch, table 4 2 (exScoreBatch.cellAt exScoreVocab),
    [[some (.fin (-1)), some (.fin (-11/4)), some (.fin (-3))], [none, some (.fin (-2))]],
    exScorer_proper _ _, exScoreBatch_valid, rfl, rfl, by decide +kernel, by decide +kernel, by decide +kernel,
    _, rfl, by decide +kernel⟩

/-- The hypotheses of `C75_excluded_partial` are met. -/
example : (exScorer false true).scoreBatch (table 4 1 ((sentenceBatch [3, 1, 6, 4]).cellAt exScoreVocab)) =
    .ok [[some (.fin (-1)), none, some (.fin (-3))]] := by decide +kernel

/-- The hypotheses of `C39_in_batch` are met by the first sentence of `exScoreBatch`, alone and in the mini-batch. -/
example : (∀ t, t < 3 → (exScorer true false).networkScore exScoreBatch t 0 =
      (exScorer true false).networkScore (sentenceBatch [3, 1, 6, 4]) t 0) ∧
    (∀ t, t < 3 → exScoreBatch.word (t + 1) 0 = (sentenceBatch [3, 1, 6, 4]).word (t + 1) 0) ∧
    (∀ t, t < 3 → exScoreBatch.mask (t + 1) 0 = 1) := by
  refine ⟨fun t _ => rfl, ?_, ?_⟩ <;> decide +kernel

end TheanoLM
