import Verif.Lemmas.LanguageModel
/-!
# Properties of the network as a language model: C96
-/
namespace TheanoLM
set_option linter.unusedSectionVars false

section
variable {P : Parsers} {v : Vocab} {unkId : Nat} {env : CreateEnv ℝ} {a : Architecture} {layers : List (Created ℝ)} {output : Nat}

/-- C96.  The log probabilities of the words of a sequence do not depend on the other sequences of the mini-batch or on what follows the
sequence, unless the network has bidirectional layers.  (This is what is assumed of the network in `C88` and `C89`.) -/
theorem C96_independent (hv : Constructible P v) (hu : v.wordToId unk = some unkId) (hm : ModelOf env a v layers output)
    (hf : ∀ c ∈ layers, c.layer.Forward) (useShortlist excludeUnk : Bool) :
    (scorerOf v unkId layers output useShortlist excludeUnk).BatchIndependent := by
  intro b b' i i' len hb hb' hi hi' hl hl' hsame t ht
  have hvoc : (scorerOf v unkId layers output useShortlist excludeUnk).vocab = v := rfl
  obtain ⟨net, h1, h2, h3, h4⟩ := hm.created
  obtain ⟨c, hc, hno⟩ := hm.output
  have run : ∀ b : MiniBatch, ∃ out, evalNetwork realAct ⟨false, excludeUnk, fun _ _ _ => []⟩ (layers.map Created.layer)
      (table b.steps b.n (cellOf v unkId b)) = .ok out ∧ ∀ t i, t < b.steps → i < b.n → ∃ e p, posAt out t i = some e ∧
        e.probs output = some p := by
    intro b
    obtain ⟨out, g1, g2, g3, g4⟩ := C80_trained env a net hm.prior h1 h4 layers h3 realAct ⟨false, excludeUnk, fun _ _ _ => []⟩ b.n
      (fun h => by cases h) _ rect_table (cells_valid hv hu hm.words hm.classes b b.steps)
    refine ⟨out, g1, fun t i ht hi => ?_⟩
    obtain ⟨e, he⟩ := Option.isSome_iff_exists.mp ((posAt_isSome g3 t i).mpr ⟨by rw [g2]; simp [table]; exact ht, hi⟩)
    obtain ⟨x, hx1, hx2⟩ := (g4 t i e he).2 output c hc
    have hio : c.layer.IsOutput := by
      rcases hno with ⟨_, _, hl⟩ | ⟨_, _, _, _, _, hl⟩ <;> rw [hl] <;> trivial
    cases x with
    | probs p => exact ⟨e, p, he, by unfold Entry.probs; rw [hx1]⟩
    | vec y => exact absurd hio hx2.2.1
    | id m =>
      exfalso
      have h := hx2.1
      rcases hno with ⟨_, _, hl⟩ | ⟨_, _, _, _, _, hl⟩ <;> rw [hl] at h <;> exact h
  obtain ⟨out, o1, o2⟩ := run b
  obtain ⟨out', o1', o2'⟩ := run b'
  obtain ⟨e, p, he, hp⟩ := o2 t i (by omega) hi
  obtain ⟨e', p', he', hp'⟩ := o2' t i' (by omega) hi'
  rw [score_of_output (by omega) hi o1 he hp, score_of_output (by omega) hi' o1' he' hp', ← (hsame (t + 1) (by omega)).1]
  have hpos : posAt out t i = posAt out' t i' := by
    refine C59_partial (ws := (List.range len).map fun t => cellOf v unkId b t i) ?_ rfl o1 o1' ?_ ?_ t (by simpa using ht)
    · intro layer hlay
      obtain ⟨c, hc, rfl⟩ := List.mem_map.mp hlay
      exact hf c hc
    · intro s hs
      rw [List.length_map, List.length_range] at hs
      rw [posAt_table (by omega) hi, List.getElem?_map, List.getElem?_range hs]
      rfl
    · intro s hs
      rw [List.length_map, List.length_range] at hs
      rw [posAt_table (by omega) hi', List.getElem?_map, List.getElem?_range hs]
      simp only [Option.map_some, Option.some.injEq]
      unfold cellOf
      rw [(hsame s (by omega)).1, (hsame (s + 1) (by omega)).2.1, (hsame (s + 1) (by omega)).2.2]
  rw [he, he'] at hpos
  cases hpos
  rw [hp] at hp'
  cases hp'
  rfl

/-- What the network reads when it predicts the word after `h`. -/
theorem prefix_cells (h : List Nat) (w : Nat) :
    table (sentenceBatch (h ++ [w])).steps (sentenceBatch (h ++ [w])).n (cellOf v unkId (sentenceBatch (h ++ [w]))) =
      table h.length 1 (cellOf v unkId (sentenceBatch h)) := by
  have e : (sentenceBatch (h ++ [w])).steps = h.length := by simp [sentenceBatch]
  rw [e]
  refine table_congr fun t i ht hi => ?_
  unfold cellOf sentenceBatch
  simp only [List.getD, List.getElem?_append_left ht]
  rfl

/-- The distribution after the words `h`, and the scores of the words that may follow. -/
theorem next_scores (hv : Constructible P v) (hu : v.wordToId unk = some unkId) (hm : ModelOf env a v layers output)
    (useShortlist : Bool) {excludeUnk : Bool} (hx : excludeUnk = true → 2 ≤ v.numClasses) {h : List Nat} (hne : h ≠ []) :
    ∃ p : List ℝ, p.length = v.numClasses ∧ (∀ x ∈ p, 0 ≤ x) ∧ (Normalized layers output → p.sum = 1) ∧
      ((∃ c b u, layers[output]? = some c ∧ c.layer = .softmax b u) → excludeUnk = true →
        p[env.unkClass]? = some 0 ∨ v.numClasses ≤ env.unkClass) ∧ (excludeUnk = false → ∀ x ∈ p, 0 < x) ∧
      ∀ w, (scorerOf v unkId layers output useShortlist excludeUnk).networkScore (sentenceBatch (h ++ [w])) (h.length - 1) 0 =
        fltLog (p.getD (memberOf v w).1 0) := by
  have hlen := List.length_pos_iff.mpr hne
  have hpos : 0 < v.numClasses := lt_of_le_of_lt (Nat.zero_le _) (memberOf_class hv hu 0).1
  obtain ⟨out, o1, o2, o3, o4⟩ := output_distribution hm hx hpos (batch := table h.length 1 (cellOf v unkId (sentenceBatch h)))
    rect_table (cells_valid hv hu hm.words hm.classes (sentenceBatch h) h.length)
  obtain ⟨e, he⟩ := Option.isSome_iff_exists.mp ((posAt_isSome o3 (h.length - 1) 0).mpr ⟨by rw [o2]; simp [table]; omega, by omega⟩)
  obtain ⟨p, hp, p1, p2, p3, p4, p5⟩ := o4 _ _ e he
  refine ⟨p, p1, p2, p3, p4, p5, fun w => ?_⟩
  have hw : (sentenceBatch (h ++ [w])).word (h.length - 1 + 1) 0 = w := by
    unfold sentenceBatch
    simp only
    rw [show h.length - 1 + 1 = h.length by omega]
    simp [List.getD]
  rw [score_of_output (p := p) (e := e) (out := out) (by simp [sentenceBatch]; omega) (by simp [sentenceBatch])
    (by rw [prefix_cells]; exact o1) he hp, hw]
  have hlt : (memberOf v w).1 < p.length := by rw [p1]; exact (memberOf_class hv hu w).1
  rw [List.getElem?_eq_getElem hlt]
  simp [List.getD, List.getElem?_eq_getElem hlt]

/-- C96, without distributing the probability of `<unk>`.  After any words, the scores of the words that may follow are the logarithms of
probabilities that sum to one over the shortlist; the words outside the shortlist have the probability of `<unk>`. -/
theorem C96_sum (hv : Constructible P v) (hu : v.wordToId unk = some unkId) (hm : ModelOf env a v layers output)
    (hno : Normalized layers output)
    (useShortlist excludeUnk : Bool) (hx : excludeUnk = true → 2 ≤ v.numClasses) (hprob : ∀ w, 0 ≤ probOf v w)
    (hs : ¬ (scorerOf v unkId layers output useShortlist excludeUnk).UsesShortlist) (h : List Nat) (hne : h ≠ []) :
    ∃ p : Nat → ℝ, (∀ w, 0 ≤ p w) ∧
      (∀ w x, (scorerOf v unkId layers output useShortlist excludeUnk).WordScore (sentenceBatch (h ++ [w])) (h.length - 1) 0 x ↔
        x = fltLog (p w)) ∧
      ∑ w ∈ Finset.range v.numShortlist, p w = 1 ∧ ∀ w, v.numShortlist ≤ w → p w = p unkId := by
  obtain ⟨p, p1, p2, p3, _, _, p5⟩ := next_scores hv hu hm useShortlist hx hne
  have hlen := List.length_pos_iff.mpr hne
  have hnn : ∀ c, 0 ≤ p.getD c 0 := by
    intro c
    by_cases hc : c < p.length
    · simp only [List.getD, List.getElem?_eq_getElem hc, Option.getD_some]
      exact p2 _ (List.getElem_mem hc)
    · simp [List.getD, List.getElem?_eq_none (show p.length ≤ c by omega)]
  have hmn : ∀ w, 0 ≤ ((memberOf v w).2 : ℝ) := by
    intro w
    rw [(memberOf_class hv hu w).2.2]
    exact_mod_cast hprob _
  refine ⟨fun w => p.getD (memberOf v w).1 0 * ((memberOf v w).2 : ℝ), fun w => mul_nonneg (hnn _) (hmn w), fun w x => ?_,
    class_word_sum hv p1 (p3 hno), fun w hw => ?_⟩
  · have hw : (sentenceBatch (h ++ [w])).word (h.length - 1 + 1) 0 = w := by
      unfold sentenceBatch
      simp only
      rw [show h.length - 1 + 1 = h.length by omega]
      simp [List.getD]
    unfold Scorer.WordScore
    rw [p5 w, hw]
    have hlog : (scorerOf v unkId layers output useShortlist excludeUnk).log (memberOf (scorerOf v unkId layers output useShortlist
        excludeUnk).vocab w).2 = fltLog ((memberOf v w).2 : ℝ) := rfl
    rw [hlog, fltLog_mul (hnn _) (hmn w)]
    exact ⟨fun h => h.1 hs, fun h => ⟨fun _ => h, fun h' => absurd h' hs⟩⟩
  · have e1 := memberOf_class hv hu w
    have e2 := memberOf_class hv hu unkId
    rw [if_neg (by omega)] at e1
    rw [if_pos (unkId_lt hv hu)] at e2
    have e3 := e1.2.1.symm.trans e2.2.1
    injection e3 with e3
    simp only
    rw [e3, e1.2.2, e2.2.2]

/-- C96, when the probability of `<unk>` is distributed among the words outside the shortlist, and some of them have been counted.  After
any words, the scores of the words that may follow are the logarithms of probabilities that sum to one over the vocabulary without
`<unk>`. -/
theorem C96_shortlist (hv : Constructible P v) (hu : v.wordToId unk = some unkId) (hm : ModelOf env a v layers output)
    (hno : Normalized layers output)
    (excludeUnk : Bool) (hx : excludeUnk = true → 2 ≤ v.numClasses) (hprob : ∀ w, 0 ≤ probOf v w) (u : List ℚ) (hg : v.unigram = some u)
    (hun : ∀ x ∈ u, 0 ≤ x) (hpos : (u.drop v.numShortlist).sum ≠ 0) (h : List Nat) (hne : h ≠ []) :
    ∃ p : Nat → ℝ, (∀ w, 0 ≤ p w) ∧
      (∀ w x, w < v.numWords → ((scorerOf v unkId layers output true excludeUnk).WordScore (sentenceBatch (h ++ [w])) (h.length - 1) 0 x ↔
        x = fltLog (p w))) ∧
      ∑ w ∈ (Finset.range v.numWords).filter (· ≠ unkId), p w = 1 := by
  obtain ⟨p, p1, p2, p3, _, _, p5⟩ := next_scores hv hu hm true hx hne
  obtain ⟨r, r1, r2, r3, r4⟩ := oos_fractions hv hg hpos
  have hlen := List.length_pos_iff.mpr hne
  have hnn : ∀ c, 0 ≤ p.getD c 0 := by
    intro c
    by_cases hc : c < p.length
    · simp only [List.getD, List.getElem?_eq_getElem hc, Option.getD_some]
      exact p2 _ (List.getElem_mem hc)
    · simp [List.getD, List.getElem?_eq_none (show p.length ≤ c by omega)]
  have hmn : ∀ w, 0 ≤ ((memberOf v w).2 : ℝ) := by
    intro w
    rw [(memberOf_class hv hu w).2.2]
    exact_mod_cast hprob _
  have hrn : ∀ w, 0 ≤ r w := by
    intro w
    by_cases hw : w < v.numShortlist
    · rw [r2 w hw]; exact zero_le_one
    · rw [r3 w (by omega)]
      apply div_nonneg
      · by_cases hl : w < u.length
        · simp only [List.getD, List.getElem?_eq_getElem hl, Option.getD_some]
          exact hun _ (List.getElem_mem hl)
        · simp [List.getD, List.getElem?_eq_none (show u.length ≤ w by omega)]
      · exact List.sum_nonneg fun x hx => hun x (List.mem_of_mem_drop hx)
  have hrn' : ∀ w, 0 ≤ ((r w : ℚ) : ℝ) := fun w => by exact_mod_cast hrn w
  have hs : (scorerOf v unkId layers output true excludeUnk).UsesShortlist := ⟨rfl, by
    show v.unigram ≠ none
    rw [hg]
    simp⟩
  refine ⟨fun w => p.getD (memberOf v w).1 0 * ((memberOf v w).2 : ℝ) * ((r w : ℚ) : ℝ),
    fun w => mul_nonneg (mul_nonneg (hnn _) (hmn w)) (hrn' w), fun w x hlt => ?_, ?_⟩
  · have hw : (sentenceBatch (h ++ [w])).word (h.length - 1 + 1) 0 = w := by
      unfold sentenceBatch
      simp only
      rw [show h.length - 1 + 1 = h.length by omega]
      simp [List.getD]
    unfold Scorer.WordScore
    rw [p5 w, hw]
    have hlog : (scorerOf v unkId layers output true excludeUnk).log (memberOf (scorerOf v unkId layers output true
        excludeUnk).vocab w).2 = fltLog ((memberOf v w).2 : ℝ) := rfl
    rw [hlog, fltLog_mul (hnn _) (hmn w)]
    obtain ⟨l, hl1, hl2⟩ := r1 w hlt
    have hq : (scorerOf v unkId layers output true excludeUnk).log (r w) = fltLog ((r w : ℚ) : ℝ) := rfl
    constructor
    · intro hh
      obtain ⟨l', q, h1, h2, h3⟩ := hh.2 hs
      have h1' : v.oosProbs = some l' := h1
      rw [hl1] at h1'
      cases h1'
      rw [hl2] at h2
      cases h2
      rw [h3]
      simp only
      rw [hq, fltLog_mul (mul_nonneg (hnn _) (hmn w)) (hrn' w)]
    · intro hh
      refine ⟨fun h' => absurd hs h', fun _ => ⟨l, some (r w), hl1, hl2, ?_⟩⟩
      simp only
      rw [hh, hq, fltLog_mul (mul_nonneg (hnn _) (hmn w)) (hrn' w)]
  · have hul := unkId_lt hv hu
    obtain ⟨n, ps, hvi⟩ := hv.inv
    have hsl : v.numShortlist ≤ v.numWords := hvi.short
    have hs1 := class_word_sum hv p1 (p3 hno)
    have hne' : ∑ w ∈ (Finset.range v.numWords).filter (· ≠ unkId),
        p.getD (memberOf v w).1 0 * ((memberOf v w).2 : ℝ) * ((r w : ℚ) : ℝ) =
        ∑ w ∈ Finset.range v.numWords, p.getD (memberOf v w).1 0 * ((memberOf v w).2 : ℝ) * ((r w : ℚ) : ℝ) -
          p.getD (memberOf v unkId).1 0 * ((memberOf v unkId).2 : ℝ) := by
      rw [Finset.filter_ne', ← Finset.add_sum_erase (Finset.range v.numWords) _ (Finset.mem_range.mpr (show unkId < v.numWords by omega)),
        r2 unkId hul, Rat.cast_one, mul_one]
      ring
    rw [hne', show v.numWords = v.numShortlist + (v.numWords - v.numShortlist) by omega, Finset.sum_range_add]
    have e1 : ∑ w ∈ Finset.range v.numShortlist, p.getD (memberOf v w).1 0 * ((memberOf v w).2 : ℝ) * ((r w : ℚ) : ℝ) = 1 := by
      rw [← hs1]
      apply Finset.sum_congr rfl
      intro w hw
      rw [r2 w (Finset.mem_range.mp hw), Rat.cast_one, mul_one]
    have e2 : ∀ k ∈ Finset.range (v.numWords - v.numShortlist),
        p.getD (memberOf v (v.numShortlist + k)).1 0 * ((memberOf v (v.numShortlist + k)).2 : ℝ) * ((r (v.numShortlist + k) : ℚ) : ℝ) =
        p.getD (memberOf v unkId).1 0 * ((memberOf v unkId).2 : ℝ) * ((r (v.numShortlist + k) : ℚ) : ℝ) := by
      intro k _
      have e1 := memberOf_class hv hu (v.numShortlist + k)
      have e2 := memberOf_class hv hu unkId
      rw [if_neg (by omega)] at e1
      rw [if_pos hul] at e2
      have e3 := e1.2.1.symm.trans e2.2.1
      injection e3 with e3
      rw [e3, e1.2.2, e2.2.2]
    have e3 : v.numShortlist + (v.numWords - v.numShortlist) - v.numShortlist = v.numWords - v.numShortlist := by omega
    rw [e1, Finset.sum_congr rfl e2, ← Finset.mul_sum, ← Rat.cast_sum, r4, Rat.cast_one]
    ring

theorem normalized_softmax (hout : ∃ c b u, layers[output]? = some c ∧ c.layer = .softmax b u) : Normalized layers output := by
  obtain ⟨c, b, u, h1, h2⟩ := hout
  intro c' hc'
  rw [h1] at hc'
  cases hc'
  exact .inl ⟨b, u, h2⟩

/-- C96, with a softmax output layer and `--exclude-unk`.  `<unk>` has zero probability, and the probabilities of the other words of the
shortlist sum to one. -/
theorem C96_excluded (hv : Constructible P v) (hu : v.wordToId unk = some unkId) (hm : ModelOf env a v layers output)
    (useShortlist : Bool) (hx : 2 ≤ v.numClasses) (hprob : ∀ w, 0 ≤ probOf v w)
    (hs : ¬ (scorerOf v unkId layers output useShortlist true).UsesShortlist)
    (hout : ∃ c b u, layers[output]? = some c ∧ c.layer = .softmax b u) (h : List Nat) (hne : h ≠ []) :
    (scorerOf v unkId layers output useShortlist true).WordScore (sentenceBatch (h ++ [unkId])) (h.length - 1) 0 .negInf ∧
    ∃ p : Nat → ℝ, (∀ w, 0 ≤ p w) ∧
      (∀ w x, (scorerOf v unkId layers output useShortlist true).WordScore (sentenceBatch (h ++ [w])) (h.length - 1) 0 x ↔
        x = fltLog (p w)) ∧
      ∑ w ∈ (Finset.range v.numShortlist).filter (· ≠ unkId), p w = 1 := by
  obtain ⟨p, h1, h2, h3, -⟩ := C96_sum hv hu hm (normalized_softmax hout) useShortlist true (fun _ => hx) hprob hs h hne
  obtain ⟨q, q1, q2, q3, q4, _, q5⟩ := next_scores hv hu hm useShortlist (excludeUnk := true) (fun _ => hx) hne
  have hlen := List.length_pos_iff.mpr hne
  have hul := unkId_lt hv hu
  have hzero : (scorerOf v unkId layers output useShortlist true).WordScore (sentenceBatch (h ++ [unkId])) (h.length - 1) 0 .negInf := by
    refine ⟨fun _ => ?_, fun h' => absurd h' hs⟩
    have e2 := memberOf_class hv hu unkId
    rw [if_pos hul, hm.unkClass _ hu] at e2
    have hc : (memberOf v unkId).1 = env.unkClass := by injection e2.2.1.symm
    have hz : q.getD (memberOf v unkId).1 0 = 0 := by
      rcases q4 hout rfl with hq | hq
      · rw [hc]; simp [List.getD, hq]
      · have := e2.1
        omega
    have hw : (sentenceBatch (h ++ [unkId])).word (h.length - 1 + 1) 0 = unkId := by
      unfold sentenceBatch
      simp only
      rw [show h.length - 1 + 1 = h.length by omega]
      simp [List.getD]
    rw [q5 unkId, hz, hw]
    have hlog : (scorerOf v unkId layers output useShortlist true).log (memberOf (scorerOf v unkId layers output useShortlist
        true).vocab unkId).2 = fltLog ((memberOf v unkId).2 : ℝ) := rfl
    have hmn : 0 ≤ ((memberOf v unkId).2 : ℝ) := by
      rw [e2.2.2]
      exact_mod_cast hprob _
    rw [hlog, fltLog_mul (le_refl 0) hmn, zero_mul]
    unfold fltLog
    rw [if_pos rfl]
  refine ⟨hzero, p, h1, h2, ?_⟩
  have hpz : p unkId = 0 := by
    have := (h2 unkId .negInf).mp hzero
    unfold fltLog at this
    by_contra hne'
    rw [if_neg hne', if_pos (lt_of_le_of_ne (h1 _) (Ne.symm hne'))] at this
    cases this
  rw [Finset.filter_ne', ← h3, ← Finset.add_sum_erase (Finset.range v.numShortlist) _ (Finset.mem_range.mpr hul), hpz, zero_add]

/-- C96, without `--exclude-unk`.  Every word with a positive class membership probability has a positive
probability: its score is a finite number. -/
theorem C96_finite (hv : Constructible P v) (hu : v.wordToId unk = some unkId) (hm : ModelOf env a v layers output)
    (useShortlist : Bool) (hs : ¬ (scorerOf v unkId layers output useShortlist false).UsesShortlist)
    (h : List Nat) (hne : h ≠ []) (w : Nat)
    (hw : 0 < (memberOf v w).2) :
    ∃ x : ℝ, (scorerOf v unkId layers output useShortlist false).WordScore (sentenceBatch (h ++ [w])) (h.length - 1) 0 (.fin x) := by
  obtain ⟨q, q1, q2, q3, _, q4, q5⟩ := next_scores hv hu hm useShortlist (excludeUnk := false) (fun h => by cases h) hne
  have hlen := List.length_pos_iff.mpr hne
  have hlt : (memberOf v w).1 < q.length := by rw [q1]; exact (memberOf_class hv hu w).1
  have hq : 0 < q.getD (memberOf v w).1 0 := by
    simp only [List.getD, List.getElem?_eq_getElem hlt, Option.getD_some]
    exact q4 rfl _ (List.getElem_mem hlt)
  have hmn : (0 : ℝ) < ((memberOf v w).2 : ℝ) := by exact_mod_cast hw
  refine ⟨Real.log (q.getD (memberOf v w).1 0 * ((memberOf v w).2 : ℝ)), fun _ => ?_, fun h' => absurd h' hs⟩
  have hw' : (sentenceBatch (h ++ [w])).word (h.length - 1 + 1) 0 = w := by
    unfold sentenceBatch
    simp only
    rw [show h.length - 1 + 1 = h.length by omega]
    simp [List.getD]
  rw [q5 w, hw']
  have hlog : (scorerOf v unkId layers output useShortlist false).log (memberOf (scorerOf v unkId layers output useShortlist
      false).vocab w).2 = fltLog ((memberOf v w).2 : ℝ) := rfl
  rw [hlog, fltLog_mul hq.le hmn.le]
  unfold fltLog
  rw [if_neg (ne_of_gt (mul_pos hq hmn)), if_pos (mul_pos hq hmn)]

/-- The score of a position does not depend on what follows the predicted word. -/
theorem score_prefix (hv : Constructible P v) (hu : v.wordToId unk = some unkId) (hm : ModelOf env a v layers output)
    (hf : ∀ c ∈ layers, c.layer.Forward) (useShortlist excludeUnk : Bool) (ids h rest : List Nat) (w : Nat) (he : ids = h ++ w :: rest)
    (hne : h ≠ []) (hids : ∀ x ∈ ids, x < v.numWords) (x : Flt ℝ) :
    (scorerOf v unkId layers output useShortlist excludeUnk).WordScore (sentenceBatch ids) (h.length - 1) 0 x ↔
      (scorerOf v unkId layers output useShortlist excludeUnk).WordScore (sentenceBatch (h ++ [w])) (h.length - 1) 0 x := by
  have hlen := List.length_pos_iff.mpr hne
  have valid : ∀ l : List Nat, l ≠ [] → (∀ x ∈ l, x < v.numWords) → (sentenceBatch l).Valid v := by
    intro l hl hx
    have := List.length_pos_iff.mpr hl
    refine ⟨fun t i ht _ => ?_, fun _ _ _ _ => .inr rfl⟩
    have ht : t < l.length := by
      have : t ≤ l.length - 1 := ht
      omega
    show l.getD t 0 < _
    simp only [List.getD, List.getElem?_eq_getElem ht, Option.getD_some]
    exact hx _ (List.getElem_mem ht)
  have hword : ∀ t, t ≤ h.length → (sentenceBatch ids).word t 0 = (sentenceBatch (h ++ [w])).word t 0 := by
    intro t ht
    show ids.getD t 0 = (h ++ [w]).getD t 0
    rw [he]
    by_cases hlt : t < h.length
    · simp only [List.getD, List.getElem?_append_left hlt]
    · have : t = h.length := by omega
      subst this
      simp [List.getD]
  have key := C96_independent hv hu hm hf useShortlist excludeUnk (sentenceBatch ids) (sentenceBatch (h ++ [w])) 0 0 h.length
    (valid ids (by rw [he]; simp) hids) (valid (h ++ [w]) (by simp) (by
      intro x hx
      apply hids
      rw [he]
      simp only [List.mem_append, List.mem_cons, List.not_mem_nil, or_false] at hx ⊢
      rcases hx with hx | hx
      · exact .inl hx
      · exact .inr (.inl hx))) (by simp [sentenceBatch]) (by simp [sentenceBatch])
    (by rw [he]; simp [sentenceBatch]) (by simp [sentenceBatch]) (fun t ht => ⟨hword t ht, rfl, rfl⟩) (h.length - 1) (by omega)
  unfold Scorer.WordScore
  rw [key, hword _ (show h.length - 1 + 1 ≤ h.length by omega)]

/-- The scores of the words of a sentence are the logarithms of numbers whose product is the probability of the sentence. -/
theorem sentence_scores {sc : Scorer ℝ} {q : List Nat → Nat → ℝ} (hq : ∀ h w, 0 ≤ q h w) {ids : List Nat} {last : Nat}
    (hw : ∀ h w rest, ids = h ++ w :: rest → h ≠ [] → sc.WordScore (sentenceBatch ids) (h.length - 1) 0 (fltLog (q h w))) :
    ∀ (ws h : List Nat), h ≠ [] → ids = h ++ ws ++ [last] →
      ∃ xs, List.Forall₂ (fun t x => sc.WordScore (sentenceBatch ids) (h.length - 1 + t) 0 x) (List.range (ws.length + 1)) xs ∧
        ∀ y : ℝ, 0 ≤ y → xs.foldl Flt.add (fltLog y) = fltLog (y * treeProb q last h ws) := by
  intro ws
  induction ws with
  | nil =>
    intro h hne he
    refine ⟨[fltLog (q h last)], ?_, fun y hy => ?_⟩
    · have := hw h last [] (by rw [he]; simp) hne
      simpa using this
    · rw [List.foldl_cons, List.foldl_nil, fltLog_mul hy (hq _ _)]
      rfl
  | cons w ws ih =>
    intro h hne he
    have hlen := List.length_pos_iff.mpr hne
    obtain ⟨xs, h1, h2⟩ := ih (h ++ [w]) (by simp) (by rw [he]; simp)
    refine ⟨fltLog (q h w) :: xs, ?_, fun y hy => ?_⟩
    · rw [List.length_cons, List.range_succ_eq_map, List.forall₂_cons]
      refine ⟨hw h w (ws ++ [last]) (by rw [he]; simp) hne, ?_⟩
      rw [List.forall₂_map_left_iff]
      refine h1.imp fun t x hx => ?_
      have e : (h ++ [w]).length - 1 + t = h.length - 1 + (t + 1) := by simp; omega
      rw [e] at hx
      exact hx
    · rw [List.foldl_cons, fltLog_mul hy (hq _ _), h2 _ (mul_nonneg hy (hq _ _)), mul_assoc]
      rfl

/-- C96, sentences.  Unless there are bidirectional layers, sentences have probabilities: the sum of the scores of the words is the
logarithm of the probability of the sentence, and the probabilities of any different sentences of shortlist words sum to at most one. -/
theorem C96_sentences (hv : Constructible P v) (hu : v.wordToId unk = some unkId) (hm : ModelOf env a v layers output)
    (hno : Normalized layers output)
    (hf : ∀ c ∈ layers, c.layer.Forward) (useShortlist excludeUnk : Bool) (hx : excludeUnk = true → 2 ≤ v.numClasses)
    (hprob : ∀ w, 0 ≤ probOf v w) (hs : ¬ (scorerOf v unkId layers output useShortlist excludeUnk).UsesShortlist)
    (first last : Nat) (hfirst : first < v.numWords) (hlast : last < v.numShortlist) :
    ∃ p : List Nat → ℝ, (∀ ws, 0 ≤ p ws) ∧
      (∀ ws, (∀ w ∈ ws, w < v.numWords) → ∃ xs,
        List.Forall₂ (fun t x => (scorerOf v unkId layers output useShortlist excludeUnk).WordScore
          (sentenceBatch (first :: ws ++ [last])) t 0 x) (List.range (ws.length + 1)) xs ∧ Flt.sum xs = fltLog (p ws)) ∧
      ∀ F : Finset (List Nat), (∀ ws ∈ F, ∀ w ∈ ws, w < v.numShortlist ∧ w ≠ last) → ∑ ws ∈ F, p ws ≤ 1 := by
  obtain ⟨n, ps, hvi⟩ := hv.inv
  have hsl : v.numShortlist ≤ v.numWords := hvi.short
  have hex : ∀ h : List Nat, ∃ p : Nat → ℝ, (∀ w, 0 ≤ p w) ∧ (h ≠ [] →
      (∀ w x, (scorerOf v unkId layers output useShortlist excludeUnk).WordScore (sentenceBatch (h ++ [w])) (h.length - 1) 0 x ↔
        x = fltLog (p w)) ∧ ∑ w ∈ Finset.range v.numShortlist, p w = 1) := by
    intro h
    by_cases hne : h = []
    · exact ⟨fun _ => 0, fun _ => le_refl 0, fun h' => absurd hne h'⟩
    · obtain ⟨p, h1, h2, h3, -⟩ := C96_sum hv hu hm hno useShortlist excludeUnk hx hprob hs h hne
      exact ⟨p, h1, fun _ => ⟨h2, h3⟩⟩
  choose q q1 q2 using hex
  refine ⟨treeProb q last [first], fun ws => treeProb_nonneg q1 last ws _, fun ws hws => ?_, fun F hF => ?_⟩
  · have hids : ∀ x ∈ first :: ws ++ [last], x < v.numWords := by
      intro x hx
      simp only [List.mem_append, List.mem_cons, List.not_mem_nil, or_false] at hx
      rcases hx with (rfl | hx) | rfl
      · exact hfirst
      · exact hws x hx
      · omega
    obtain ⟨xs, h1, h2⟩ := sentence_scores (sc := scorerOf v unkId layers output useShortlist excludeUnk) q1
      (ids := first :: ws ++ [last]) (last := last) (fun h w rest he hne =>
        (score_prefix hv hu hm hf useShortlist excludeUnk _ h rest w he hne hids _).mpr (((q2 h hne).1 w _).mpr rfl)) ws [first]
      (by simp) rfl
    refine ⟨xs, h1.imp fun t x hx => by simpa using hx, ?_⟩
    have := h2 1 zero_le_one
    rw [one_mul] at this
    rw [← this]
    unfold Flt.sum
    congr 1
    unfold fltLog
    rw [if_neg one_ne_zero, if_pos zero_lt_one, Real.log_one]
  · obtain ⟨m, hm'⟩ : ∃ m, ∀ ws ∈ F, ws.length ≤ m := ⟨F.sup List.length, fun ws hws => Finset.le_sup (f := List.length) hws⟩
    exact treeProb_sum q1 (Finset.mem_range.mpr hlast) (fun h hne => (q2 h hne).2) m F [first] (by simp) fun ws hws =>
      ⟨hm' ws hws, fun w hw => ⟨Finset.mem_range.mpr (hF ws hws w hw).1, (hF ws hws w hw).2⟩⟩

/-- C96, sentences, when the probability of `<unk>` is distributed among the words outside the shortlist: any different sentences of
vocabulary words. -/
theorem C96_sentences_shortlist (hv : Constructible P v) (hu : v.wordToId unk = some unkId) (hm : ModelOf env a v layers output)
    (hno : Normalized layers output)
    (hf : ∀ c ∈ layers, c.layer.Forward) (excludeUnk : Bool) (hx : excludeUnk = true → 2 ≤ v.numClasses)
    (hprob : ∀ w, 0 ≤ probOf v w) (u : List ℚ) (hg : v.unigram = some u)
    (hun : ∀ x ∈ u, 0 ≤ x) (hpos : (u.drop v.numShortlist).sum ≠ 0)
    (first last : Nat) (hfirst : first < v.numWords) (hlast : last < v.numWords) (hlu : last ≠ unkId) :
    ∃ p : List Nat → ℝ, (∀ ws, 0 ≤ p ws) ∧
      (∀ ws, (∀ w ∈ ws, w < v.numWords) → ∃ xs,
        List.Forall₂ (fun t x => (scorerOf v unkId layers output true excludeUnk).WordScore
          (sentenceBatch (first :: ws ++ [last])) t 0 x) (List.range (ws.length + 1)) xs ∧ Flt.sum xs = fltLog (p ws)) ∧
      ∀ F : Finset (List Nat), (∀ ws ∈ F, ∀ w ∈ ws, w < v.numWords ∧ w ≠ unkId ∧ w ≠ last) → ∑ ws ∈ F, p ws ≤ 1 := by
  have hex : ∀ h : List Nat, ∃ p : Nat → ℝ, (∀ w, 0 ≤ p w) ∧ (h ≠ [] →
      (∀ w x, w < v.numWords → ((scorerOf v unkId layers output true excludeUnk).WordScore (sentenceBatch (h ++ [w])) (h.length - 1) 0 x ↔
        x = fltLog (p w))) ∧ ∑ w ∈ (Finset.range v.numWords).filter (· ≠ unkId), p w = 1) := by
    intro h
    by_cases hne : h = []
    · exact ⟨fun _ => 0, fun _ => le_refl 0, fun h' => absurd hne h'⟩
    · obtain ⟨p, h1, h2, h3⟩ := C96_shortlist hv hu hm hno excludeUnk hx hprob u hg hun hpos h hne
      exact ⟨p, h1, fun _ => ⟨h2, h3⟩⟩
  choose q q1 q2 using hex
  refine ⟨treeProb q last [first], fun ws => treeProb_nonneg q1 last ws _, fun ws hws => ?_, fun F hF => ?_⟩
  · have hids : ∀ x ∈ first :: ws ++ [last], x < v.numWords := by
      intro x hx
      simp only [List.mem_append, List.mem_cons, List.not_mem_nil, or_false] at hx
      rcases hx with (rfl | hx) | rfl
      · exact hfirst
      · exact hws x hx
      · exact hlast
    obtain ⟨xs, h1, h2⟩ := sentence_scores (sc := scorerOf v unkId layers output true excludeUnk) q1
      (ids := first :: ws ++ [last]) (last := last) (fun h w rest he hne =>
        (score_prefix hv hu hm hf true excludeUnk _ h rest w he hne hids _).mpr (((q2 h hne).1 w _ (hids w (by rw [he]; simp))).mpr rfl))
      ws [first] (by simp) rfl
    refine ⟨xs, h1.imp fun t x hx => by simpa using hx, ?_⟩
    have := h2 1 zero_le_one
    rw [one_mul] at this
    rw [← this]
    unfold Flt.sum
    congr 1
    unfold fltLog
    rw [if_neg one_ne_zero, if_pos zero_lt_one, Real.log_one]
  · obtain ⟨m, hm'⟩ : ∃ m, ∀ ws ∈ F, ws.length ≤ m := ⟨F.sup List.length, fun ws hws => Finset.le_sup (f := List.length) hws⟩
    exact treeProb_sum q1 (Finset.mem_filter.mpr ⟨Finset.mem_range.mpr hlast, hlu⟩) (fun h hne => (q2 h hne).2) m F [first] (by simp)
      fun ws hws => ⟨hm' ws hws, fun w hw => ⟨Finset.mem_filter.mpr ⟨Finset.mem_range.mpr (hF ws hws w hw).1, (hF ws hws w hw).2.1⟩,
        (hF ws hws w hw).2.2⟩⟩

end

/-! ## Examples -/

/-- Creation of a network for the vocabulary `exScoreVocab` of six shortlist words in five classes. -/
noncomputable def exampleModelEnv : CreateEnv ℝ where
  numWords := 6
  numClasses := 5
  unkClass := 4
  priorBias := none
  defaultDevice := none
  parseInt := fun _ => none
  parseFloat := fun _ => none
  rateLimit := 9999 / 10000
  defaultRate := 1 / 2
  rand := fun _ _ is => is.sum
  svd := fun _ a => a

instance decidableForward {S : Type} (l : Layer S) : Decidable l.Forward :=
  match l with
  | .bidirectional kind f b => isFalse fun h => h kind f b rfl
  | .wordInput => isTrue nofun
  | .classInput => isTrue nofun
  | .projection _ => isTrue nofun
  | .fullyConnected _ => isTrue nofun
  | .addition _ _ => isTrue nofun
  | .recurrent _ _ => isTrue nofun
  | .highway _ => isTrue nofun
  | .glu _ _ _ _ => isTrue nofun
  | .dropout _ _ => isTrue nofun
  | .softmax _ _ => isTrue nofun
  | .hsoftmax _ _ _ _ _ => isTrue nofun

instance decidableNormalized {S : Type} (c : Created S) : Decidable (∃ b u, c.layer = .softmax b u) :=
  match c.layer with
  | .softmax b u => isTrue ⟨b, u, rfl⟩
  | .bidirectional _ _ _ => isFalse nofun
  | .wordInput => isFalse nofun
  | .classInput => isFalse nofun
  | .projection _ => isFalse nofun
  | .fullyConnected _ => isFalse nofun
  | .addition _ _ => isFalse nofun
  | .recurrent _ _ => isFalse nofun
  | .highway _ => isFalse nofun
  | .glu _ _ _ _ => isFalse nofun
  | .dropout _ _ => isFalse nofun
  | .hsoftmax _ _ _ _ _ => isFalse nofun

/-- Two projections of the input word, and a softmax layer. -/
theorem exampleModel_created (env : CreateEnv ℝ) (he : env = exampleModelEnv ∨ env = { exampleModelEnv with rand := fun _ _ is => 2 * is.sum + 1 }) :
    ∃ net, createNetwork env (exampleSmall "q") = .ok net ∧ net.output = 3 ∧
    (∀ c ∈ net.layers, c.layer.Forward) ∧ (∃ c, net.layers[3]? = some c ∧ ∃ b u, c.layer = .softmax b u) ∧
    ∀ c ∈ net.layers, Connected net.layers c ∧ Placed c := by
  rcases he with rfl | rfl <;> decide +kernel

theorem exampleModel : ∃ layers, ModelOf exampleModelEnv (exampleSmall "q") exScoreVocab layers 3 ∧ (∀ c ∈ layers, c.layer.Forward) ∧
    ∃ c b u, layers[3]? = some c ∧ c.layer = .softmax b u := by
  obtain ⟨net, h1, h2, h3, h4, h5⟩ := exampleModel_created _ (.inl rfl)
  obtain ⟨net', h1', h2', h3', h4', h5'⟩ := exampleModel_created _ (.inr rfl)
  have hp : PriorFits exampleModelEnv (exampleSmall "q") := fun p hp => by cases hp
  have hp' : PriorFits { exampleModelEnv with rand := fun _ _ is => 2 * is.sum + 1 } (exampleSmall "q") := fun p hp => by cases hp
  have hs : SameNetwork net.layers net'.layers := by
    have key := createNetwork_same (env := exampleModelEnv) (env' := { exampleModelEnv with rand := fun _ _ is => 2 * is.sum + 1 })
      ⟨rfl, rfl, rfl, rfl, rfl, rfl, rfl, rfl⟩ (a := exampleSmall "q") (b := exampleSmall "q")
      (List.forall₂_same.mpr fun d hd => rfl) (List.forall₂_same.mpr fun d _ k => rfl) rfl hp hp'
    rw [h1, h1'] at key
    cases key with
    | ok h => exact h.1
  obtain ⟨c, hc, b, u, hl⟩ := h4'
  refine ⟨net'.layers, ⟨⟨net, h1, h2, hs, h5⟩, hp, rfl, rfl, fun i hi => ?_, c, hc, .inl ⟨b, u, hl⟩⟩, h3', c, b, u, hc, hl⟩
  have : exScoreVocab.wordToId unk = some 5 := by decide +kernel
  rw [this] at hi
  cases hi
  rfl

theorem exScoreVocab_nonneg (w : Nat) : 0 ≤ probOf exScoreVocab w := by
  by_cases h : w < 6
  · interval_cases w <;> decide +kernel
  · have : exScoreVocab.classOf[w]? = none := List.getElem?_eq_none (by show 6 ≤ w; omega)
    unfold probOf Vocab.getWordProb
    rw [this]

/-- A case that meets the hypotheses of `C96_independent`, `C96_sum`, `C96_excluded` and `C96_finite`. -/
example : ∃ layers, ModelOf exampleModelEnv (exampleSmall "q") exScoreVocab layers 3 ∧ (∀ c ∈ layers, c.layer.Forward) ∧
    (∃ c b u, layers[3]? = some c ∧ c.layer = .softmax b u) ∧ Constructible exParsers exScoreVocab ∧
    exScoreVocab.wordToId unk = some 5 ∧ 2 ≤ exScoreVocab.numClasses ∧ (∀ w, 0 ≤ probOf exScoreVocab w) ∧
    ¬ (scorerOf exScoreVocab 5 layers 3 false true).UsesShortlist ∧ 0 < (memberOf exScoreVocab 1).2 := by
  obtain ⟨layers, h1, h2, h3⟩ := exampleModel
  exact ⟨layers, h1, h2, h3, exScoreVocab_constructible, (by decide +kernel), (by decide +kernel), exScoreVocab_nonneg,
    (fun h => Bool.false_ne_true h.1), by decide +kernel⟩

/-- A case that meets the hypotheses of `C96_shortlist`. -/
example : ∃ u, exScoreVocab.unigram = some u ∧ (∀ x ∈ u, 0 ≤ x) ∧ (u.drop exScoreVocab.numShortlist).sum ≠ 0 :=
  ⟨_, rfl, by decide +kernel, by decide +kernel⟩

end TheanoLM
