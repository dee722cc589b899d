import Verif.Lemmas.FilePerplexity
import Verif.Props.LanguageModel
import Verif.Props.ScoreBound
/-!
# Properties of the perplexity of text files: C110
-/
set_option linter.unusedSectionVars false

namespace TheanoLM

section
variable {S : Type} [Field S] [LinearOrder S] [IsStrictOrderedRing S]

theorem sequenceScored_unique {P : Parsers} {sc : Scorer S} (h : sc.Proper P) {seq : List Tok} {xs ys : List (Flt S)}
    (hx : SequenceScored sc seq xs) (hy : SequenceScored sc seq ys) : xs = ys := by
  obtain ⟨ids, h1, h2⟩ := hx
  obtain ⟨ids', h1', h2'⟩ := hy
  have : ids = ids' := forall₂_unique (R := fun (p : Tok) id => IdOf sc.vocab false sc.unkId p.1 id)
    (fun _ _ _ a b => idOf_unique (constructible_nodup h.vocab) a b) h1 h1'
  subst this
  exact includedScores_unique h2 h2'

theorem sequences_long {files : List Str} {m : Option Nat} {ss : List (List Tok)} (h : Sequences files m ss) :
    ∀ s ∈ ss, 2 ≤ s.length := by
  obtain ⟨us, cuts, _, _, rfl⟩ := h
  intro s hs
  simpa using (List.mem_filter.mp hs).2

theorem filePerplexity_of {P : Parsers} {sc : Scorer S} (h : sc.Proper P) (hi : sc.BatchIndependent) (hn : sc.NonPositive)
    (files : List Str) (maxLen : Option Nat) (hm : maxLen ≠ some 0) (ss : List (List Tok)) (hs : Sequences files maxLen ss)
    (B : Nat) (hB : 0 < B) :
    ∃ scores r, List.Forall₂ (SequenceScored sc) ss scores ∧ PerplexityOf sc.exp scores.flatten r ∧
      ∃ N, ∀ fuel, N ≤ fuel → sc.filePerplexity files ⟨B, maxLen⟩ fuel = some r := by
  obtain ⟨batches, hcut, N, hN⟩ := C03_pass files ⟨B, maxLen⟩ hm hB ss hs
  have hlen : ∀ b ∈ batches, ∀ s ∈ b, 2 ≤ s.length := by
    intro b hb s hs'
    have : s ∈ batches.flatten := List.mem_flatten.mpr ⟨b, hb, hs'⟩
    rw [hcut.join] at this
    exact sequences_long hs s this
  obtain ⟨bs, e, hv, hf⟩ := prepared_batches h batches hcut.nonempty hlen
  obtain ⟨l, e1, e2⟩ := prepare_of_scoring sc.vocab batches bs e
  have hvalid : ∀ b ∈ bs.map (·.1), b.Valid sc.vocab := by
    intro b hb
    obtain ⟨b', hb', rfl⟩ := List.mem_map.mp hb
    exact (hv b' hb').1
  obtain ⟨scores, cols, h1, h2, h3⟩ := columns_of_batches h (bs.map (·.1)) hvalid
  rw [hcut.join] at hf
  have hseq : List.Forall₂ (fun seq xs => ∃ ids, List.Forall₂ (fun (p : Tok) id => IdOf sc.vocab false sc.unkId p.1 id) seq ids ∧
      (sentenceBatch ids).Valid sc.vocab ∧ sc.IncludedScores (sentenceBatch ids) xs) ss cols := by
    rw [List.flatMap_map] at h2
    have h2' : List.Forall₂ (fun (p : TextBatch × Nat) xs => ColumnScores sc (p.1.1, p.2) xs)
        (bs.flatMap (fun b => (List.range b.1.n).map (fun i => (b, i)))) cols := by
      have : bs.flatMap (fun b => (List.range b.1.n).map (fun i => (b.1, i))) =
          (bs.flatMap (fun b => (List.range b.1.n).map (fun i => (b, i)))).map (fun p => (p.1.1, p.2)) := by
        rw [List.map_flatMap]
        congr 1
        funext b
        rw [List.map_map]
        rfl
      rw [this, List.forall₂_map_left_iff] at h2
      exact h2
    refine forall₂_join hf h2' ?_
    rintro ⟨b, i⟩ seq xs ⟨g1, g2, g3, g4, g5, g6, g7, ids, g8, g9⟩ hc
    simp only at *
    have hl8 := g8.length_eq
    rw [List.length_map] at hl8
    have hne : ids ≠ [] := by
      rintro rfl
      rw [List.length_nil] at hl8
      omega
    have hsv := sentence_valid' h.unk g8 hne
    refine ⟨ids, by rwa [List.forall₂_map_left_iff] at g8, hsv, ?_⟩
    exact columnScores_alone hi g1 g2 hsv hne (by omega) (by rw [← hl8]; exact g7) (by rw [← hl8]; exact g9) hc
  have hneg : ∀ c ∈ cols, ∀ x, Flt.fin x ∈ c → x ≤ 0 := by
    intro c hc x hx
    obtain ⟨seq, _, ids, _, hsv, hinc⟩ := forall₂_from hseq hc
    obtain ⟨p, hp, hw⟩ := forall₂_from hinc hx
    obtain ⟨hp1, hp2⟩ := List.mem_filter.mp hp
    obtain ⟨q1, q2⟩ := mem_positions hp1
    have q0 : p.2 = 0 := by
      have : p.2 < 1 := q2
      omega
    rw [q0] at hw hp2
    exact hn ids p.1 x hsv q1 (by simpa using hp2) hw
  refine ⟨cols, sc.computePerplexity ((bs.map (·.1)).map MiniBatch.matrices), ?_, ?_, N, fun fuel hfuel => ?_⟩
  · exact hseq.imp fun _ _ ⟨ids, a, _, c⟩ => ⟨ids, a, c⟩
  · refine (computePerplexity_of h (bs.map (·.1)) hvalid scores h1 ?_).perm h3
    intro l hl x hx
    have : Flt.fin x ∈ cols.flatten := h3.mem_iff.mp (List.mem_flatten.mpr ⟨l, hl, hx⟩)
    obtain ⟨c, hc, hxc⟩ := List.mem_flatten.mp this
    exact hneg c hc x hxc
  · unfold Scorer.filePerplexity
    rw [hN fuel fuel hfuel hfuel]
    dsimp only
    rw [e1]
    dsimp only
    rw [e2, List.map_map]
    rfl

/-- C110.  The perplexity of text files is computed from the log probabilities of the included words of the sequences of the files, each
of them scored alone, so that it does not depend on how many sequences there are in a mini-batch.  (A network without bidirectional
layers satisfies the assumptions, see `C110_network`.) -/
theorem C110_perplexity (P : Parsers) (sc : Scorer S) (h : sc.Proper P) (hi : sc.BatchIndependent) (hn : sc.NonPositive)
    (files : List Str) (maxLen : Option Nat) (hm : maxLen ≠ some 0) (ss : List (List Tok)) (hs : Sequences files maxLen ss) :
    ∃ scores r, List.Forall₂ (SequenceScored sc) ss scores ∧ PerplexityOf sc.exp scores.flatten r ∧
      ∀ B, 0 < B → ∃ N, ∀ fuel, N ≤ fuel → sc.filePerplexity files ⟨B, maxLen⟩ fuel = some r := by
  obtain ⟨scores, r, h1, h2, _⟩ := filePerplexity_of h hi hn files maxLen hm ss hs 1 (by omega)
  refine ⟨scores, r, h1, h2, fun B hB => ?_⟩
  obtain ⟨scores', r', h1', h2', h3'⟩ := filePerplexity_of h hi hn files maxLen hm ss hs B hB
  have : scores' = scores := forall₂_unique (R := SequenceScored sc) (fun _ _ _ a b => sequenceScored_unique h a b) h1' h1
  subst this
  rw [h2.unique h2']
  exact h3'

/-! ## The order of the files -/

/-- The words of the sequences of a file. -/
def fileSequences (m : Option Nat) (file : Str) : List (List Str) :=
  (((linesOf isNl file).map fun l => (piecesOf m (lineToks (l, 0))).map (·.map Prod.fst)).flatten).filter
    fun q => decide (2 ≤ q.length)

theorem chunk_mapped {α β : Type} (f : α → β) (k : Nat) (l : List α) : (chunk k l).map (·.map f) = chunk k (l.map f) := by
  induction hn : l.length using Nat.strongRecOn generalizing l with
  | ind n ih =>
    by_cases h : l = []
    · subst h; simp [chunk_nil]
    · have h' : l.map f ≠ [] := fun e => h (List.map_eq_nil_iff.mp e)
      rw [chunk_ne_nil k h, chunk_ne_nil (l := l.map f) k h', List.map_cons, List.map_take, ← List.map_drop]
      rw [ih (l.drop (k + 1)).length (by
        rw [List.length_drop, ← hn]
        have := List.length_pos_iff.mpr h
        omega) _ rfl]

theorem pieces_words (m : Option Nat) (l : Str) (k k' : Nat) :
    (piecesOf m (lineToks (l, k))).map (·.map Prod.fst) = (piecesOf m (lineToks (l, k'))).map (·.map Prod.fst) := by
  have e : ∀ k, (lineToks (l, k)).map Prod.fst = utterance l := by
    intro k
    unfold lineToks
    rw [List.map_map]
    exact List.map_id' _
  cases m with
  | none =>
    unfold piecesOf
    have e2 : (lineToks (l, k) = []) = (lineToks (l, k') = []) := by
      unfold lineToks
      simp
    simp only [e2]
    split
    · rfl
    · rw [List.map_cons, List.map_cons, e, e]
  | some m =>
    unfold piecesOf
    simp only
    rw [chunk_mapped, chunk_mapped, e, e]

theorem sequences_words (m : Option Nat) (hm : m ≠ some 0) (files : List Str) (ss : List (List Tok)) (h : Sequences files m ss) :
    ss.map (·.map Prod.fst) = files.flatMap (fileSequences m) := by
  rw [sequences_iff files m hm] at h
  have e : ss = (((linTail files 0).map fun l => piecesOf m (lineToks l)).flatten).filter (fun q => decide (2 ≤ q.length)) := by
    rw [h]
    simp only [pend, linearInit, piecesOf_nil, linRem_init, List.nil_append]
    rfl
  rw [e]
  clear e h
  generalize 0 = k
  induction files generalizing k with
  | nil => rfl
  | cons f fs ih =>
    rw [linTail, List.map_append, List.flatten_append, List.filter_append, List.map_append, ih, List.flatMap_cons]
    congr 1
    unfold fileSequences
    induction linesOf isNl f with
    | nil => rfl
    | cons l ls ih' =>
      rw [List.map_cons, List.map_cons, List.map_cons, List.flatten_cons, List.flatten_cons, List.filter_append, List.filter_append,
        List.map_append, ih']
      congr 1
      have e : (fun q : List Tok => decide (2 ≤ q.length)) = (fun q : List Str => decide (2 ≤ q.length)) ∘ (·.map Prod.fst) := by
        funext q
        simp
      rw [e, ← List.filter_map, pieces_words m l k 0]

theorem scored_of_words {sc : Scorer S} {ss : List (List Tok)} {scores : List (List (Flt S))}
    (h : List.Forall₂ (SequenceScored sc) ss scores) :
    List.Forall₂ (fun ws xs => ∃ ids, List.Forall₂ (IdOf sc.vocab false sc.unkId) ws ids ∧ sc.IncludedScores (sentenceBatch ids) xs)
      (ss.map (·.map Prod.fst)) scores := by
  rw [List.forall₂_map_left_iff]
  refine h.imp ?_
  rintro s xs ⟨ids, h1, h2⟩
  exact ⟨ids, by rwa [List.forall₂_map_left_iff], h2⟩

/-- C110.  The perplexity of several files does not depend on the order of the files. -/
theorem C110_order (P : Parsers) (sc : Scorer S) (h : sc.Proper P) (hi : sc.BatchIndependent) (hn : sc.NonPositive)
    (files files' : List Str) (hp : files.Perm files') (maxLen : Option Nat) (hm : maxLen ≠ some 0) :
    ∃ r, ∀ B, 0 < B → ∃ N, ∀ fuel, N ≤ fuel → sc.filePerplexity files ⟨B, maxLen⟩ fuel = some r ∧
      sc.filePerplexity files' ⟨B, maxLen⟩ fuel = some r := by
  obtain ⟨ss, hs, _⟩ := sequences_exist_unique files maxLen hm
  obtain ⟨ss', hs', _⟩ := sequences_exist_unique files' maxLen hm
  obtain ⟨scores, r, h1, h2, h3⟩ := C110_perplexity P sc h hi hn files maxLen hm ss hs
  obtain ⟨scores', r', h1', h2', h3'⟩ := C110_perplexity P sc h hi hn files' maxLen hm ss' hs'
  have a1 := scored_of_words h1
  have a1' := scored_of_words h1'
  rw [sequences_words maxLen hm files ss hs] at a1
  rw [sequences_words maxLen hm files' ss' hs'] at a1'
  have hperm : (files.flatMap (fileSequences maxLen)).Perm (files'.flatMap (fileSequences maxLen)) := hp.flatMap_right _
  obtain ⟨mid, b1, b2⟩ := List.perm_comp_forall₂ hperm.symm a1
  have hmid : mid = scores' := by
    refine forall₂_unique (fun ws xs ys hx hy => ?_) b1 a1'
    obtain ⟨ids, c1, c2⟩ := hx
    obtain ⟨ids', c1', c2'⟩ := hy
    have : ids = ids' := forall₂_unique (R := IdOf sc.vocab false sc.unkId)
      (fun _ _ _ a b => idOf_unique (constructible_nodup h.vocab) a b) c1 c1'
    subst this
    exact includedScores_unique c2 c2'
  subst hmid
  have hr : r = r' := (h2.perm b2.symm.flatten).unique h2'
  subst hr
  refine ⟨r, fun B hB => ?_⟩
  obtain ⟨N, hN⟩ := h3 B hB
  obtain ⟨N', hN'⟩ := h3' B hB
  exact ⟨max N N', fun fuel hf => ⟨hN fuel (le_trans (le_max_left _ _) hf), hN' fuel (le_trans (le_max_right _ _) hf)⟩⟩

end

/-! ## Networks -/

section
variable {P : Parsers} {v : Vocab} {unkId : Nat} {env : CreateEnv ℝ} {a : Architecture} {layers : List (Created ℝ)} {output : Nat}

theorem fltLog_nonpos {x y : ℝ} (h : fltLog x = .fin y) (hx : x ≤ 1) : y ≤ 0 := by
  obtain ⟨h0, rfl⟩ := fltLog_fin h
  exact Real.log_nonpos h0.le hx

theorem member_le_one (hv : Constructible P v) (hu : v.wordToId unk = some unkId) (hprob : ∀ w, 0 ≤ probOf v w) (w : Nat) :
    ((memberOf v w).2 : ℝ) ≤ 1 := by
  have hshort : ∀ w, w < v.numShortlist → ((memberOf v w).2 : ℝ) ≤ 1 := by
    intro w hw
    have hk := (memberOf_class hv hu w).1
    set k := (memberOf v w).1
    set p : List ℝ := (List.range v.numClasses).map fun c => if c = k then 1 else 0 with hp
    have hsum : p.sum = 1 := by
      rw [hp, ← List.sum_toFinset _ List.nodup_range]
      rw [Finset.sum_ite_eq']
      simp [hk]
    have hget : ∀ c, p.getD c 0 = if c = k then 1 else 0 := by
      intro c
      rw [hp, List.getD_eq_getElem?_getD, List.getElem?_map]
      by_cases hc : c < v.numClasses
      · rw [List.getElem?_range hc]; rfl
      · rw [List.getElem?_eq_none (by simpa using hc)]
        rw [if_neg (by omega)]
        rfl
    have key := class_word_sum hv (p := p) (by simp [hp]) hsum
    rw [← key]
    have := Finset.single_le_sum (s := Finset.range v.numShortlist)
      (f := fun w => p.getD (memberOf v w).1 0 * ((memberOf v w).2 : ℝ)) (fun i _ => by
        refine mul_nonneg ?_ ?_
        · rw [hget]; split <;> norm_num
        · rw [(memberOf_class hv hu i).2.2]; exact_mod_cast hprob _) (Finset.mem_range.mpr hw)
    refine le_trans (le_of_eq ?_) this
    rw [hget, if_pos rfl, one_mul]
  have e := memberOf_class hv hu w
  by_cases hw : w < v.numShortlist
  · exact hshort w hw
  · have e' := memberOf_class hv hu unkId
    rw [if_neg hw] at e
    rw [if_pos (unkId_lt hv hu)] at e'
    rw [e.2.2, ← e'.2.2]
    exact hshort unkId (unkId_lt hv hu)

theorem oos_le_one {u : List ℚ} (hg : v.unigram = some u) (hun : ∀ x ∈ u, 0 ≤ x) {l : List (Option ℚ)} (hl : v.oosProbs = some l)
    {q : ℚ} (hq : some q ∈ l) : q ≤ 1 := by
  unfold Vocab.oosProbs at hl
  rw [hg] at hl
  simp only [Option.some.injEq] at hl
  subst hl
  rcases List.mem_append.mp hq with h | h
  · obtain ⟨_, _, h⟩ := List.mem_map.mp h
    cases h
    exact le_refl _
  · obtain ⟨x, hx, h⟩ := List.mem_map.mp h
    have hsum : 0 ≤ (u.drop v.numShortlist).sum := List.sum_nonneg fun x hx => hun x (List.mem_of_mem_drop hx)
    split at h
    · cases h
    · rename_i h0
      injection h with h
      subst h
      exact (div_le_one (lt_of_le_of_ne hsum (Ne.symm h0))).mpr
        (List.single_le_sum (fun x hx => hun x (List.mem_of_mem_drop hx)) _ hx)

/-- C110.  A network does not give words probabilities greater than one, if the class membership and unigram probabilities of the
vocabulary are not negative. -/
theorem C110_probability (hv : Constructible P v) (hu : v.wordToId unk = some unkId) (hm : ModelOf env a v layers output)
    (useShortlist excludeUnk : Bool) (hx : excludeUnk = true → 2 ≤ v.numClasses) (hprob : ∀ w, 0 ≤ probOf v w)
    (hun : ∀ u, v.unigram = some u → ∀ x ∈ u, 0 ≤ x) (b : MiniBatch) (t i : Nat) (ht : t < b.steps) (hi : i < b.n) (x : ℝ)
    (hw : (scorerOf v unkId layers output useShortlist excludeUnk).WordScore b t i (.fin x)) : x ≤ 0 := by
  have hpos : 0 < v.numClasses := lt_of_le_of_lt (Nat.zero_le _) (memberOf_class hv hu 0).1
  obtain ⟨out, o1, o2, o3, o4⟩ := output_distribution_le hm hx hpos (batch := table b.steps b.n (cellOf v unkId b))
    rect_table (cells_valid hv hu hm.words hm.classes b b.steps)
  obtain ⟨e, he⟩ := Option.isSome_iff_exists.mp ((posAt_isSome o3 t i).mpr ⟨by rw [o2]; simp [table]; omega, hi⟩)
  obtain ⟨p, hp, p1, p2, _, _, _, p6⟩ := o4 _ _ e he
  have hnet : ∀ y, (scorerOf v unkId layers output useShortlist excludeUnk).networkScore b t i = .fin y → y ≤ 0 := by
    intro y hy
    rw [score_of_output ht hi o1 he hp] at hy
    split at hy
    · rename_i z hz
      exact fltLog_nonpos hy (le_trans (List.single_le_sum p2 _ (List.mem_of_getElem? hz)) p6)
    · cases hy
  have hmemb : ∀ w y, (scorerOf v unkId layers output useShortlist excludeUnk).log (memberOf (scorerOf v unkId layers output useShortlist
      excludeUnk).vocab w).2 = .fin y → y ≤ 0 := by
    intro w y hy
    have hy' : fltLog ((memberOf v w).2 : ℝ) = .fin y := hy
    exact fltLog_nonpos hy' (member_le_one hv hu hprob w)
  by_cases hus : (scorerOf v unkId layers output useShortlist excludeUnk).UsesShortlist
  · obtain ⟨l, q, h1, h2, h3⟩ := hw.2 hus
    obtain ⟨y, z, hy, hz, rfl⟩ := Flt.add_fin h3.symm
    obtain ⟨y1, y2, g1, g2, rfl⟩ := Flt.add_fin hy
    have f1 := hnet y1 g1
    have f2 := hmemb _ y2 g2
    cases q with
    | none => cases hz
    | some q =>
      have hz' : fltLog (q : ℝ) = .fin z := hz
      obtain ⟨u, hg⟩ := Option.ne_none_iff_exists'.mp hus.2
      have f3 := fltLog_nonpos hz' (by exact_mod_cast oos_le_one hg (hun u hg) h1 (List.mem_of_getElem? h2))
      linarith
  · obtain ⟨y1, y2, g1, g2, rfl⟩ := Flt.add_fin (hw.1 hus).symm
    have f1 := hnet y1 g1
    have f2 := hmemb _ y2 g2
    linarith

/-- C110, networks.  The perplexity of text files given by a network without bidirectional layers does not depend on the size of the
mini-batches: it is computed from the log probabilities of the included words of the sequences, each of them scored alone. -/
theorem C110_network (hv : Constructible P v) (hu : v.wordToId unk = some unkId) (hm : ModelOf env a v layers output)
    (hf : ∀ c ∈ layers, c.layer.Forward) (useShortlist excludeUnk : Bool) (hx : excludeUnk = true → 2 ≤ v.numClasses)
    (hprob : ∀ w, 0 ≤ probOf v w) (hun : ∀ u, v.unigram = some u → ∀ x ∈ u, 0 ≤ x)
    (files : List Str) (maxLen : Option Nat) (hl : maxLen ≠ some 0) (ss : List (List Tok)) (hs : Sequences files maxLen ss) :
    ∃ scores r, List.Forall₂ (SequenceScored (scorerOf v unkId layers output useShortlist excludeUnk)) ss scores ∧
      PerplexityOf Real.exp scores.flatten r ∧
      ∀ B, 0 < B → ∃ N, ∀ fuel, N ≤ fuel →
        (scorerOf v unkId layers output useShortlist excludeUnk).filePerplexity files ⟨B, maxLen⟩ fuel = some r :=
  C110_perplexity P _ ⟨hv, hu⟩ (C96_independent hv hu hm hf useShortlist excludeUnk)
    (fun ids t x _ ht _ h => C110_probability hv hu hm useShortlist excludeUnk hx hprob hun (sentenceBatch ids) t 0 ht
      (by simp [sentenceBatch]) x h) files maxLen hl ss hs

end

/-! ## Examples -/

theorem exScorer_nonPositive (u e : Bool) : (exScorer u e).NonPositive := by
  intro ids t x _ _ _ hw
  have hu : exScoreVocab.wordToId unk = some 5 := by decide +kernel
  have hlog : ∀ q y : ℚ, q ≤ 1 → (exScorer u e).log q = .fin y → y ≤ 0 := by
    intro q y hq hy
    simp only [exScorer] at hy
    split at hy
    · cases hy
    · cases hy
      linarith
  have hmem : ∀ w, (memberOf exScoreVocab w).2 ≤ 1 := fun w => by
    exact_mod_cast member_le_one exScoreVocab_constructible hu exScoreVocab_nonneg w
  have hnet : (exScorer u e).networkScore (sentenceBatch ids) t 0 = .fin (-((t : ℚ) + 1)) := rfl
  have ht : -((t : ℚ) + 1) ≤ 0 := by
    have : (0 : ℚ) ≤ t := Nat.cast_nonneg t
    linarith
  have hsum : ∀ y, ((exScorer u e).networkScore (sentenceBatch ids) t 0).add ((exScorer u e).log
      (memberOf exScoreVocab ((sentenceBatch ids).word (t + 1) 0)).2) = .fin y → y ≤ 0 := by
    intro y hy
    obtain ⟨y1, y2, g1, g2, rfl⟩ := Flt.add_eq_fin hy
    rw [hnet] at g1
    cases g1
    have := hlog _ _ (hmem _) g2
    linarith
  by_cases hus : (exScorer u e).UsesShortlist
  · obtain ⟨l, q, h1, h2, h3⟩ := hw.2 hus
    obtain ⟨y, z, hy, hz, rfl⟩ := Flt.add_eq_fin h3.symm
    have f1 := hsum y hy
    cases q with
    | none => cases hz
    | some q =>
      have f2 := hlog q z (oos_le_one (v := exScoreVocab) rfl (by decide +kernel) h1 (List.mem_of_getElem? h2)) hz
      linarith
  · exact hsum x (hw.1 hus).symm

/-- A case that meets the hypotheses of `C110_perplexity` and `C110_order`, and the perplexity of two files of five sentences altogether
in mini-batches of one, two and ten sequences of at most three words. -/
example : (exScorer true false).Proper exParsers ∧ (exScorer true false).BatchIndependent ∧ (exScorer true false).NonPositive ∧
    ∀ B ∈ [1, 2, 10], (exScorer true false).filePerplexity ["a x\nzzz\n\nc c a".toList, "y\na\n".toList] ⟨B, some 3⟩ 100 =
      (exScorer true false).filePerplexity ["y\na\n".toList, "a x\nzzz\n\nc c a".toList] ⟨B, some 3⟩ 100 ∧
      (exScorer true false).filePerplexity ["a x\nzzz\n\nc c a".toList, "y\na\n".toList] ⟨B, some 3⟩ 100 = some (.ok (.fin (13/5))) :=
  ⟨exScorer_proper _ _, exScorer_independent _ _, exScorer_nonPositive _ _, by decide +kernel⟩

/-- A case that meets the hypotheses of `C110_probability` and `C110_network`. -/
example : ∃ layers, ModelOf exampleModelEnv (exampleSmall "q") exScoreVocab layers 3 ∧ (∀ c ∈ layers, c.layer.Forward) ∧
    Constructible exParsers exScoreVocab ∧ exScoreVocab.wordToId unk = some 5 ∧ 2 ≤ exScoreVocab.numClasses ∧
    (∀ w, 0 ≤ probOf exScoreVocab w) ∧ ∀ u, exScoreVocab.unigram = some u → ∀ x ∈ u, 0 ≤ x := by
  obtain ⟨layers, h1, h2, _⟩ := exampleModel
  refine ⟨layers, h1, h2, exScoreVocab_constructible, by decide +kernel, by decide +kernel, exScoreVocab_nonneg, fun u hu => ?_⟩
  cases hu
  decide +kernel

end TheanoLM
