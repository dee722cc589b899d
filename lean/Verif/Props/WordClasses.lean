import Verif.Lemmas.WordClassLoop
/-!
# Properties of word class optimization: C20 to C23
-/
namespace TheanoLM

open Finset

/-! ## Reachable states -/

/-- An optimizer created for a corpus and a vocabulary. -/
structure OptStart (P : Parsers) (v : Vocab) (files : List (List Str)) (cfg : OptCfg) (s : OptSt) : Prop where
  vocab : Constructible P v
  start : ∃ st b, bigramStatistics v files = .ok st ∧ newOptimizer b v st = .ok (cfg, s)

/-- The states that any sequence of moves of words leads to. -/
inductive MoveReach (cfg : OptCfg) (s0 : OptSt) : OptSt → Prop
  | start : MoveReach cfg s0 s0
  | move (s s' : OptSt) (w c : Nat) (hs : MoveReach cfg s0 s) (hw : w < cfg.vocabularySize) (hc : c < cfg.numClasses)
      (h : moveWord cfg s w c = .ok s') : MoveReach cfg s0 s'

/-- The states that any sequence of calls of `move_to_best_class` leads to. -/
inductive OptReach (cfg : OptCfg) (s0 : OptSt) : OptSt → Prop
  | start : OptReach cfg s0 s0
  | step (s s' : OptSt) (word : Str) (moved : Bool) (hs : OptReach cfg s0 s)
      (h : moveToBestClass cfg s word = .ok (moved, s')) : OptReach cfg s0 s'

/-- The log likelihood of a class assignment in the corpus of the optimizer. -/
noncomputable def likelihood (cfg : OptCfg) (cl : Nat → Nat) : ℝ :=
  classLL cfg.vocabularySize cfg.numClasses cfg.wordCounts cfg.wwCounts cl

/-! ## Facts about the configuration -/

/-- What holds of every optimizer. -/
structure CfgInv (cfg : OptCfg) (sosId eosId : Nat) : Prop where
  stats : CorpusStats cfg.vocabularySize cfg.wordCounts cfg.wwCounts sosId eosId
  nodup : cfg.vocab.idToWord.Nodup
  size : cfg.vocab.idToWord.length = cfg.vocabularySize
  sos : cfg.vocab.wordToId sos = some sosId
  eos : cfg.vocab.wordToId eos = some eosId
  normal : cfg.numNormal ≤ cfg.numClasses
  nonempty : nonzeroPairs cfg.vocabularySize cfg.wwCounts ≠ []
  used : ∃ w < cfg.vocabularySize, cfg.wordCounts w ≠ 0

theorem OptStart.inv {P : Parsers} {v : Vocab} {files : List (List Str)} {cfg : OptCfg} {s0 : OptSt}
    (h : OptStart P v files cfg s0) :
    ∃ sosId eosId, CfgInv cfg sosId eosId ∧ cfg.vocab = v ∧ cfg.numClasses = v.numClasses ∧
      cfg.numNormal = v.numNormal ∧ s0 = computeClassStatistics cfg (fun w => v.classOf.getD w 0) ∧
      (∀ w < cfg.vocabularySize, s0.wordToClass w < cfg.numClasses) ∧
      (∀ c < cfg.numClasses, ∃ w < cfg.vocabularySize, s0.wordToClass w = c) := by
  obtain ⟨n, ps, inv⟩ := h.vocab.inv
  obtain ⟨st, b, hst, hopt⟩ := h.start
  obtain ⟨sosId, s1, s2, s3⟩ := inv.wordToId (t := sos) (Or.inl rfl)
  obtain ⟨eosId, e1, e2, e3⟩ := inv.wordToId (t := eos) (Or.inr (Or.inl rfl))
  obtain ⟨unkId, u1, u2, u3⟩ := inv.wordToId (t := unk) (Or.inr (Or.inr rfl))
  rw [bigramStatistics_eq v files unkId u2] at hst
  cases hst
  unfold newOptimizer at hopt
  split at hopt
  · cases hopt
  rename_i hused
  split at hopt
  · cases hopt
  rename_i hnz
  split at hopt
  · cases hopt
  rename_i hlen
  simp only [ne_eq, not_not] at hlen
  simp only [Except.ok.injEq, Prod.mk.injEq] at hopt
  obtain ⟨rfl, rfl⟩ := hopt
  have hlen' : v.numWords = v.numShortlist := hlen.symm
  refine ⟨sosId, eosId, ⟨?_, inv.nodup, hlen.symm, s2, e2, ?_, ?_, ?_⟩, rfl, rfl, rfl, rfl, ?_, ?_⟩
  · show CorpusStats v.numShortlist _ _ _ _
    apply corpusStats_of
    · intro s hs x hx
      have := idsOf_bound inv.nodup u3 (idsOf_exists inv.nodup unkId (files.flatten.map utterance)) s
        (by rw [List.map_map]; exact hs) x hx
      omega
    · intro s hs hne
      obtain ⟨line, _, rfl⟩ := List.mem_map.mp hs
      obtain ⟨ws, hws⟩ := Words_total line
      unfold idsOfLine at hne ⊢
      have hwne : ws ≠ [] := by
        rintro rfl
        apply hne
        rw [utterance_of_ok (C01_blank line hws)]; rfl
      obtain ⟨u, hu, h1, h2, _⟩ := C01_delimited line ws hws hwne
      rw [utterance_of_ok hu, List.head?_map, List.getLast?_map, h1, h2]
      simp [sequenceId, s2, e2]
  · show v.numNormal ≤ v.numClasses
    rw [inv.normal]
    unfold numNormalClasses Vocab.numClasses
    have := (List.dropWhile_sublist (isSpecialClass v.idToWord) (l := v.classes.reverse)).length_le
    simpa using this
  · rw [hlen'] at hnz; exact hnz
  · simp only [List.all_eq_true, decide_eq_true_eq, not_forall] at hused
    obtain ⟨w, h1, h2⟩ := hused
    exact ⟨w, by rw [List.mem_range, hlen'] at h1; exact h1, h2⟩
  · intro w hw
    show v.classOf.getD w 0 < v.numClasses
    rw [inv.numClasses]
    have hw : w < v.classOf.length := hw
    rw [List.getD_eq_getElem?_getD, List.getElem?_eq_getElem hw]
    exact inv.lt _ (List.getElem_mem hw)
  · intro c hc
    have hc : c < v.numClasses := hc
    rw [inv.numClasses] at hc
    obtain ⟨w, hw, he⟩ := List.getElem_of_mem (inv.surj c hc)
    refine ⟨w, hw, ?_⟩
    show v.classOf.getD w 0 = c
    rw [List.getD_eq_getElem?_getD, List.getElem?_eq_getElem hw]
    exact he

/-! ## C20 -/

theorem moveReach_exact {P : Parsers} {v : Vocab} {files : List (List Str)} {cfg : OptCfg} {s0 s : OptSt}
    (h : OptStart P v files cfg s0) (hr : MoveReach cfg s0 s) :
    ExactCounts cfg s ∧ ∀ w < cfg.vocabularySize, s.wordToClass w < cfg.numClasses := by
  obtain ⟨_, _, _, _, _, _, e, hlt, _⟩ := h.inv
  induction hr with
  | start => exact ⟨e ▸ computeClassStatistics_exact cfg _, hlt⟩
  | move s s' w c _ hw hc hm ih =>
    obtain ⟨h1, h2⟩ := moveWord_exact ih.1 hw hm
    refine ⟨h2, ?_⟩
    intro x hx
    rw [h1]
    unfold reassign
    split
    · exact hc
    · exact ih.2 x hx

/-- C20: after any sequence of moves the stored counts are those of the current assignment. -/
theorem C20_exact (P : Parsers) (v : Vocab) (files : List (List Str)) (cfg : OptCfg) (s0 s : OptSt)
    (h : OptStart P v files cfg s0) (hr : MoveReach cfg s0 s) : ExactCounts cfg s :=
  (moveReach_exact h hr).1

/-- C20: after any sequence of moves the stored counts are the same as those that the optimizer would compute from
scratch for the current assignment. -/
theorem C20_recomputed (P : Parsers) (v : Vocab) (files : List (List Str)) (cfg : OptCfg) (s0 s : OptSt)
    (h : OptStart P v files cfg s0) (hr : MoveReach cfg s0 s) :
    let r := computeClassStatistics cfg s.wordToClass
    s.classCounts = r.classCounts ∧ s.ccCounts = r.ccCounts ∧
    (∀ a w, w < cfg.vocabularySize → s.cwCounts a w = r.cwCounts a w ∧ s.wcCounts w a = r.wcCounts w a) := by
  have h1 := C20_exact P v files cfg s0 s h hr
  have h2 := computeClassStatistics_exact cfg s.wordToClass
  refine ⟨?_, ?_, ?_⟩
  · funext c; rw [h1.cls, h2.cls]; rfl
  · funext a b; rw [h1.cc, h2.cc]; rfl
  · intro a w hw
    refine ⟨?_, ?_⟩
    · rw [h1.cw a w hw, h2.cw a w hw]; rfl
    · rw [h1.wc w a hw, h2.wc w a hw]; rfl

/-- A move changes the class of the word and of no other word. -/
theorem C20_assignment (cfg : OptCfg) (s s' : OptSt) (w c : Nat) (h : moveWord cfg s w c = .ok s') (x : Nat) :
    s'.wordToClass x = if x = w then c else s.wordToClass x := by
  unfold moveWord at h
  simp only at h
  split at h
  · cases h
  split at h
  · cases h
  cases h; rfl

/-! ## C21 -/

/-- C21 (partial): when the evaluation of a move gives a number, the number is the change of the log likelihood.
Missing: the evaluation does not always give a number, see `C21_violated_numpy` and `C21_violated_theano`. -/
theorem C21_partial (P : Parsers) (v : Vocab) (files : List (List Str)) (cfg : OptCfg) (s0 s : OptSt)
    (h : OptStart P v files cfg s0) (hr : MoveReach cfg s0 s) (w c : Nat) (hw : w < cfg.vocabularySize)
    (hc : c < cfg.numClasses) (hne : s.wordToClass w ≠ c) (d : ℝ) (he : evaluate cfg s w c = some d) :
    d = likelihood cfg (reassign s.wordToClass w c) - likelihood cfg s.wordToClass := by
  obtain ⟨_, _, inv, _⟩ := h.inv
  obtain ⟨h1, h2⟩ := moveReach_exact h hr
  exact evaluate_some h1 hw inv.stats.nonneg2 (h2 w hw) hc hne he

theorem xlogxScalar_pos {x : ℤ} (h : 0 < x) : xlogxScalar x = some (xlogx x) := by
  unfold xlogxScalar; rw [if_pos h]; rfl

theorem xlogxSum_isSome {b : Backend} {xs : List ℤ} (h : ∀ x ∈ xs, 0 ≤ x) (hp : b = .numpy → ∃ x ∈ xs, 0 < x) :
    ∃ y, xlogxSum b xs = some y := by
  unfold xlogxSum
  cases b with
  | numpy =>
    obtain ⟨x, hx, h0⟩ := hp rfl
    simp only
    rw [if_neg]
    · exact ⟨_, rfl⟩
    · intro hc
      have : x ∈ xs.filter (fun x => decide (0 < x)) := List.mem_filter.mpr ⟨hx, by simpa using h0⟩
      rw [hc] at this; simp at this
  | theano =>
    simp only
    rw [if_neg]
    · exact ⟨_, rfl⟩
    · simp only [List.any_eq_true, decide_eq_true_eq, not_exists, not_and, not_lt]
      exact h

/-- C21: the log likelihood that the optimizer reports is that of the current assignment. -/
theorem C21_log_likelihood (P : Parsers) (v : Vocab) (files : List (List Str)) (cfg : OptCfg) (s0 s : OptSt)
    (h : OptStart P v files cfg s0) (hr : MoveReach cfg s0 s) :
    logLikelihood cfg s = some (likelihood cfg s.wordToClass) := by
  obtain ⟨_, _, inv, _⟩ := h.inv
  obtain ⟨h1, h2⟩ := moveReach_exact h hr
  have n1 : ∀ x ∈ (List.range cfg.numClasses).flatMap (fun c => (List.range cfg.numClasses).map (fun d => s.ccCounts c d)),
      0 ≤ x := by
    intro x hx
    obtain ⟨a, _, hx⟩ := List.mem_flatMap.mp hx
    obtain ⟨b, _, rfl⟩ := List.mem_map.mp hx
    rw [h1.cc]; exact classPairCount_nonneg _ _ inv.stats.nonneg2 _ _
  have n2 : ∀ x ∈ (List.range cfg.vocabularySize).map cfg.wordCounts, 0 ≤ x := by
    intro x hx
    obtain ⟨b, _, rfl⟩ := List.mem_map.mp hx
    exact inv.stats.nonneg _
  have n3 : ∀ x ∈ (List.range cfg.numClasses).map s.classCounts, 0 ≤ x := by
    intro x hx
    obtain ⟨b, _, rfl⟩ := List.mem_map.mp hx
    rw [h1.cls]; exact classCount_nonneg _ _ inv.stats.nonneg _
  obtain ⟨w, hw, hw0⟩ := inv.used
  have hwpos : 0 < cfg.wordCounts w := lt_of_le_of_ne (inv.stats.nonneg w) (Ne.symm hw0)
  obtain ⟨y1, k1⟩ := xlogxSum_isSome (b := cfg.backend) n1 (fun _ => by
    obtain ⟨p, hp⟩ := List.exists_mem_of_ne_nil _ inv.nonempty
    unfold nonzeroPairs at hp
    obtain ⟨hp1, hp2⟩ := List.mem_filter.mp hp
    obtain ⟨a, ha, hp1⟩ := List.mem_flatMap.mp hp1
    obtain ⟨b, hb, rfl⟩ := List.mem_map.mp hp1
    rw [List.mem_range] at ha hb
    simp only [decide_eq_true_eq] at hp2
    refine ⟨s.ccCounts (s.wordToClass a) (s.wordToClass b), ?_, ?_⟩
    · rw [List.mem_flatMap]
      exact ⟨_, List.mem_range.mpr (h2 a ha), List.mem_map.mpr ⟨_, List.mem_range.mpr (h2 b hb), rfl⟩⟩
    · rw [h1.cc, classPairCount]
      have hpos : 0 < cfg.wwCounts a b := lt_of_le_of_ne (inv.stats.nonneg2 a b) (Ne.symm hp2)
      apply lt_of_lt_of_le hpos
      refine le_trans ?_ (single_le_sum (f := fun v => ∑ w ∈ range cfg.vocabularySize with s.wordToClass w = s.wordToClass b,
        cfg.wwCounts v w) (fun v _ => sum_nonneg (fun x _ => inv.stats.nonneg2 v x)) (mem_filter.mpr ⟨mem_range.mpr ha, rfl⟩))
      exact single_le_sum (f := fun w => cfg.wwCounts a w) (fun x _ => inv.stats.nonneg2 a x)
        (mem_filter.mpr ⟨mem_range.mpr hb, rfl⟩))
  obtain ⟨y2, k2⟩ := xlogxSum_isSome (b := cfg.backend) n2 (fun _ =>
    ⟨_, List.mem_map.mpr ⟨w, List.mem_range.mpr hw, rfl⟩, hwpos⟩)
  obtain ⟨y3, k3⟩ := xlogxSum_isSome (b := cfg.backend) n3 (fun _ =>
    ⟨_, List.mem_map.mpr ⟨s.wordToClass w, List.mem_range.mpr (h2 w hw), rfl⟩, by
      rw [h1.cls, classCount]
      exact lt_of_lt_of_le hwpos (single_le_sum (f := cfg.wordCounts) (fun x _ => inv.stats.nonneg x)
        (mem_filter.mpr ⟨mem_range.mpr hw, rfl⟩))⟩)
  unfold logLikelihood
  simp only [k1, k2, k3, Option.bind_eq_bind, Option.bind_some, Option.some.injEq]
  rw [xlogxSum_some n1 k1, xlogxSum_some n2 k2, xlogxSum_some n3 k3]
  unfold likelihood classLL
  have f1 : ((List.map xlogx ((List.range cfg.numClasses).flatMap
      (fun c => (List.range cfg.numClasses).map (fun d => s.ccCounts c d)))).sum : ℝ) =
      ∑ a ∈ range cfg.numClasses, ∑ b ∈ range cfg.numClasses,
        xlogx (classPairCount cfg.vocabularySize cfg.wwCounts s.wordToClass a b) := by
    rw [sum_flatMap, sum_map_range]
    apply sum_congr rfl
    intro a _
    rw [List.map_map, sum_map_range]
    apply sum_congr rfl
    intro b _
    simp only [Function.comp, h1.cc]
  rw [f1, List.map_map, List.map_map, sum_map_range, sum_map_range]
  congr 2
  apply sum_congr rfl
  intro c _
  simp only [Function.comp, h1.cls]

/-- The counts that are summed when the move of `w` to `c` is evaluated: class pairs where exactly one of the classes
is the old or the new class, before and after the move. -/
def sumsPositive (cfg : OptCfg) (cl : Nat → Nat) (w c : Nat) : Prop :=
  ∀ cl' ∈ [cl, reassign cl w c], ∀ k ∈ [cl w, c],
    (∃ x < cfg.numClasses, x ≠ cl w ∧ x ≠ c ∧ 0 < classPairCount cfg.vocabularySize cfg.wwCounts cl' k x) ∧
    (∃ x < cfg.numClasses, x ≠ cl w ∧ x ≠ c ∧ 0 < classPairCount cfg.vocabularySize cfg.wwCounts cl' x k)

/-- The counts of the pairs of the old and the new class before and after the move. -/
def pairsPositive (cfg : OptCfg) (cl : Nat → Nat) (w c : Nat) : Prop :=
  ∀ cl' ∈ [cl, reassign cl w c], ∀ k ∈ [cl w, c], ∀ k' ∈ [cl w, c],
    0 < classPairCount cfg.vocabularySize cfg.wwCounts cl' k k'

theorem llChange_isSome {b : Backend} {x y : ℤ} (hx : 0 ≤ x) (hy : 0 ≤ y) (h : b = .theano → 0 < x ∧ 0 < y) :
    ∃ z, llChange b x y = some z := by
  have key : ∀ x : ℤ, 0 ≤ x → ∃ z, xlogxUnlessZero x = some z := by
    intro x hx
    unfold xlogxUnlessZero
    split
    · exact ⟨_, xlogxScalar_pos (by omega)⟩
    · exact ⟨_, rfl⟩
  unfold llChange
  cases b with
  | numpy =>
    obtain ⟨p, hp⟩ := key x hx
    obtain ⟨q, hq⟩ := key y hy
    exact ⟨_, by simp only [hp, hq, Option.bind_eq_bind, Option.bind_some]; rfl⟩
  | theano =>
    obtain ⟨h1, h2⟩ := h rfl
    exact ⟨_, by simp only [xlogxScalar_pos h1, xlogxScalar_pos h2, Option.bind_eq_bind, Option.bind_some]; rfl⟩

theorem sumChange_isSome {b : Backend} {xs ys : List ℤ} (hx : ∀ x ∈ xs, 0 ≤ x) (hy : ∀ y ∈ ys, 0 ≤ y)
    (h : b = .numpy → (∃ x ∈ xs, 0 < x) ∧ ∃ y ∈ ys, 0 < y) : ∃ z, sumChange b xs ys = some z := by
  obtain ⟨p, hp⟩ := xlogxSum_isSome hx (fun hb => (h hb).1)
  obtain ⟨q, hq⟩ := xlogxSum_isSome hy (fun hb => (h hb).2)
  unfold sumChange
  exact ⟨_, by simp only [hp, hq, Option.bind_eq_bind, Option.bind_some]; rfl⟩

/-- C21: a sufficient condition for the evaluation giving a number.  The class counts may not be zero before or after
the move.  The NumPy implementation requires `sumsPositive` and the Theano implementation `pairsPositive`. -/
theorem C21_defined (P : Parsers) (v : Vocab) (files : List (List Str)) (cfg : OptCfg) (s0 s : OptSt)
    (h : OptStart P v files cfg s0) (hr : MoveReach cfg s0 s) (w c : Nat) (hw : w < cfg.vocabularySize)
    (hne : s.wordToClass w ≠ c)
    (hold : cfg.wordCounts w < classCount cfg.vocabularySize cfg.wordCounts s.wordToClass (s.wordToClass w))
    (hnew : 0 < classCount cfg.vocabularySize cfg.wordCounts s.wordToClass c)
    (hnumpy : cfg.backend = .numpy → sumsPositive cfg s.wordToClass w c)
    (htheano : cfg.backend = .theano → pairsPositive cfg s.wordToClass w c) :
    ∃ d, evaluate cfg s w c = some d := by
  obtain ⟨_, _, inv, _⟩ := h.inv
  obtain ⟨hs, h2⟩ := moveReach_exact h hr
  obtain ⟨p1, p2, p3, p4, p5, p6⟩ := classPairCount_move hw cfg.wwCounts s.wordToClass c hne
  have hc0 := inv.stats.nonneg w
  have nn := classPairCount_nonneg (n := cfg.vocabularySize) cfg.wwCounts s.wordToClass inv.stats.nonneg2
  have nn' := classPairCount_nonneg (n := cfg.vocabularySize) cfg.wwCounts (reassign s.wordToClass w c) inv.stats.nonneg2
  have nl : ∀ (f : Nat → ℤ) (hf : ∀ x, 0 ≤ f x) (l : List Nat), ∀ y ∈ l.map f, 0 ≤ y := by
    intro f hf l y hy
    obtain ⟨x, _, rfl⟩ := List.mem_map.mp hy
    exact hf x
  have hmem : ∀ x ∈ iterClassIds cfg (s.wordToClass w) c, x ≠ s.wordToClass w ∧ x ≠ c := by
    intro x hx
    simpa using (List.mem_filter.mp hx).2
  have pos : ∀ (f : Nat → ℤ), (∃ x < cfg.numClasses, x ≠ s.wordToClass w ∧ x ≠ c ∧ 0 < f x) →
      ∃ y ∈ (iterClassIds cfg (s.wordToClass w) c).map f, 0 < y := by
    rintro f ⟨x, hx, h1, h2, h3⟩
    exact ⟨f x, List.mem_map.mpr ⟨x, List.mem_filter.mpr ⟨List.mem_range.mpr hx, by simp [h1, h2]⟩, rfl⟩, h3⟩
  have m1 : s.wordToClass ∈ [s.wordToClass, reassign s.wordToClass w c] := by simp
  have m2 : reassign s.wordToClass w c ∈ [s.wordToClass, reassign s.wordToClass w c] := by simp
  have m3 : s.wordToClass w ∈ [s.wordToClass w, c] := by simp
  have m4 : c ∈ [s.wordToClass w, c] := by simp
  simp only at p1 p2 p3 p4 p5 p6
  obtain ⟨x1, k1⟩ := sumChange_isSome (b := cfg.backend) (nl _ (fun x => nn (s.wordToClass w) x) (iterClassIds cfg (s.wordToClass w) c))
    (nl _ (fun x => nn' (s.wordToClass w) x) (iterClassIds cfg (s.wordToClass w) c))
    (fun hb => ⟨pos _ (hnumpy hb _ m1 _ m3).1, pos _ (hnumpy hb _ m2 _ m3).1⟩)
  obtain ⟨x2, k2⟩ := sumChange_isSome (b := cfg.backend) (nl _ (fun x => nn c x) (iterClassIds cfg (s.wordToClass w) c))
    (nl _ (fun x => nn' c x) (iterClassIds cfg (s.wordToClass w) c))
    (fun hb => ⟨pos _ (hnumpy hb _ m1 _ m4).1, pos _ (hnumpy hb _ m2 _ m4).1⟩)
  obtain ⟨x3, k3⟩ := sumChange_isSome (b := cfg.backend) (nl _ (fun x => nn x (s.wordToClass w)) (iterClassIds cfg (s.wordToClass w) c))
    (nl _ (fun x => nn' x (s.wordToClass w)) (iterClassIds cfg (s.wordToClass w) c))
    (fun hb => ⟨pos _ (hnumpy hb _ m1 _ m3).2, pos _ (hnumpy hb _ m2 _ m3).2⟩)
  obtain ⟨x4, k4⟩ := sumChange_isSome (b := cfg.backend) (nl _ (fun x => nn x c) (iterClassIds cfg (s.wordToClass w) c))
    (nl _ (fun x => nn' x c) (iterClassIds cfg (s.wordToClass w) c))
    (fun hb => ⟨pos _ (hnumpy hb _ m1 _ m4).2, pos _ (hnumpy hb _ m2 _ m4).2⟩)
  rw [List.map_congr_left (f := fun x => classPairCount _ _ (reassign s.wordToClass w c) _ x)
    (fun x hx => (p1 x (hmem x hx).1 (hmem x hx).2).1)] at k1
  rw [List.map_congr_left (f := fun x => classPairCount _ _ (reassign s.wordToClass w c) _ x)
    (fun x hx => (p1 x (hmem x hx).1 (hmem x hx).2).2.1)] at k2
  rw [List.map_congr_left (f := fun x => classPairCount _ _ (reassign s.wordToClass w c) x _)
    (fun x hx => (p1 x (hmem x hx).1 (hmem x hx).2).2.2.1)] at k3
  rw [List.map_congr_left (f := fun x => classPairCount _ _ (reassign s.wordToClass w c) x _)
    (fun x hx => (p1 x (hmem x hx).1 (hmem x hx).2).2.2.2)] at k4
  obtain ⟨y1, l1⟩ := llChange_isSome (b := cfg.backend) (nn (s.wordToClass w) c) (nn' (s.wordToClass w) c)
    (fun hb => ⟨htheano hb _ m1 _ m3 _ m4, htheano hb _ m2 _ m3 _ m4⟩)
  obtain ⟨y2, l2⟩ := llChange_isSome (b := cfg.backend) (nn c (s.wordToClass w)) (nn' c (s.wordToClass w))
    (fun hb => ⟨htheano hb _ m1 _ m4 _ m3, htheano hb _ m2 _ m4 _ m3⟩)
  obtain ⟨y3, l3⟩ := llChange_isSome (b := cfg.backend) (nn (s.wordToClass w) (s.wordToClass w)) (nn' (s.wordToClass w) (s.wordToClass w))
    (fun hb => ⟨htheano hb _ m1 _ m3 _ m3, htheano hb _ m2 _ m3 _ m3⟩)
  obtain ⟨y4, l4⟩ := llChange_isSome (b := cfg.backend) (nn c c) (nn' c c)
    (fun hb => ⟨htheano hb _ m1 _ m4 _ m4, htheano hb _ m2 _ m4 _ m4⟩)
  rw [p3] at l1
  rw [p4] at l2
  rw [p5] at l3
  rw [p6] at l4
  unfold evaluate
  simp only [hs.cc, hs.cls, hs.cw _ w hw, hs.wc w _ hw, k1, k2, k3, k4, l1, l2, l3, l4, Option.bind_eq_bind,
    Option.bind_some]
  rw [xlogxScalar_pos (by omega), xlogxScalar_pos (by omega), xlogxScalar_pos (by omega), xlogxScalar_pos (by omega)]
  exact ⟨_, rfl⟩

/-- A corpus where every class occurs but the words of class 0 are followed only by words of class 1. -/
def ceCorpus : List (List Str) := [["a b\n".toList, "c d\n".toList, "x\n".toList]]
def ceClasses : List Str := ["a 0\n".toList, "c 0\n".toList, "b 1\n".toList, "d 1\n".toList]

theorem evaluate_none {cfg : OptCfg} {s : OptSt} {w c : Nat}
    (h : sumChange cfg.backend ((iterClassIds cfg (s.wordToClass w) c).map (fun x => s.ccCounts (s.wordToClass w) x))
        ((iterClassIds cfg (s.wordToClass w) c).map (fun x => s.ccCounts (s.wordToClass w) x - s.wcCounts w x)) = none ∨
      llChange cfg.backend (s.ccCounts (s.wordToClass w) (s.wordToClass w)) (s.ccCounts (s.wordToClass w) (s.wordToClass w) -
        s.wcCounts w (s.wordToClass w) - s.cwCounts (s.wordToClass w) w + cfg.wwCounts w w) = none) :
    evaluate cfg s w c = none := by
  cases he : evaluate cfg s w c with
  | none => rfl
  | some d =>
    exfalso
    unfold evaluate at he
    simp only [Option.bind_eq_bind, Option.bind_eq_some_iff] at he
    obtain ⟨_, _, _, _, _, _, _, _, b1, k1, _, _, _, _, _, _, _, _, _, _, c3, l3, _⟩ := he
    rcases h with h | h
    · rw [k1] at h; cases h
    · rw [l3] at h; cases h

/-- C21, what is missing: in this corpus all the classes occur, but the evaluation of a move gives no number: `masked`
in the NumPy implementation and `nan` in the Theano implementation. -/
theorem C21_violated (b : Backend) : ∃ v cfg s, OptStart exParsers v ceCorpus cfg s ∧ cfg.backend = b ∧
    (∀ c < cfg.numClasses, 0 < s.classCounts c) ∧ cfg.wordCounts 0 < s.classCounts (s.wordToClass 0) ∧
    s.wordToClass 0 ≠ 1 ∧ evaluate cfg s 0 1 = none := by
  have key : ∃ v, vocabFromFile exParsers ceClasses .classes [] = .ok v ∧ ∃ st, bigramStatistics v ceCorpus = .ok st ∧
      ∃ cs, newOptimizer b v st = .ok cs ∧ cs.1.backend = b ∧ (∀ c < cs.1.numClasses, 0 < cs.2.classCounts c) ∧
      cs.1.wordCounts 0 < cs.2.classCounts (cs.2.wordToClass 0) ∧ cs.2.wordToClass 0 ≠ 1 ∧
      (iterClassIds cs.1 (cs.2.wordToClass 0) 1).map (fun x => cs.2.ccCounts (cs.2.wordToClass 0) x) = [0, 0, 0] ∧
      cs.2.ccCounts (cs.2.wordToClass 0) (cs.2.wordToClass 0) = 0 := by
    cases b <;> decide +kernel
  obtain ⟨v, h1, st, h2, ⟨cfg, s⟩, h3, h4, h5, h6, h7, h8, h9⟩ := key
  refine ⟨v, cfg, s, ⟨.file _ _ _ _ h1, st, b, h2, h3⟩, h4, h5, h6, h7, ?_⟩
  simp only at h4 h5 h6 h7 h8 h9
  apply evaluate_none
  rw [h4]
  cases b with
  | numpy =>
    left
    rw [h8]
    unfold sumChange
    simp [xlogxSum]
  | theano =>
    right
    rw [h9]
    unfold llChange
    simp [xlogxScalar]

/-- A corpus where the hypotheses of C20, C21 and C22 are met: an optimizer can be created and words can be moved. -/
def exCorpus : List (List Str) := [["a b\n".toList, "c d\n".toList, "b c\n".toList, "d a a\n".toList, "b b\n".toList,
  "c\n".toList, "a c b d\n".toList]]
def exClasses : List Str := ["a 0\n".toList, "b 0\n".toList, "c 1\n".toList, "d 1\n".toList]

instance (cfg : OptCfg) (cl : Nat → Nat) (w c : Nat) : Decidable (sumsPositive cfg cl w c) := by
  unfold sumsPositive; infer_instance
instance (cfg : OptCfg) (cl : Nat → Nat) (w c : Nat) : Decidable (pairsPositive cfg cl w c) := by
  unfold pairsPositive; infer_instance

theorem exOptimizer (b : Backend) : ∃ v cfg s s', OptStart exParsers v exCorpus cfg s ∧ cfg.backend = b ∧
    moveWord cfg s 0 1 = .ok s' ∧ MoveReach cfg s s' ∧ s'.wordToClass 0 ≠ s.wordToClass 0 := by
  have key : ∃ v, vocabFromFile exParsers exClasses .classes [] = .ok v ∧ ∃ st, bigramStatistics v exCorpus = .ok st ∧
      ∃ cs, newOptimizer b v st = .ok cs ∧ cs.1.backend = b ∧ ∃ s', moveWord cs.1 cs.2 0 1 = .ok s' ∧
      (0 < cs.1.vocabularySize ∧ 1 < cs.1.numClasses) ∧ s'.wordToClass 0 ≠ cs.2.wordToClass 0 := by
    cases b <;> decide +kernel
  obtain ⟨v, h1, st, h2, ⟨cfg, s⟩, h3, h4, s', h5, ⟨h6, h7⟩, h8⟩ := key
  exact ⟨v, cfg, s, s', ⟨.file _ _ _ _ h1, st, b, h2, h3⟩, h4, h5, .move _ _ 0 1 .start h6 h7 h5, h8⟩

/-- The hypotheses of `C21_defined` and so of `C21_partial` are met. -/
example (b : Backend) : ∃ v cfg s, OptStart exParsers v exCorpus cfg s ∧ cfg.backend = b ∧
    ∃ d, evaluate cfg s 0 1 = some d := by
  have key : ∃ v, vocabFromFile exParsers exClasses .classes [] = .ok v ∧ ∃ st, bigramStatistics v exCorpus = .ok st ∧
      ∃ cs, newOptimizer b v st = .ok cs ∧ cs.1.backend = b ∧ 0 < cs.1.vocabularySize ∧ cs.2.wordToClass 0 ≠ 1 ∧
      cs.1.wordCounts 0 < classCount cs.1.vocabularySize cs.1.wordCounts cs.2.wordToClass (cs.2.wordToClass 0) ∧
      0 < classCount cs.1.vocabularySize cs.1.wordCounts cs.2.wordToClass 1 ∧
      (b = .numpy → sumsPositive cs.1 cs.2.wordToClass 0 1) ∧ (b = .theano → pairsPositive cs.1 cs.2.wordToClass 0 1) := by
    cases b <;> decide +kernel
  obtain ⟨v, h1, st, h2, ⟨cfg, s⟩, h3, h4, h5, h6, h7, h8, h9, h10⟩ := key
  have hs : OptStart exParsers v exCorpus cfg s := ⟨.file _ _ _ _ h1, st, b, h2, h3⟩
  exact ⟨v, cfg, s, hs, h4, C21_defined _ _ _ _ _ _ hs .start 0 1 h5 h6 h7 h8 (h4 ▸ h9) (h4 ▸ h10)⟩

/-! ## C22, C23 -/

theorem moveWord_ok {cfg : OptCfg} {sosId eosId : Nat} (inv : CfgInv cfg sosId eosId) {s : OptSt} {w c : Nat}
    (h1 : w ≠ sosId) (h2 : w ≠ eosId) (hc : 0 < cfg.wordCounts w) : ∃ s', moveWord cfg s w c = .ok s' := by
  unfold moveWord
  simp only
  obtain ⟨a, a1, a2, a3⟩ := inv.stats.left w h1 hc
  obtain ⟨b, b1, b2, b3⟩ := inv.stats.right w h2 hc
  have e1 : (List.range cfg.vocabularySize).filter (fun i => decide (cfg.wwCounts w i ≠ 0 ∧ i ≠ w)) ≠ [] := by
    intro h
    have : b ∈ (List.range cfg.vocabularySize).filter (fun i => decide (cfg.wwCounts w i ≠ 0 ∧ i ≠ w)) :=
      List.mem_filter.mpr ⟨List.mem_range.mpr b1, by simp [b2, b3]⟩
    rw [h] at this; simp at this
  have e2 : (List.range cfg.vocabularySize).filter (fun i => decide (cfg.wwCounts i w ≠ 0 ∧ i ≠ w)) ≠ [] := by
    intro h
    have : a ∈ (List.range cfg.vocabularySize).filter (fun i => decide (cfg.wwCounts i w ≠ 0 ∧ i ≠ w)) :=
      List.mem_filter.mpr ⟨List.mem_range.mpr a1, by simp [a2, a3]⟩
    rw [h] at this; simp at this
  rw [if_neg (fun h => e1 h.2), if_neg (fun h => e2 h.2)]
  exact ⟨_, rfl⟩

/-- What holds in every state of an optimization. -/
structure OptInv (cfg : OptCfg) (s0 s : OptSt) : Prop where
  exact : ExactCounts cfg s
  lt : ∀ w < cfg.vocabularySize, s.wordToClass w < cfg.numClasses
  full : ∀ c < cfg.numClasses, ∃ w < cfg.vocabularySize, s.wordToClass w = c
  special : ∀ (w : Nat) (word : Str), cfg.vocab.idToWord[w]? = some word → isSpecialWord word = true →
    s.wordToClass w = s0.wordToClass w

theorem wordToId_lt {cfg : OptCfg} {sosId eosId : Nat} (inv : CfgInv cfg sosId eosId) {word : Str} {w : Nat}
    (h : cfg.vocab.wordToId word = some w) : w < cfg.vocabularySize ∧ cfg.vocab.idToWord[w]? = some word := by
  have := (wordToId_iff inv.nodup).mp h
  have h2 := (List.getElem?_eq_some_iff.mp this).1
  rw [inv.size] at h2
  exact ⟨h2, this⟩

theorem evaluate_likelihood {cfg : OptCfg} {sosId eosId : Nat} (inv : CfgInv cfg sosId eosId) {s0 s : OptSt}
    (hi : OptInv cfg s0 s) {w c : Nat} (hw : w < cfg.vocabularySize) (hn : c < cfg.numNormal) (hc : c ≠ s.wordToClass w)
    {d : ℝ} (he : evaluate cfg s w c = some d) :
    d = likelihood cfg (reassign s.wordToClass w c) - likelihood cfg s.wordToClass :=
  evaluate_some hi.exact hw inv.stats.nonneg2 (hi.lt w hw) (lt_of_lt_of_le hn inv.normal) (Ne.symm hc) he

theorem used_of_gain {cfg : OptCfg} {sosId eosId : Nat} (inv : CfgInv cfg sosId eosId) {s0 s : OptSt}
    (hi : OptInv cfg s0 s) {w c : Nat} (hw : w < cfg.vocabularySize) (hn : c < cfg.numNormal) (hc : c ≠ s.wordToClass w)
    {d : ℝ} (he : evaluate cfg s w c = some d) (hd : 0 < d) : 0 < cfg.wordCounts w := by
  rcases lt_or_eq_of_le (inv.stats.nonneg w) with h | h
  · exact h
  · exfalso
    have e := evaluate_likelihood inv hi hw hn hc he
    unfold likelihood at e
    rw [classLL_unused hw h.symm (inv.stats.zero w h.symm), sub_self] at e
    linarith

theorem classSize_two {cfg : OptCfg} {s : OptSt} {c w : Nat} (h : 2 ≤ classSize cfg s c) :
    ∃ x < cfg.vocabularySize, x ≠ w ∧ s.wordToClass x = c := by
  unfold classSize at h
  by_contra hc
  simp only [not_exists, not_and] at hc
  have hsub : (List.range cfg.vocabularySize).filter (fun w => decide (s.wordToClass w = c)) ⊆ [w] := by
    intro x hx
    obtain ⟨h1, h2⟩ := List.mem_filter.mp hx
    rw [List.mem_range] at h1
    simp only [decide_eq_true_eq] at h2
    by_contra h3
    rw [List.mem_singleton] at h3
    exact hc x h1 h3 h2
  have := (List.nodup_range.filter (fun w => decide (s.wordToClass w = c))).subperm hsub
  have := this.length_le
  rw [List.length_singleton] at this
  omega

/-- One call keeps the invariants, does not fail, and a move increases the likelihood. -/
theorem moveToBestClass_inv {cfg : OptCfg} {sosId eosId : Nat} (inv : CfgInv cfg sosId eosId) {s0 s : OptSt}
    (hi : OptInv cfg s0 s) {word : Str} (hword : word ∈ cfg.vocab.idToWord) :
    ∃ moved s', moveToBestClass cfg s word = .ok (moved, s') ∧ OptInv cfg s0 s' ∧
      (moved = false → s' = s ∧ (isSpecialWord word = false → ∀ w, cfg.vocab.wordToId word = some w →
        2 ≤ classSize cfg s (s.wordToClass w) → ∀ c < cfg.numNormal, c ≠ s.wordToClass w → ∀ d,
        evaluate cfg s w c = some d → d ≤ 0)) ∧
      (moved = true → likelihood cfg s.wordToClass < likelihood cfg s'.wordToClass) := by
  have ho := moveToBestClass_outcome cfg s word
  generalize moveToBestClass cfg s word = r at ho
  cases ho with
  | special h =>
    refine ⟨false, s, rfl, hi, fun _ => ⟨rfl, ?_⟩, by simp⟩
    intro h'; rw [h] at h'; cases h'
  | unknown h =>
    exact absurd hword (wordToId_none.mp h)
  | alone w hs h hc =>
    refine ⟨false, s, rfl, hi, fun _ => ⟨rfl, ?_⟩, by simp⟩
    intro _ w' hw' h2
    rw [h] at hw'; cases hw'
    omega
  | optimal w hs h hc =>
    refine ⟨false, s, rfl, hi, fun _ => ⟨rfl, ?_⟩, by simp⟩
    intro _ w' hw' _
    rw [h] at hw'; cases hw'
    exact hc
  | failed w c d e hs h hn hc he hd hm =>
    exfalso
    obtain ⟨hw, hget⟩ := wordToId_lt inv h
    have hpos := used_of_gain inv hi hw hn hc he hd
    have g1 : w ≠ sosId := by
      rintro rfl
      have := (wordToId_lt inv inv.sos).2
      rw [hget] at this
      cases this
      simp [isSpecialWord, sos] at hs
    have g2 : w ≠ eosId := by
      rintro rfl
      have := (wordToId_lt inv inv.eos).2
      rw [hget] at this
      cases this
      simp [isSpecialWord, eos] at hs
    obtain ⟨s', h'⟩ := moveWord_ok inv (s := s) (c := c) g1 g2 hpos
    rw [hm] at h'; cases h'
  | moved w c d s' hs h h2 hn hc he hd hbest hm =>
    obtain ⟨hw, hget⟩ := wordToId_lt inv h
    obtain ⟨e1, e2⟩ := moveWord_exact hi.exact hw hm
    refine ⟨true, s', rfl, ⟨e2, ?_, ?_, ?_⟩, by simp, ?_⟩
    · intro x hx
      rw [e1]
      unfold reassign
      split
      · exact lt_of_lt_of_le hn inv.normal
      · exact hi.lt x hx
    · intro k hk
      rw [e1]
      unfold reassign
      by_cases hkc : k = c
      · exact ⟨w, hw, by simp [hkc]⟩
      · by_cases hko : k = s.wordToClass w
        · obtain ⟨x, x1, x2, x3⟩ := classSize_two (w := w) h2
          exact ⟨x, x1, by rw [if_neg x2, x3, hko]⟩
        · obtain ⟨x, x1, x2⟩ := hi.full k hk
          refine ⟨x, x1, ?_⟩
          rw [if_neg, x2]
          rintro rfl
          exact hko x2.symm
    · intro x word' hx hsp
      rw [e1]
      unfold reassign
      rw [if_neg, hi.special x word' hx hsp]
      rintro rfl
      rw [hget] at hx
      cases hx
      rw [hs] at hsp; cases hsp
    · intro _
      have := evaluate_likelihood inv hi hw hn hc he
      rw [e1]; linarith

theorem OptStart.optInv {P : Parsers} {v : Vocab} {files : List (List Str)} {cfg : OptCfg} {s0 : OptSt}
    (h : OptStart P v files cfg s0) : OptInv cfg s0 s0 := by
  obtain ⟨_, _, _, _, _, _, e, hlt, hfull⟩ := h.inv
  exact ⟨e ▸ computeClassStatistics_exact cfg _, hlt, hfull, fun _ _ _ _ => rfl⟩

theorem moveToBestClass_mem {cfg : OptCfg} {s s' : OptSt} {word : Str} {moved : Bool}
    (h : moveToBestClass cfg s word = .ok (moved, s')) : word ∈ cfg.vocab.idToWord ∨ s' = s := by
  have ho := moveToBestClass_outcome cfg s word
  rw [h] at ho
  have mem : ∀ w, cfg.vocab.wordToId word = some w → word ∈ cfg.vocab.idToWord := by
    intro w hw
    by_contra hc
    have : cfg.vocab.wordToId word = none := wordToId_none.mpr hc
    rw [hw] at this; cases this
  cases ho with
  | special h => exact Or.inr rfl
  | alone w hs h hc => exact Or.inr rfl
  | optimal w hs h hc => exact Or.inr rfl
  | moved w c d s' hs hid h2 hn hc he hd hbest hm => exact Or.inl (mem w hid)

theorem optReach_inv {P : Parsers} {v : Vocab} {files : List (List Str)} {cfg : OptCfg} {s0 s : OptSt}
    (h : OptStart P v files cfg s0) (hr : OptReach cfg s0 s) : OptInv cfg s0 s := by
  obtain ⟨_, _, inv, _⟩ := h.inv
  induction hr with
  | start => exact h.optInv
  | step s s' word moved _ hm ih =>
    rcases moveToBestClass_mem hm with hmem | rfl
    · obtain ⟨m, t, h1, h2, _⟩ := moveToBestClass_inv inv ih hmem
      rw [hm] at h1
      cases h1
      exact h2
    · exact ih

/-- C23: a special word keeps its class, and no class is ever empty. -/
theorem C23_special (P : Parsers) (v : Vocab) (files : List (List Str)) (cfg : OptCfg) (s0 s : OptSt)
    (h : OptStart P v files cfg s0) (hr : OptReach cfg s0 s) :
    (∀ (w : Nat) (word : Str), v.idToWord[w]? = some word → word.head? = some '<' → word.getLast? = some '>' →
      s.wordToClass w = v.classOf.getD w 0) ∧
    (∀ c < v.numClasses, ∃ w < v.numWords, s.wordToClass w = c) := by
  obtain ⟨_, _, inv, hv, hnc, _, e, _, _⟩ := h.inv
  have hi := optReach_inv h hr
  refine ⟨?_, ?_⟩
  · intro w word hw h1 h2
    rw [hi.special w word (by rw [hv]; exact hw) (by simp [isSpecialWord, h1, h2]), e]; rfl
  · intro c hc
    obtain ⟨w, h1, h2⟩ := hi.full c (by rw [hnc]; exact hc)
    refine ⟨w, ?_, h2⟩
    have := inv.size
    rw [hv] at this
    unfold Vocab.numWords
    omega

/-- C23: one call either changes nothing or moves just the given word, which is not a special word, to a normal class;
at least one word remains in its old class. -/
theorem C23_step (P : Parsers) (v : Vocab) (files : List (List Str)) (cfg : OptCfg) (s0 s s' : OptSt)
    (h : OptStart P v files cfg s0) (word : Str) (moved : Bool)
    (hm : moveToBestClass cfg s word = .ok (moved, s')) :
    if moved then ∃ w, v.idToWord[w]? = some word ∧ ¬ (word.head? = some '<' ∧ word.getLast? = some '>') ∧
        s'.wordToClass w < v.numNormal ∧ s'.wordToClass w ≠ s.wordToClass w ∧
        (∀ x, x ≠ w → s'.wordToClass x = s.wordToClass x) ∧
        (∃ x < v.numWords, x ≠ w ∧ s'.wordToClass x = s.wordToClass w)
    else s' = s := by
  obtain ⟨_, _, inv, hv, _, hnn, e, _, _⟩ := h.inv
  have ho := moveToBestClass_outcome cfg s word
  rw [hm] at ho
  cases ho with
  | special h => simp
  | alone w hs h hc => simp
  | optimal w hs h hc => simp
  | moved w c d s' hs h h2 hn hc he hd hbest hm' =>
    simp only [if_true]
    have ha := C20_assignment cfg s s' w c hm'
    have hself : s'.wordToClass w = c := by rw [ha, if_pos rfl]
    obtain ⟨hw, hget⟩ := wordToId_lt inv h
    refine ⟨w, by rw [← hv]; exact hget, ?_, by rw [hself, ← hnn]; exact hn, by rw [hself]; exact hc, ?_, ?_⟩
    · rintro ⟨h3, h4⟩
      simp [isSpecialWord, h3, h4] at hs
    · intro x hx
      rw [ha, if_neg hx]
    · obtain ⟨x, x1, x2, x3⟩ := classSize_two (w := w) h2
      refine ⟨x, ?_, x2, by rw [ha, if_neg x2, x3]⟩
      have := inv.size
      rw [hv] at this
      unfold Vocab.numWords
      omega

/-- C22: no call fails, and each move increases the log likelihood. -/
theorem C22_increase (P : Parsers) (v : Vocab) (files : List (List Str)) (cfg : OptCfg) (s0 s : OptSt)
    (h : OptStart P v files cfg s0) (hr : OptReach cfg s0 s) (word : Str) (hword : word ∈ v.idToWord) :
    ∃ moved s', moveToBestClass cfg s word = .ok (moved, s') ∧
      if moved then likelihood cfg s.wordToClass < likelihood cfg s'.wordToClass else s' = s := by
  obtain ⟨_, _, inv, hv, _⟩ := h.inv
  obtain ⟨m, s', h1, _, h3, h4⟩ := moveToBestClass_inv inv (optReach_inv h hr) (word := word) (by rw [hv]; exact hword)
  refine ⟨m, s', h1, ?_⟩
  cases m with
  | false => exact (h3 rfl).1
  | true => exact h4 rfl

theorem optimizeIteration_spec {cfg : OptCfg} {sosId eosId : Nat} (inv : CfgInv cfg sosId eosId) {s0 : OptSt}
    (words : List Str) (hw : ∀ w ∈ words, w ∈ cfg.vocab.idToWord) (s : OptSt) (hi : OptInv cfg s0 s)
    (hr : OptReach cfg s0 s) :
    ∃ n s', optimizeIteration cfg words s = .ok (n, s') ∧ OptInv cfg s0 s' ∧ OptReach cfg s0 s' ∧
      (n = 0 → s' = s ∧ ∀ word ∈ words, isSpecialWord word = false → ∀ w, cfg.vocab.wordToId word = some w →
        2 ≤ classSize cfg s (s.wordToClass w) → ∀ c < cfg.numNormal, c ≠ s.wordToClass w → ∀ d,
        evaluate cfg s w c = some d → d ≤ 0) ∧
      (0 < n → likelihood cfg s.wordToClass < likelihood cfg s'.wordToClass) := by
  induction words generalizing s with
  | nil => exact ⟨0, s, rfl, hi, hr, by simp, by simp⟩
  | cons word words ih =>
    obtain ⟨m, s1, h1, h2, h3, h4⟩ := moveToBestClass_inv inv hi (hw word (by simp))
    have hr1 : OptReach cfg s0 s1 := .step s s1 word m hr h1
    obtain ⟨n, s2, k1, k2, kr, k3, k4⟩ := ih (fun w hw' => hw w (by simp [hw'])) s1 h2 hr1
    refine ⟨_, s2, by simp only [optimizeIteration, h1, k1]; rfl, k2, kr, ?_, ?_⟩
    · intro hn
      cases m with
      | true => simp at hn
      | false =>
        have hn : n = 0 := by simpa using hn
        obtain ⟨e1, e2⟩ := h3 rfl
        obtain ⟨e3, e4⟩ := k3 hn
        subst e1
        subst e3
        refine ⟨rfl, ?_⟩
        intro w hw'
        rcases List.mem_cons.mp hw' with rfl | hw'
        · exact e2
        · exact e4 w hw'
    · intro hn
      by_cases hn0 : n = 0
      · have e3 := (k3 hn0).1
        cases m with
        | false => simp [hn0] at hn
        | true => rw [e3]; exact h4 rfl
      · have := k4 (Nat.pos_of_ne_zero hn0)
        cases m with
        | false => rw [← (h3 rfl).1]; exact this
        | true => exact (h4 rfl).trans this

/-- C22: the optimization always ends, without failing, in a reachable state where no evaluated move of any movable
word would increase the log likelihood.  The number of iterations that is needed does not depend on anything but the
corpus and the initial classes; each iteration but the last one increases the likelihood. -/
theorem C22_terminates (P : Parsers) (v : Vocab) (files : List (List Str)) (cfg : OptCfg) (s0 : OptSt)
    (h : OptStart P v files cfg s0) :
    ∃ N s, (∀ fuel, N ≤ fuel → optimizeLoop cfg fuel s0 = some (.ok s)) ∧ OptReach cfg s0 s ∧
      ∀ (w : Nat) (word : Str), v.idToWord[w]? = some word →
        ¬ (word.head? = some '<' ∧ word.getLast? = some '>') →
        (∃ x < v.numWords, x ≠ w ∧ s.wordToClass x = s.wordToClass w) →
        ∀ c < v.numNormal, c ≠ s.wordToClass w → ∀ d, evaluate cfg s w c = some d →
          likelihood cfg (reassign s.wordToClass w c) ≤ likelihood cfg s.wordToClass := by
  obtain ⟨_, _, inv, hv, _, hnn, _, _, _⟩ := h.inv
  have key : ∀ (m : Nat) (s : OptSt), OptInv cfg s0 s → OptReach cfg s0 s →
      llRank cfg.vocabularySize cfg.numClasses cfg.wordCounts cfg.wwCounts (likelihood cfg s.wordToClass) ≤ m →
      ∃ s', (∀ fuel, m + 1 ≤ fuel → optimizeLoop cfg fuel s = some (.ok s')) ∧ OptInv cfg s0 s' ∧ OptReach cfg s0 s' ∧
        ∀ word ∈ cfg.vocab.idToWord, isSpecialWord word = false → ∀ w, cfg.vocab.wordToId word = some w →
        2 ≤ classSize cfg s' (s'.wordToClass w) → ∀ c < cfg.numNormal, c ≠ s'.wordToClass w → ∀ d,
        evaluate cfg s' w c = some d → d ≤ 0 := by
    intro m
    induction m with
    | zero =>
      intro s hi hr hm
      obtain ⟨n, s1, h1, h2, hr1, h3, h4⟩ := optimizeIteration_spec inv cfg.vocab.idToWord (fun _ h => h) s hi hr
      by_cases hn : n = 0
      · obtain ⟨e1, e2⟩ := h3 hn
        subst e1
        refine ⟨s1, ?_, hi, hr, e2⟩
        intro fuel hf
        obtain ⟨k, rfl⟩ : ∃ k, fuel = k + 1 := ⟨fuel - 1, by omega⟩
        simp only [optimizeLoop, h1, hn, if_true]
      · have := llRank_lt (h4 (Nat.pos_of_ne_zero hn)) (classLL_mem cfg.wordCounts cfg.wwCounts h2.lt)
        omega
    | succ m ih =>
      intro s hi hr hm
      obtain ⟨n, s1, h1, h2, hr1, h3, h4⟩ := optimizeIteration_spec inv cfg.vocab.idToWord (fun _ h => h) s hi hr
      by_cases hn : n = 0
      · obtain ⟨e1, e2⟩ := h3 hn
        subst e1
        refine ⟨s1, ?_, hi, hr, e2⟩
        intro fuel hf
        obtain ⟨k, rfl⟩ : ∃ k, fuel = k + 1 := ⟨fuel - 1, by omega⟩
        simp only [optimizeLoop, h1, hn, if_true]
      · have := llRank_lt (h4 (Nat.pos_of_ne_zero hn)) (classLL_mem cfg.wordCounts cfg.wwCounts h2.lt)
        obtain ⟨s', k1, k2, k3, k4⟩ := ih s1 h2 hr1 (by unfold likelihood at *; omega)
        refine ⟨s', ?_, k2, k3, k4⟩
        intro fuel hf
        obtain ⟨k, rfl⟩ : ∃ k, fuel = k + 1 := ⟨fuel - 1, by omega⟩
        simp only [optimizeLoop, h1, if_neg hn]
        exact k1 k (by omega)
  obtain ⟨s, h1, h2, h3, h4⟩ := key _ s0 h.optInv .start (le_refl _)
  refine ⟨_, s, h1, h3, ?_⟩
  intro w word hw hsp hx c hc hne d he
  have hid : cfg.vocab.wordToId word = some w := (wordToId_iff inv.nodup).mpr (by rw [hv]; exact hw)
  obtain ⟨hwlt, _⟩ := wordToId_lt inv hid
  have hsp' : isSpecialWord word = false := by
    unfold isSpecialWord
    rw [Bool.and_eq_false_iff]
    by_cases h5 : word.head? = some '<'
    · right
      simp only [beq_eq_false_iff_ne, ne_eq]
      exact fun h6 => hsp ⟨h5, h6⟩
    · left; simpa using h5
  have hsize : 2 ≤ classSize cfg s (s.wordToClass w) := by
    obtain ⟨x, x1, x2, x3⟩ := hx
    have hx1 : x < cfg.vocabularySize := by
      have := inv.size
      rw [hv] at this
      unfold Vocab.numWords at x1
      omega
    have hsub : [x, w] ⊆ (List.range cfg.vocabularySize).filter (fun y => decide (s.wordToClass y = s.wordToClass w)) := by
      intro y hy
      simp only [List.mem_cons, List.not_mem_nil, or_false] at hy
      rcases hy with rfl | rfl
      · exact List.mem_filter.mpr ⟨List.mem_range.mpr hx1, by simpa using x3⟩
      · exact List.mem_filter.mpr ⟨List.mem_range.mpr hwlt, by simp⟩
    have hnd : [x, w].Nodup := by simp [x2]
    simpa [classSize] using (hnd.subperm hsub).length_le
  have hle := h4 word (by rw [hv]; exact List.mem_of_getElem? hw) hsp' w hid hsize c (by rw [hnn]; exact hc) hne d he
  have := evaluate_likelihood inv h2 hwlt (by rw [hnn]; exact hc) hne he
  linarith

end TheanoLM
