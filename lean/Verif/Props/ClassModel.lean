import Verif.Lemmas.ClassModelText
/-!
# The classes that wctool creates and the probability of the training text: C108
-/
namespace TheanoLM

section
variable {P : Parsers} {v : Vocab} {files : List (List Str)} {cfg : OptCfg} {s0 s : OptSt}

theorem reserved_alone (h : OptStart P v files cfg s0) (hr : OptReach cfg s0 s) {w : Nat} {word : Str}
    (hw : v.idToWord[w]? = some word) (h1 : word.head? = some '<') (h2 : word.getLast? = some '>') (hres : OwnClass v w) :
    AloneInClass v.numWords s.wordToClass w ∧ s.wordToClass w = wordClasses v w := by
  have hsp : ∀ s, OptReach cfg s0 s → s.wordToClass w = wordClasses v w :=
    fun s hr => (C23_special P v files cfg s0 s h hr).1 w word hw h1 h2
  refine ⟨?_, hsp s hr⟩
  induction hr with
  | start =>
    obtain ⟨_, _, _, _, _, _, e, _⟩ := h.inv
    rw [e]
    exact hres.1
  | step s s' word' moved hr hm ih =>
    have hstep := C23_step P v files cfg s0 s s' h word' moved hm
    have e1 := hsp s hr
    have e2 := hsp s' (.step s s' word' moved hr hm)
    cases moved with
    | false => rw [if_neg (by simp)] at hstep; rw [hstep]; exact ih
    | true =>
      rw [if_pos rfl] at hstep
      obtain ⟨w', _, _, g3, _, g5, _⟩ := hstep
      intro x hx hxc
      rw [e2] at hxc
      by_cases hxw : x = w'
      · subst hxw
        have := hres.2
        omega
      · rw [g5 x hxw, ← e1] at hxc
        exact ih x hx hxc

theorem optReach_moveReach (h : OptStart P v files cfg s0) (hr : OptReach cfg s0 s) : MoveReach cfg s0 s := by
  obtain ⟨_, _, inv, _⟩ := h.inv
  induction hr with
  | start => exact .start
  | step s s' word moved hr hm ih =>
    have ho := moveToBestClass_outcome cfg s word
    rw [hm] at ho
    cases ho with
    | special h => exact ih
    | alone w hs h hc => exact ih
    | optimal w hs h hc => exact ih
    | moved w c d s' hs h h2 hn hc he hd hbest hm' =>
      exact .move s s' w c ih (wordToId_lt inv h).1 (lt_of_lt_of_le hn inv.normal) hm'

theorem optReach_likelihood (h : OptStart P v files cfg s0) (hr : OptReach cfg s0 s) :
    likelihood cfg s0.wordToClass ≤ likelihood cfg s.wordToClass := by
  obtain ⟨_, _, _, hv, _⟩ := h.inv
  induction hr with
  | start => exact le_refl _
  | step s s' word moved hr hm ih =>
    rcases moveToBestClass_mem hm with hmem | rfl
    · obtain ⟨m, t, h1, h2⟩ := C22_increase P v files cfg s0 s h hr word (by rw [← hv]; exact hmem)
      rw [hm] at h1
      cases h1
      cases moved with
      | false => rw [if_neg (by simp)] at h2; rw [h2]; exact ih
      | true => rw [if_pos rfl] at h2; exact ih.trans h2.le
    · exact ih

theorem reserved_reassign {w x c : Nat} (hal : AloneInClass v.numWords s.wordToClass w) (hw : x ≠ w) (hc : c ≠ s.wordToClass w) :
    AloneInClass v.numWords (reassign s.wordToClass x c) w := by
  intro y hy hyc
  unfold reassign at hyc
  rw [if_neg (Ne.symm hw)] at hyc
  split at hyc
  · exact absurd hyc hc
  · exact hal y hy hyc

end

/-- The same classes with other names give the same models. -/
theorem relabel {n : Nat} {cl cl' : Nat → Nat} (h : ∀ i < n, ∀ j < n, (cl' i = cl' j ↔ cl i = cl j)) (m : ClassBigram n cl) :
    ∃ m' : ClassBigram n cl', ∀ text : List (List Nat), (∀ s ∈ text, ∀ x ∈ s, x < n) → m'.textProb text = m.textProb text := by
  classical
  let f : Nat → Nat := fun b => if h : ∃ w, w < n ∧ cl' w = b then cl (Nat.find h) else 0
  have hf : ∀ w < n, f (cl' w) = cl w := by
    intro w hw
    have hex : ∃ x, x < n ∧ cl' x = cl' w := ⟨w, hw, rfl⟩
    show (if h : ∃ x, x < n ∧ cl' x = cl' w then cl (Nat.find h) else 0) = _
    rw [dif_pos hex]
    obtain ⟨h1, h2⟩ := Nat.find_spec hex
    exact (h _ h1 _ hw).mp h2
  have himg : (usedClasses n cl').image f = usedClasses n cl := by
    unfold usedClasses
    rw [Finset.image_image]
    exact Finset.image_congr (fun w hw => hf w (Finset.mem_range.mp hw))
  have hinj : Set.InjOn f (usedClasses n cl') := by
    intro a ha b hb hab
    obtain ⟨x, hx, rfl⟩ := Finset.mem_image.mp ha
    obtain ⟨y, hy, rfl⟩ := Finset.mem_image.mp hb
    rw [Finset.mem_range] at hx hy
    rw [hf x hx, hf y hy] at hab
    exact (h x hx y hy).mpr hab
  have hcls : ∀ w < n, (Finset.range n).filter (fun x => cl' x = cl' w) = (Finset.range n).filter (fun x => cl x = cl w) := by
    intro w hw
    exact Finset.filter_congr (fun x hx => h x (Finset.mem_range.mp hx) w hw)
  refine ⟨⟨fun a b => m.next (f a) (f b), m.member, fun _ _ => m.next_nonneg _ _, m.member_nonneg, ?_, ?_⟩, ?_⟩
  · intro a ha
    obtain ⟨x, hx, rfl⟩ := Finset.mem_image.mp ha
    rw [hf x (Finset.mem_range.mp hx), ← Finset.sum_image (g := f) (f := fun b => m.next (cl x) b) hinj, himg]
    exact m.next_sum _ (Finset.mem_image_of_mem _ hx)
  · intro c hc
    obtain ⟨x, hx, rfl⟩ := Finset.mem_image.mp hc
    rw [hcls x (Finset.mem_range.mp hx)]
    exact m.member_sum _ (Finset.mem_image_of_mem _ hx)
  · intro text ht
    rw [textProb_eq, textProb_eq]
    congr 1
    apply List.map_congr_left
    intro p hp
    obtain ⟨h1, h2⟩ := textPairs_lt ht p hp
    show m.next (f (cl' p.1)) (f (cl' p.2)) * m.member p.2 = _
    rw [hf _ h1, hf _ h2]

/-! ## C108 -/

/-- C108: up to a number that depends only on the training text, the log likelihood of the optimizer is the logarithm of the
greatest probability that a class bigram model with the current classes gives to the training text. -/
theorem C108_likelihood (P : Parsers) (v : Vocab) (files : List (List Str)) (cfg : OptCfg) (s0 : OptSt)
    (h : OptStart P v files cfg s0) (unkId sosId eosId : Nat) (hu : v.idToWord[unkId]? = some unk)
    (hs : v.idToWord[sosId]? = some sos) (he : v.idToWord[eosId]? = some eos) (hrs : OwnClass v sosId) (hre : OwnClass v eosId)
    (us : List (List Str)) (ids : List (List Nat)) (h1 : UtterancesOf files us) (h2 : IdsOf v unkId us ids) :
    ∃ K : ℝ, ∀ s, OptReach cfg s0 s → ∃ l, logLikelihood cfg s = some l ∧
      IsGreatest (Set.range (fun m : ClassBigram v.numWords s.wordToClass => m.textProb ids)) (Real.exp (l + K)) := by
  obtain ⟨K, hK⟩ := text_maximum h hu hs he h1 h2
  refine ⟨K, fun s hr => ⟨_, C21_log_likelihood P v files cfg s0 s h (optReach_moveReach h hr), hK _ ?_ (reserved_alone h hr hs rfl rfl hrs).1 (reserved_alone h hr he rfl rfl hre).1⟩⟩
  obtain ⟨st, _, hst, _⟩ := h.start
  obtain ⟨_, _, e3, e4⟩ := optStart_counts h hst
  have := (optReach_inv h hr).lt
  rw [e3, e4] at this
  exact this


/-- C108 (partial): when wctool has finished and its output is read as a vocabulary, no class bigram model with the initial
classes gives the training text a greater probability than the models with the classes of the output can give, and neither
does any model with the classes where one word has been moved to another normal class.  Missing: moves that the optimizer
cannot evaluate, see `C108_violated`, and vocabulary files that list `<s>` or `</s>`. -/
theorem C108_partial (P : Parsers) (showProb : ℚ → Str) (hP : FaithfulNumbers P showProb) (files : List (List Str))
    (vocabulary : Option (List Str × VocFormat)) (n : Nat) (b : Backend) (cfg : OptCfg) (s0 : OptSt)
    (h : wctoolOptimizer P files vocabulary n b = .ok (cfg, s0)) (freq : Nat) (old : Str)
    (unkId sosId eosId : Nat) (hu : cfg.vocab.idToWord[unkId]? = some unk)
    (hs : cfg.vocab.idToWord[sosId]? = some sos) (he : cfg.vocab.idToWord[eosId]? = some eos)
    (hrs : OwnClass cfg.vocab sosId) (hre : OwnClass cfg.vocab eosId)
    (us : List (List Str)) (ids : List (List Nat)) (h1 : UtterancesOf files us) (h2 : IdsOf cfg.vocab unkId us ids) :
    ∃ N s f v, (∀ fuel, N ≤ fuel → wctoolLoop showProb .classes freq cfg fuel s0 ⟨true, old⟩ = some (.ok (s, f))) ∧
      vocabFromFile P (fileLines f.text) .classes [] = .ok v ∧ v.idToWord = cfg.vocab.idToWord ∧
      (∀ m0 : ClassBigram v.numWords (wordClasses cfg.vocab), ∃ m : ClassBigram v.numWords (wordClasses v),
        m0.textProb ids ≤ m.textProb ids) ∧
      (∀ (w : Nat) (word : Str), v.idToWord[w]? = some word → ¬ (word.head? = some '<' ∧ word.getLast? = some '>') →
        (∃ x < v.numWords, x ≠ w ∧ wordClasses v x = wordClasses v w) →
        ∀ c < cfg.vocab.numNormal, c ≠ s.wordToClass w → evaluate cfg s w c ≠ none →
        ∀ m' : ClassBigram v.numWords (reassign s.wordToClass w c), ∃ m : ClassBigram v.numWords (wordClasses v),
          m'.textProb ids ≤ m.textProb ids) := by
  obtain ⟨hstart, _⟩ := wctoolOptimizer_start h
  obtain ⟨_, _, inv, _, hnc, hnn, e0, _⟩ := hstart.inv
  obtain ⟨N1, s, f, g1, hr, v, g3, g4, _⟩ := C84_classes P showProb hP files vocabulary n b cfg s0 h freq old
  obtain ⟨N2, s', k1, k2, k3⟩ := C22_terminates P cfg.vocab files cfg s0 hstart
  have hne : cfg.vocab.idToWord ≠ [] := by
    intro hc
    rw [hc] at hs
    cases hs
  obtain ⟨f', _, q1, _⟩ := wctoolLoop_spec showProb .classes freq cfg inv.size hne (max N1 N2) s0 ⟨true, old⟩ s'
    (k1 _ (le_max_right _ _))
  rw [g1 _ (le_max_left _ _)] at q1
  injection q1 with q1
  injection q1 with q1
  rw [Prod.mk.injEq] at q1
  obtain ⟨rfl, _⟩ := q1
  have hnum : v.numWords = cfg.vocab.numWords := by unfold Vocab.numWords; rw [g4.words]
  obtain ⟨K, hK⟩ := text_maximum hstart hu hs he h1 h2
  have hlt : ∀ s, OptReach cfg s0 s → ∀ w < cfg.vocab.numWords, s.wordToClass w < cfg.vocab.numClasses := by
    intro s hr
    obtain ⟨st, _, hst, _⟩ := hstart.start
    obtain ⟨_, _, e3, e4⟩ := optStart_counts hstart hst
    have := (optReach_inv hstart hr).lt
    rw [e3, e4] at this
    exact this
  obtain ⟨as, as'⟩ := reserved_alone hstart hr hs rfl rfl hrs
  obtain ⟨ae, ae'⟩ := reserved_alone hstart hr he rfl rfl hre
  have hmax := hK s.wordToClass (hlt s hr) as ae
  have hbound := idsOf_bound inv.nodup hu h2
  obtain ⟨m, hm⟩ := hmax.1
  have hrel : ∀ i < v.numWords, ∀ j < v.numWords, (wordClasses v i = wordClasses v j ↔ s.wordToClass i = s.wordToClass j) := by
    intro i hi j hj
    rw [hnum] at hi hj
    rw [← g4.classes i hi j hj]
    have hl : v.classOf.length = cfg.vocab.idToWord.length := g4.shortlist
    unfold wordClasses
    rw [List.getD_eq_getElem?_getD, List.getD_eq_getElem?_getD, List.getElem?_eq_getElem (by unfold Vocab.numWords at hi; omega),
      List.getElem?_eq_getElem (by unfold Vocab.numWords at hj; omega)]
    simp
  have hbest : ∃ m : ClassBigram v.numWords (wordClasses v), m.textProb ids = Real.exp (likelihood cfg s.wordToClass + K) := by
    rw [hnum] at hrel ⊢
    obtain ⟨m', hm'⟩ := relabel hrel m
    exact ⟨m', by rw [hm' ids hbound]; exact hm⟩
  obtain ⟨m, hm⟩ := hbest
  have hinit : s0.wordToClass = wordClasses cfg.vocab := by rw [e0]; rfl
  have key : ∀ cl : Nat → Nat, (∀ w < cfg.vocab.numWords, cl w < cfg.vocab.numClasses) →
      AloneInClass cfg.vocab.numWords cl sosId → AloneInClass cfg.vocab.numWords cl eosId →
      likelihood cfg cl ≤ likelihood cfg s.wordToClass → ∀ m' : ClassBigram v.numWords cl, m'.textProb ids ≤ m.textProb ids := by
    intro cl a1 a2 a3 a4
    rw [hm, hnum]
    intro m'
    refine ((hK cl a1 a2 a3).2 ⟨m', rfl⟩).trans ?_
    rw [Real.exp_le_exp]
    linarith
  refine ⟨N1, s, f, v, g1, g3, g4.words, ?_, ?_⟩
  · intro m0
    refine ⟨m, key _ ?_ hrs.1 hre.1 ?_ m0⟩
    · rw [← hinit]; exact hlt s0 .start
    · rw [← hinit]; exact optReach_likelihood hstart hr
  · intro w word hw hsp hx c hc hcne hev m'
    rw [g4.words] at hw
    have hwn : w < cfg.vocab.numWords := (List.getElem?_eq_some_iff.mp hw).1
    have hws : ∀ (t : Nat) (tok : Str), cfg.vocab.idToWord[t]? = some tok → tok.head? = some '<' → tok.getLast? = some '>' → w ≠ t := by
      rintro t tok ht t1 t2 rfl
      rw [hw] at ht
      cases ht
      exact hsp ⟨t1, t2⟩
    refine ⟨m, key _ ?_ ?_ ?_ ?_ m'⟩
    · intro x hx
      unfold reassign
      split
      · exact lt_of_lt_of_le hc (by rw [← hnn, ← hnc]; exact inv.normal)
      · exact hlt s hr x hx
    · exact reserved_reassign as (hws sosId sos hs rfl rfl) (by rw [as']; have := hrs.2; omega)
    · exact reserved_reassign ae (hws eosId eos he rfl rfl) (by rw [ae']; have := hre.2; omega)
    · obtain ⟨d, hd⟩ := Option.ne_none_iff_exists'.mp hev
      refine k3 w word hw hsp ?_ c hc hcne d hd
      obtain ⟨x, x1, x2, x3⟩ := hx
      exact ⟨x, by rw [← hnum]; exact x1, x2, (hrel x x1 w (by rw [hnum]; exact hwn)).mp x3⟩

/-- C108: when wctool creates the initial classes itself, `<s>` and `</s>` have their own classes, so that the hypotheses of
`C108_partial` hold. -/
theorem C108_created (P : Parsers) (files : List (List Str)) (n : Nat) (b : Backend) (cfg : OptCfg) (s0 : OptSt)
    (h : wctoolOptimizer P files none n b = .ok (cfg, s0)) :
    ∃ unkId sosId eosId : Nat, cfg.vocab.idToWord[unkId]? = some unk ∧ cfg.vocab.idToWord[sosId]? = some sos ∧
      cfg.vocab.idToWord[eosId]? = some eos ∧ OwnClass cfg.vocab sosId ∧ OwnClass cfg.vocab eosId := by
  obtain ⟨hs, _⟩ := wctoolOptimizer_start h
  obtain ⟨hk, hmem⟩ := C19_words files _ (utterancesOf_map files)
  have hv : vocabFromWordCounts (computeWordCounts files) (some n) = .ok cfg.vocab := by
    unfold wctoolOptimizer at h
    dsimp only at h
    split at h
    · cases h
    · rename_i v hv
      split at h
      · cases h
      · rename_i st' hst'
        have : OptStart P v files cfg s0 := ⟨.counts _ _ _ hk hv, st', b, hst', h⟩
        obtain ⟨_, _, _, hcv, _⟩ := this.inv
        rw [hcv]; exact hv
  rcases fromWordCounts_spec (computeWordCounts files) (some n) hk _ rfl _ rfl with ⟨_, _, h1⟩ | ⟨v', ps, h1, vinv, _, h2, h3, _⟩
  · rw [h1] at hv; cases hv
  rw [hv] at h1
  injection h1 with h1
  subst h1
  rw [Option.getD_some] at vinv h3
  have hzero : 0 < n ∨ (computeWordCounts files).filter (fun p => decide (p.1 ≠ sos ∧ p.1 ≠ eos ∧ p.1 ≠ unk)) = [] := by
    by_contra hc
    push Not at hc
    obtain ⟨q, hq⟩ := List.exists_mem_of_ne_nil _ hc.2
    obtain ⟨hq1, hq2⟩ := List.mem_filter.mp hq
    have h0 : n = 0 := by omega
    rw [h0, C16_zero _ hk q hq1 (by simpa using hq2)] at hv
    cases hv
  generalize (computeWordCounts files).filter (fun p => decide (p.1 ≠ sos ∧ p.1 ≠ eos ∧ p.1 ≠ unk)) = wc at *
  have hlen : (sortByCount wc).length = wc.length := (sortByCount_perm wc).length_eq
  have hget : ∀ i < 3, cfg.vocab.idToWord[wc.length + i]? = [sos, eos, unk][i]? := by
    intro i hi
    rw [h2, List.getElem?_append_right (by simp [hlen])]
    simp [hlen]
  have hnum : cfg.vocab.numWords = wc.length + 3 := by unfold Vocab.numWords; rw [h2]; simp [hlen]
  have hmod : ∀ x < wc.length, x % n < min wc.length n := by
    intro x hx
    rcases hzero with h0 | h0
    · have := Nat.mod_lt x h0
      have := Nat.mod_le x n
      omega
    · rw [h0] at hx; simp at hx
  have hlow : ∀ x < wc.length, wordClasses cfg.vocab x < min wc.length n := by
    intro x hx
    unfold wordClasses
    rw [List.getD_eq_getElem?_getD, h3, List.getElem?_append_left (by simpa using hx)]
    simpa [hx] using hmod x hx
  have hhigh : ∀ i < 3, wordClasses cfg.vocab (wc.length + i) = min wc.length n + i := by
    intro i hi
    unfold wordClasses
    rw [List.getD_eq_getElem?_getD, h3, List.getElem?_append_right (by simp)]
    have : i = 0 ∨ i = 1 ∨ i = 2 := by omega
    rcases this with rfl | rfl | rfl <;> simp
  have hall : ∀ i < 3, AloneInClass cfg.vocab.numWords (wordClasses cfg.vocab) (wc.length + i) := by
    intro i hi x hx hxc
    rw [hhigh i hi] at hxc
    rcases Nat.lt_or_ge x wc.length with hlt | hge
    · have := hlow x hlt; omega
    · obtain ⟨j, rfl⟩ : ∃ j, x = wc.length + j := ⟨x - wc.length, by omega⟩
      rw [hhigh j (by omega)] at hxc
      omega
  have hnorm : cfg.vocab.numNormal ≤ min wc.length n := by
    refine numNormal_le vinv (by omega) (fun j j1 j2 => ?_)
    obtain ⟨i, rfl⟩ : ∃ i, j = min wc.length n + i := ⟨j - min wc.length n, by omega⟩
    have hi : i < 3 := by omega
    have hw : ∃ w, [sos, eos, unk][i]? = some w ∧ w.head? = some '<' := by
      have : i = 0 ∨ i = 1 ∨ i = 2 := by omega
      rcases this with rfl | rfl | rfl <;> exact ⟨_, rfl, rfl⟩
    obtain ⟨w, w1, w2⟩ := hw
    refine ⟨wc.length + i, w, ?_, by rw [hget i hi, w1], w2⟩
    have hcl : cfg.vocab.classOf.length = wc.length + 3 := by rw [h3]; simp
    unfold idsOf
    rw [hcl]
    have hd : ∀ x < wc.length + 3, (cfg.vocab.classOf[x]? = some (min wc.length n + i) ↔ x = wc.length + i) := by
      intro x hx
      have e : cfg.vocab.classOf[x]? = some (wordClasses cfg.vocab x) := by
        unfold wordClasses
        rw [List.getD_eq_getElem?_getD, List.getElem?_eq_getElem (by omega)]
        rfl
      rw [e, Option.some.injEq]
      constructor
      · intro hx'
        exact hall i hi x (by rw [hnum]; exact hx) (by rw [hx', hhigh i hi])
      · rintro rfl
        exact hhigh i hi
    refine List.perm_singleton.mp ((List.perm_ext_iff_of_nodup (List.nodup_range.filter _) (List.nodup_singleton _)).mpr ?_)
    intro x
    rw [List.mem_filter, List.mem_range, decide_eq_true_iff, List.mem_singleton]
    constructor
    · intro h; exact (hd x h.1).mp h.2
    · rintro rfl; exact ⟨by omega, (hd _ (by omega)).mpr rfl⟩
  refine ⟨wc.length + 2, wc.length + 0, wc.length + 1, ?_, ?_, ?_, ⟨hall 0 (by omega), ?_⟩, ⟨hall 1 (by omega), ?_⟩⟩
  · rw [hget 2 (by omega)]; rfl
  · rw [hget 0 (by omega)]; rfl
  · rw [hget 1 (by omega)]; rfl
  · rw [hhigh 0 (by omega)]; omega
  · rw [hhigh 1 (by omega)]; omega

/-! ## What is missing -/

/-- The text for which wctool cannot evaluate any move, although one of them is better. -/
def stuckText : List (List Str) := [["a b a c\n".toList]]
def stuckIds : List (List Nat) := [[3, 2, 0, 2, 1, 4]]

theorem stuck_best {cl : Nat → Nat} (hc : ∀ w < 6, cl w = [0, 1, 0, 2, 3, 4].getD w 0) (m : ClassBigram 6 cl) :
    m.textProb stuckIds < 1 / 16 := by
  have c0 : cl 0 = 0 := hc 0 (by omega)
  have c1 : cl 1 = 1 := hc 1 (by omega)
  have c2 : cl 2 = 0 := hc 2 (by omega)
  have c3 : cl 3 = 2 := hc 3 (by omega)
  have c4 : cl 4 = 3 := hc 4 (by omega)
  have c5 : cl 5 = 4 := hc 5 (by omega)
  have hu : usedClasses 6 cl = {0, 1, 2, 3, 4} := by
    simp [usedClasses, Finset.range_add_one, c0, c1, c2, c3, c4, c5]
    decide
  have hmem : ∀ a ∈ usedClasses 6 cl, ∀ b ∈ usedClasses 6 cl, m.next a b ≤ 1 := by
    intro a ha b hb
    rw [← m.next_sum a ha]
    exact Finset.single_le_sum (f := fun b => m.next a b) (fun i _ => m.next_nonneg a i) hb
  have s0 := m.next_sum 0 (by rw [hu]; decide)
  have q0 := m.member_sum 0 (by rw [hu]; decide)
  have q1 := m.member_sum 1 (by rw [hu]; decide)
  have q3 := m.member_sum 3 (by rw [hu]; decide)
  rw [hu] at s0 hmem
  simp [Finset.sum_filter, Finset.sum_range_succ, c0, c1, c2, c3, c4, c5] at s0 q0 q1 q3
  have n20 := hmem 2 (by decide) 0 (by decide)
  have n13 := hmem 1 (by decide) 3 (by decide)
  have p20 := m.next_nonneg 2 0
  have p13 := m.next_nonneg 1 3
  have p00 := m.next_nonneg 0 0
  have p01 := m.next_nonneg 0 1
  have p02 := m.next_nonneg 0 2
  have p03 := m.next_nonneg 0 3
  have p04 := m.next_nonneg 0 4
  have r0 := m.member_nonneg 0
  have r2 := m.member_nonneg 2
  have e : m.textProb stuckIds = m.next 2 0 * m.next 1 3 * (m.next 0 0 * m.next 0 0 * m.next 0 1) *
      (m.member 2 * m.member 2 * m.member 0) := by
    simp [ClassBigram.textProb, ClassBigram.utteranceProb, stuckIds, c0, c1, c2, c3, c4, q1, q3]
    ring
  have cube : ∀ x y : ℝ, 0 ≤ x → 0 ≤ y → x + y ≤ 1 → x * x * y ≤ 4 / 27 := by
    intro x y hx hy hxy
    nlinarith [mul_nonneg (sq_nonneg (x - 2 / 3)) (by linarith : 0 ≤ x + 1 / 3), mul_nonneg (mul_nonneg hx hx) (by linarith : 0 ≤ 1 - x - y)]
  have k1 := cube _ _ p00 p01 (by linarith)
  have k2 := cube _ _ r2 r0 (by linarith)
  have j1 : 0 ≤ m.next 0 0 * m.next 0 0 * m.next 0 1 := by positivity
  have j2 : 0 ≤ m.member 2 * m.member 2 * m.member 0 := by positivity
  rw [e]
  have l1 : m.next 2 0 * m.next 1 3 ≤ 1 := mul_le_one₀ n20 p13 n13
  calc _ ≤ 1 * (4 / 27) * (4 / 27 : ℝ) := by gcongr
    _ < 1 / 16 := by norm_num

theorem stuck_better {cl : Nat → Nat} (hc : ∀ w < 6, cl w = [1, 1, 0, 2, 3, 4].getD w 0) :
    ∃ m : ClassBigram 6 cl, m.textProb stuckIds = 1 / 16 := by
  have c0 : cl 0 = 1 := hc 0 (by omega)
  have c1 : cl 1 = 1 := hc 1 (by omega)
  have c2 : cl 2 = 0 := hc 2 (by omega)
  have c3 : cl 3 = 2 := hc 3 (by omega)
  have c4 : cl 4 = 3 := hc 4 (by omega)
  have c5 : cl 5 = 4 := hc 5 (by omega)
  have hu : usedClasses 6 cl = {0, 1, 2, 3, 4} := by
    simp [usedClasses, Finset.range_add_one, c0, c1, c2, c3, c4, c5]
    decide
  refine ⟨⟨fun a b => if a = 0 then if b = 1 then 1 else 0 else if a = 1 then if b = 0 ∨ b = 3 then 1 / 2 else 0 else
    if b = 0 then 1 else 0, fun w => if w ≤ 1 then 1 / 2 else 1, ?_, ?_, ?_, ?_⟩, ?_⟩
  · intro a b
    split_ifs <;> norm_num
  · intro w
    split_ifs <;> norm_num
  · intro a ha
    rw [hu] at ha ⊢
    simp only [Finset.mem_insert, Finset.mem_singleton] at ha
    rcases ha with rfl | rfl | rfl | rfl | rfl <;> norm_num [Finset.sum_insert]
  · intro c hc'
    rw [hu] at hc'
    simp only [Finset.mem_insert, Finset.mem_singleton] at hc'
    rcases hc' with rfl | rfl | rfl | rfl | rfl <;>
      norm_num [Finset.sum_filter, Finset.sum_range_succ, c0, c1, c2, c3, c4, c5]
  · norm_num [ClassBigram.textProb, ClassBigram.utteranceProb, stuckIds, c0, c1, c2, c3, c4]

/-- C108, what is missing: for the text `a b a c` and two classes, wctool cannot evaluate any of the moves and leaves the
words in the initial classes, although models where `b` is in the class of `c` give the text a greater probability than any
model with the classes of the output. -/
theorem C108_violated (P : Parsers) (showProb : ℚ → Str) (hP : FaithfulNumbers P showProb) (b : Backend) (freq : Nat) (old : Str) :
    ∃ cfg s0, wctoolOptimizer P stuckText none 2 b = .ok (cfg, s0) ∧
      (∃ us, UtterancesOf stuckText us ∧ IdsOf cfg.vocab 5 us stuckIds ∧ cfg.vocab.idToWord[5]? = some unk) ∧
      ∃ N s f v, (∀ fuel, N ≤ fuel → wctoolLoop showProb .classes freq cfg fuel s0 ⟨true, old⟩ = some (.ok (s, f))) ∧
        vocabFromFile P (fileLines f.text) .classes [] = .ok v ∧ v.idToWord = cfg.vocab.idToWord ∧
        v.idToWord[0]? = some "b".toList ∧ 1 < cfg.vocab.numNormal ∧ 1 ≠ s.wordToClass 0 ∧
        (∃ x < v.numWords, x ≠ 0 ∧ wordClasses v x = wordClasses v 0) ∧
        ∃ m' : ClassBigram v.numWords (reassign s.wordToClass 0 1), ∀ m : ClassBigram v.numWords (wordClasses v),
          m.textProb stuckIds < m'.textProb stuckIds := by
  have key : ∃ cs, wctoolOptimizer exParsers stuckText none 2 b = .ok cs ∧ cs.1.backend = b ∧
      cs.1.vocab.idToWord = ["b".toList, "c".toList, "a".toList, sos, eos, unk] ∧ cs.1.vocab.numNormal = 2 ∧ cs.1.numNormal = 2 ∧
      (∀ w < 6, cs.2.wordToClass w = [0, 1, 0, 2, 3, 4].getD w 0) ∧
      classSize cs.1 cs.2 1 < 2 ∧
      (iterClassIds cs.1 0 1).map (fun x => cs.2.ccCounts 0 x) = [0, 0, 0] ∧
      (∀ w < 6, cs.2.ccCounts (cs.2.wordToClass w) (cs.2.wordToClass w) -
        cs.2.wcCounts w (cs.2.wordToClass w) - cs.2.cwCounts (cs.2.wordToClass w) w + cs.1.wwCounts w w = 0) := by
    cases b <;> decide +kernel
  obtain ⟨⟨cfg, s0⟩, hopt, hb, hwords, hvn, hn, hcl, hsize, hx, hoo⟩ := key
  have hopt' : wctoolOptimizer P stuckText none 2 b = .ok (cfg, s0) := hopt
  simp only at hb hwords hvn hn hcl hsize hx hoo
  have hstuck : ∀ s, OptReach cfg s0 s → s = s0 := by
    intro s hr
    induction hr with
    | start => rfl
    | step s s' word moved hr hm ih =>
      subst ih
      have ho := moveToBestClass_outcome cfg s word
      rw [hm] at ho
      cases ho with
      | special h => rfl
      | alone w hs h hc => rfl
      | optimal w hs h hc => rfl
      | moved w c d s' hs h h2 hnn hc he hd hbest hm' =>
        exfalso
        have hw : cfg.vocab.idToWord[w]? = some word := by
          obtain ⟨_, _, inv, _⟩ := (wctoolOptimizer_start hopt').1.inv
          exact (wordToId_iff inv.nodup).mp h
        rw [hwords] at hw
        have hw6 : w < 6 := by simpa using (List.getElem?_eq_some_iff.mp hw).1
        have hmv : evaluate cfg s w c = none := by
          have hcw := hcl w hw6
          have : w = 0 ∨ w = 1 ∨ w = 2 ∨ w = 3 ∨ w = 4 ∨ w = 5 := by omega
          have hsp : w ≠ 3 ∧ w ≠ 4 ∧ w ≠ 5 := by
            refine ⟨?_, ?_, ?_⟩ <;>
            · rintro rfl
              cases hw
              exact absurd hs (by decide)
          have hw1 : w ≠ 1 := by
            rintro rfl
            rw [hcw] at h2
            exact absurd h2 (by simpa using hsize)
          have hzero : s.wordToClass w = 0 := by
            rw [hcw]
            have : w = 0 ∨ w = 2 := by omega
            rcases this with rfl | rfl <;> rfl
          have hc1 : c = 1 := by omega
          subst hc1
          apply evaluate_none
          rw [hb]
          cases b with
          | numpy =>
            left
            rw [hzero, hx]
            unfold sumChange
            simp [xlogxSum]
          | theano =>
            right
            rw [hoo w hw6]
            unfold llChange
            simp [xlogxScalar]
        rw [hmv] at he
        cases he
  obtain ⟨N1, s, f, g1, hr, v, g3, g4, _⟩ := C84_classes P showProb hP stuckText none 2 b cfg s0 hopt' freq old
  have hs := hstuck s hr
  subst hs
  have hnum : v.numWords = 6 := by unfold Vocab.numWords; rw [g4.words, hwords]; rfl
  have hrel : ∀ i < 6, ∀ j < 6, (s.wordToClass i = s.wordToClass j ↔ wordClasses v i = wordClasses v j) := by
    intro i hi j hj
    have hlen : cfg.vocab.idToWord.length = 6 := by rw [hwords]; rfl
    rw [← g4.classes i (by omega) j (by omega)]
    have hl : v.classOf.length = cfg.vocab.idToWord.length := g4.shortlist
    unfold wordClasses
    rw [List.getD_eq_getElem?_getD, List.getD_eq_getElem?_getD, List.getElem?_eq_getElem (by omega),
      List.getElem?_eq_getElem (by omega)]
    simp
  refine ⟨cfg, s, hopt', ⟨[[sos, "a".toList, "b".toList, "a".toList, "c".toList, eos]], ?_, ?_, by rw [hwords]; rfl⟩,
    N1, s, f, v, g1, g3, g4.words, by rw [g4.words, hwords]; rfl, by omega, by rw [hcl 0 (by omega)]; decide, ?_, ?_⟩
  · exact .cons (by decide +kernel) .nil
  · have hw : ∀ (i : Nat) (w : Str), ["b".toList, "c".toList, "a".toList, sos, eos, unk][i]? = some w → IdOf cfg.vocab false 5 w i := by
      intro i w hi
      exact .known w i (by rw [hwords]; exact hi) (by simp)
    exact .cons (.cons (hw _ _ rfl) (.cons (hw _ _ rfl) (.cons (hw _ _ rfl) (.cons (hw _ _ rfl) (.cons (hw _ _ rfl)
      (.cons (hw _ _ rfl) .nil)))))) .nil
  · rw [hnum]
    exact ⟨2, by omega, by omega, (hrel 2 (by omega) 0 (by omega)).mp (by rw [hcl 2 (by omega), hcl 0 (by omega)]; rfl)⟩
  · rw [hnum]
    obtain ⟨m', hm'⟩ := stuck_better (cl := reassign s.wordToClass 0 1) (by
      intro w hw
      unfold reassign
      split
      · rename_i h; subst h; rfl
      · rw [hcl w hw]
        have : w = 1 ∨ w = 2 ∨ w = 3 ∨ w = 4 ∨ w = 5 := by omega
        rcases this with rfl | rfl | rfl | rfl | rfl <;> rfl)
    refine ⟨m', fun m => ?_⟩
    obtain ⟨m2, hm2⟩ := relabel hrel m
    rw [hm', ← hm2 stuckIds (by decide)]
    exact stuck_best hcl m2

/-- Every text has word IDs. -/
theorem idsOf_total (v : Vocab) (unkId : Nat) (us : List (List Str)) : ∃ ids, IdsOf v unkId us ids := by
  have hw : ∀ w, ∃ i, IdOf v false unkId w i := by
    intro w
    by_cases h : w ∈ v.idToWord
    · obtain ⟨i, hi⟩ := List.mem_iff_getElem?.mp h
      exact ⟨i, .known w i hi (by simp)⟩
    · exact ⟨unkId, .unknown w h⟩
  have hu : ∀ u, ∃ ids, List.Forall₂ (IdOf v false unkId) u ids := by
    intro u
    induction u with
    | nil => exact ⟨[], .nil⟩
    | cons w ws ih => exact ⟨_, .cons (hw w).choose_spec ih.choose_spec⟩
  induction us with
  | nil => exact ⟨[], .nil⟩
  | cons u us ih => exact ⟨_, .cons (hu u).choose_spec ih.choose_spec⟩

/-- The hypotheses of `C108_likelihood`, `C108_partial` and `C108_created` are met, and there is a move that the optimizer can
evaluate. -/
example (b : Backend) : ∃ cfg s0, wctoolOptimizer exNumbers exCorpus none 2 b = .ok (cfg, s0) ∧ OptStart exNumbers cfg.vocab exCorpus cfg s0 ∧
    (∃ us ids, ∃ unkId : Nat, UtterancesOf exCorpus us ∧ IdsOf cfg.vocab unkId us ids ∧ cfg.vocab.idToWord[unkId]? = some unk) ∧
    (b = .numpy → ∃ w c d, c < cfg.vocab.numNormal ∧ c ≠ s0.wordToClass w ∧ evaluate cfg s0 w c = some d) := by
  have key : ∃ cs, wctoolOptimizer exNumbers exCorpus none 2 b = .ok cs ∧ cs.1.backend = b ∧ 0 < cs.1.vocabularySize ∧
      1 < cs.1.vocab.numNormal ∧ cs.2.wordToClass 0 ≠ 1 ∧
      cs.1.wordCounts 0 < classCount cs.1.vocabularySize cs.1.wordCounts cs.2.wordToClass (cs.2.wordToClass 0) ∧
      0 < classCount cs.1.vocabularySize cs.1.wordCounts cs.2.wordToClass 1 ∧
      (b = .numpy → sumsPositive cs.1 cs.2.wordToClass 0 1) := by
    cases b <;> decide +kernel
  obtain ⟨⟨cfg, s0⟩, h1, h2, h3, h4, h5, h6, h7, h8⟩ := key
  obtain ⟨hs, _⟩ := wctoolOptimizer_start h1
  obtain ⟨unkId, _, _, hu, _⟩ := C108_created _ _ _ _ _ _ h1
  obtain ⟨ids, hids⟩ := idsOf_total cfg.vocab unkId (exCorpus.flatten.map utterance)
  refine ⟨cfg, s0, h1, hs, ⟨_, ids, unkId, utterancesOf_map _, hids, hu⟩, fun hb => ?_⟩
  obtain ⟨d, hd⟩ := C21_defined _ _ _ _ _ _ hs .start 0 1 h3 h5 h6 h7 (h2 ▸ h8) (by
    intro h
    rw [show cfg.backend = b from h2, hb] at h
    cases h)
  exact ⟨0, 1, d, h4, Ne.symm h5, hd⟩

end TheanoLM
