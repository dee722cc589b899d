import Verif.Props.TrainScoreExcluded
/-!
# A case that meets the hypotheses of C116
-/
namespace TheanoLM

theorem fltLog_one : fltLog (((1 : ℚ) : ℝ)) = .fin 0 := by simp [fltLog]

/-- The sentence `a` in the network of `exampleSmall`. -/
theorem exTrained_perplexity (layers : List (Created ℝ)) (hm : ModelOf exampleModelEnv (exampleSmall "q") exScoreVocab layers 3)
    (hf : ∀ c ∈ layers, c.layer.Forward) (hout : ∃ c b u, layers[3]? = some c ∧ c.layer = .softmax b u)
    (hns : ∀ k c, k < 3 → layers[k]? = some c → c.layer.NotSoftmax) (excludeUnk : Bool) :
    ∃ p : ℝ, ∃ N, ∀ fuel, N ≤ fuel →
      (validationScorer realAct fltLog (fun q => (q : ℝ)) exScoreVocab 5 (layers.map Created.layer) 3 excludeUnk).filePerplexity
        ["a\n".toList] ⟨2, none⟩ fuel = some (.ok (.fin p)) := by
  have hv := exScoreVocab_constructible
  have hu : exScoreVocab.wordToId unk = some 5 := by decide +kernel
  set sc := validationScorer realAct fltLog (fun q => (q : ℝ)) exScoreVocab 5 (layers.map Created.layer) 3 excludeUnk with hsc
  have hs : Sequences ["a\n".toList] none [[(sos, 0), ("a".toList, 0), (eos, 0)]] := by
    rw [sequences_iff _ _ (by simp)]
    decide +kernel
  obtain ⟨scores, r, s1, s2, s3⟩ := C110_perplexity exParsers sc ⟨hv, hu⟩
    (C96_independent hv hu hm hf true false)
    (fun ids t x _ ht _ hx => C110_probability hv hu hm true false (fun h => by cases h) exScoreVocab_nonneg
      (fun u hu => by cases hu; decide +kernel) (sentenceBatch ids) t 0 ht (by simp [sentenceBatch]) x hx)
    _ none (by simp) _ hs
  have hfin : ∀ t ∈ [0, 1], ∀ x, sc.WordScore (sentenceBatch [3, 1, 4]) t 0 x → ∃ y, x = .fin y := by
    intro t ht x hx
    have hw : t < (sentenceBatch [3, 1, 4]).steps ∧ (memberOf exScoreVocab ((sentenceBatch [3, 1, 4]).word (t + 1) 0)).1 ≠ 4 ∧
        (memberOf exScoreVocab ((sentenceBatch [3, 1, 4]).word (t + 1) 0)).2 = 1 ∧
        exScoreVocab.oosProbs.bind (fun r => r[(sentenceBatch [3, 1, 4]).word (t + 1) 0]?) = some (some 1) := by
      clear hx
      revert t
      decide +kernel
    obtain ⟨z, _, n1, _⟩ := networkScore_unk_lt hv hu hm hout hns true (sentenceBatch [3, 1, 4]) t 0 hw.1 (by simp [sentenceBatch]) hw.2.1
    obtain ⟨l, q, w1, w2, w3⟩ := hx.2 ⟨rfl, show exScoreVocab.unigram ≠ none by decide⟩
    have w1' : exScoreVocab.oosProbs = some l := w1
    have e := hw.2.2.2
    rw [w1', Option.bind_some, w2] at e
    cases e
    have n1' : sc.networkScore (sentenceBatch [3, 1, 4]) t 0 = .fin z := n1
    have e1 : sc.log (memberOf sc.vocab ((sentenceBatch [3, 1, 4]).word (t + 1) 0)).2 = .fin 0 := by
      have : (memberOf sc.vocab ((sentenceBatch [3, 1, 4]).word (t + 1) 0)).2 = 1 := hw.2.2.1
      rw [this]
      exact fltLog_one
    have e2 : sc.log 1 = .fin 0 := fltLog_one
    rw [n1', e1] at w3
    simp only [e2] at w3
    exact ⟨_, w3⟩
  have hids : ∀ ids, List.Forall₂ (fun (p : Tok) id => IdOf exScoreVocab false 5 p.1 id) [(sos, 0), ("a".toList, 0), (eos, 0)] ids →
      ids = [3, 1, 4] := by
    intro ids h
    refine forall₂_unique (R := fun (p : Tok) id => IdOf exScoreVocab false 5 p.1 id)
      (fun _ _ _ a b => idOf_unique (constructible_nodup hv) a b) h ?_
    exact .cons (.known _ 3 (by decide +kernel) nofun) (.cons (.known _ 1 (by decide +kernel) nofun)
      (.cons (.known _ 4 (by decide +kernel) nofun) .nil))
  cases s1 with
  | cons h1 h2 =>
    cases h2
    obtain ⟨ids, i1, i2⟩ := h1
    cases hids ids i1
    have hpos : ((sentenceBatch [3, 1, 4]).positions.filter (fun p => decide (sc.Included (sentenceBatch [3, 1, 4]) p.1 p.2))) =
        [(0, 0), (1, 0)] := by
      rw [List.filter_congr (q := fun p => decide ((exScorer true false).Included (sentenceBatch [3, 1, 4]) p.1 p.2))
        (fun p _ => by rw [decide_eq_decide]; exact Iff.rfl)]
      decide +kernel
    unfold Scorer.IncludedScores at i2
    rw [hpos] at i2
    cases i2 with
    | cons a1 a2 =>
      cases a2 with
      | cons a2 a3 =>
        cases a3
        obtain ⟨y1, rfl⟩ := hfin 0 (by simp) _ a1
        obtain ⟨y2, rfl⟩ := hfin 1 (by simp) _ a2
        have : ∃ p, r = .ok (.fin p) := by
          generalize hg : [[Flt.fin y1, Flt.fin y2]].flatten = fl at s2
          cases s2 with
          | perplexity xs hne => exact ⟨_, rfl⟩
          | noWords => cases hg
          | notFinite scores h =>
            obtain ⟨x, hx, hy⟩ := h
            rw [← hg] at hx
            simp at hx
            rcases hx with rfl | rfl
            · exact absurd rfl (hy _)
            · exact absurd rfl (hy _)
        obtain ⟨p, rfl⟩ := this
        exact ⟨p, s3 2 (by omega)⟩

set_option synthInstance.maxSize 2000 in
theorem exTrained_created (env : CreateEnv ℝ) (he : env = exampleModelEnv ∨ env = { exampleModelEnv with rand := fun _ _ is => 2 * is.sum + 1 }) :
    ∃ net, createNetwork env (exampleSmall "q") = .ok net ∧ net.output = 3 ∧ (∀ c ∈ net.layers, c.layer.Forward) ∧
    (∃ c, net.layers[3]? = some c ∧ ∃ b u, c.layer = .softmax b u) ∧ (∀ c ∈ net.layers.take 3, ¬ ∃ b u, c.layer = .softmax b u) ∧
    (∀ c ∈ net.layers, Connected net.layers c ∧ Placed c) ∧ (∀ c ∈ net.layers, '/' ∉ c.name ∧ ∀ d ∈ c.layer.devices, '/' ∉ d.getD []) ∧
    (∀ d ∈ networkParams net.layers, ∀ v ∈ (optVariables .nesterov : List (Str × ℝ)), PlainPath v.1 d.1) ∧
    ∃ opt, createOptimizer .nesterov (networkParams net.layers) = .ok opt ∧ 0 < opt.vars.length := by
  rcases he with rfl | rfl <;> decide +kernel

/-- Training for one update: the parameters are `true` after the update, the validation perplexity is computed after every update. -/
noncomputable def exTrainedEnv (p : Bool → ℝ) : TrainEnv ℝ Bool Unit Unit Unit where
  next := fun _ => (some (), ())
  saveIter := fun _ => ()
  loadIter := fun _ _ => ()
  updateBatch := fun _ _ _ => true
  perplexity := fun x => .ok (p x)
  hasValidation := true
  samples := 1
  statistic := ⟨fun l => l.headD 0, none⟩
  frequency := 1
  updatesPerEpoch := 1
  patience := -1
  maxEpochs := 1
  criterion := .epochCount

theorem exTrained_reachable (p : Bool → ℝ) : ∃ t, TrainReachable (exTrainedEnv p) t ∧ t.file = some ⟨true, 1, (), 1, 1, [p true]⟩ := by
  refine ⟨_, .step _ (.step _ (.start false 1 () _ rfl)), ?_⟩
  simp [Trainer.step, Trainer.startEpoch, Trainer.batchStep, Trainer.validate, Trainer.finishValidation, exTrainedEnv, isScheduled,
    Trainer.candidateCost, Stopper.startNewMinibatch, Criterion.initial, Trainer.hasImproved, Trainer.setCandidateState, Trainer.getState,
    lastIndex]

/-- The train command has been run for one update: the network has other parameters than in the beginning, and the validation perplexity of
the sentence `a` has been computed, with or without the option to exclude `<unk>`. -/
theorem exTrained (excludeUnk : Bool) : ∃ net p t f sf layers,
    TrainedModel exParsers exampleModelEnv exScoreVocab 5 exampleModelEnv (exampleSmall "q") net (exTrainedEnv p) t f excludeUnk "a\n".toList sf
      layers ∧
    (∃ c b u, net.layers[net.output]? = some c ∧ c.layer = .softmax b u) ∧
    (∀ k c, k < net.output → net.layers[k]? = some c → c.layer.NotSoftmax) := by
  obtain ⟨net, h1, h2, h3, ⟨c, hc, b, u, hl⟩, h5, h6, h7, h8, opt, h9, _⟩ := exTrained_created _ (.inl rfl)
  obtain ⟨net', h1', h2', h3', ⟨c', hc', b', u', hl'⟩, h5', h6', _⟩ := exTrained_created _ (.inr rfl)
  have hp : PriorFits exampleModelEnv (exampleSmall "q") := fun p hp => by cases hp
  have hp' : PriorFits { exampleModelEnv with rand := fun _ _ is => 2 * is.sum + 1 } (exampleSmall "q") := fun p hp => by cases hp
  have hsame : SameNetwork net.layers net'.layers := by
    have key := createNetwork_same (env := exampleModelEnv) (env' := { exampleModelEnv with rand := fun _ _ is => 2 * is.sum + 1 })
      ⟨rfl, rfl, rfl, rfl, rfl, rfl, rfl, rfl⟩ (a := exampleSmall "q") (b := exampleSmall "q")
      (List.forall₂_same.mpr fun d hd => rfl) (List.forall₂_same.mpr fun d _ k => rfl) rfl hp hp'
    rw [h1, h1'] at key
    cases key with
    | ok h => exact h.1
  have hrefl : SameNetwork net.layers net.layers := by
    have key := createNetwork_same (env := exampleModelEnv) (env' := exampleModelEnv)
      ⟨rfl, rfl, rfl, rfl, rfl, rfl, rfl, rfl⟩ (a := exampleSmall "q") (b := exampleSmall "q")
      (List.forall₂_same.mpr fun d hd => rfl) (List.forall₂_same.mpr fun d _ k => rfl) rfl hp hp
    rw [h1] at key
    cases key with
    | ok h => exact h.1
  have hu : exScoreVocab.wordToId unk = some 5 := by decide +kernel
  have hv := exScoreVocab_constructible
  have hunk : ∀ i, exScoreVocab.wordToId unk = some i → exScoreVocab.classOf[i]? = some exampleModelEnv.unkClass := by
    intro i hi
    rw [hu] at hi
    cases hi
    rfl
  have hm : ∀ (layers : List (Created ℝ)), SameNetwork net.layers layers → (∃ c b u, layers[3]? = some c ∧ c.layer = .softmax b u) →
      ModelOf exampleModelEnv (exampleSmall "q") exScoreVocab layers 3 := by
    rintro layers hs ⟨c, b, u, hc, hl⟩
    exact ⟨⟨net, h1, h2, hs, h6⟩, hp, rfl, rfl, hunk, c, hc, .inl ⟨b, u, hl⟩⟩
  have hns : ∀ (l : List (Created ℝ)), (∀ c ∈ l.take 3, ¬ ∃ b u, c.layer = .softmax b u) → ∀ k c, k < 3 → l[k]? = some c →
      c.layer.NotSoftmax := by
    intro l hl k c hk hc b u hbu
    refine hl c (List.mem_of_getElem? (i := k) ?_) ⟨b, u, hbu⟩
    rw [List.getElem?_take, if_pos hk, hc]
  obtain ⟨p0, hp0⟩ := exTrained_perplexity net.layers (hm _ hrefl ⟨c, b, u, hc, hl⟩) h3 ⟨c, b, u, hc, hl⟩ (hns _ h5) excludeUnk
  obtain ⟨p1, hp1⟩ := exTrained_perplexity net'.layers (hm _ hsame ⟨c', b', u', hc', hl'⟩) h3' ⟨c', b', u', hc', hl'⟩ (hns _ h5') excludeUnk
  obtain ⟨t, ht, hfile⟩ := exTrained_reachable (fun b => if b then p1 else p0)
  obtain ⟨st, hst⟩ : ∃ st, exScoreVocab.getState ⟨none, none, none, none⟩ = .ok st := ⟨_, rfl⟩
  have hs : TrainSetup exampleModelEnv (exampleSmall "q") net .nesterov opt :=
    ⟨⟨by decide, by decide, by decide +kernel⟩, h1, fun c hc => ⟨(h7 c hc).1, fun d hd => (h7 c hc).2 (some d) hd⟩, h8, h9⟩
  let obj : TrainObjects ℝ := ⟨createdArchitecture exampleModelEnv (exampleSmall "q"), net'.layers, opt, 1, ⟨⟨[2, 0, 1], 1, 1⟩, [], false⟩,
    1, 1, [p1], none⟩
  have hobj : TrainingOf exampleModelEnv (exampleSmall "q") net opt obj :=
    ⟨rfl, hsame, List.forall₂_same.2 fun d _ => ⟨rfl, rfl⟩, rfl, by simp [obj]⟩
  obtain ⟨sf, hsf⟩ := (C106_saves_partial (vocab := some st) hs _ hobj).1 _ .new
  refine ⟨net, fun b => if b then p1 else p0, t, ⟨true, 1, (), 1, 1, [p1]⟩, sf, net'.layers, ?_, ⟨c, b, u, by rw [h2]; exact hc, hl⟩, by rw [h2]; exact hns _ h5⟩
  · refine ⟨⟨none, .words, none, [], 0, [], [], [], ⟨some st, true⟩, ⟨some st, true⟩, ?_, ?_, .nesterov, opt, hs, obj,
      .saved .new hobj hsf, rfl⟩, hu, ?_, ⟨fun b => if b then net'.layers else net.layers, 2, ⟨rfl, ?_⟩, by omega, rfl⟩, ht, hfile,
      by decide, ?_, hp, h6, ⟨c, by rw [h2]; exact hc, .inl ⟨b, u, hl⟩⟩, h3, exScoreVocab_nonneg, by decide +kernel, ?_⟩
    · rintro st' h
      cases h
      exact ⟨_, hv, hst⟩
    · unfold startTrain
      rw [C90_stored exParsers none .words none [] st true _ hv (by decide) hst]
      rfl
    · rfl
    · intro x p hx
      rw [h2]
      cases x <;> cases hx
      · exact hp0
      · exact hp1
    · have : ∀ d ∈ (exampleSmall "q").inputs ++ (exampleSmall "q").layers, ∀ e ∈ d,
          (match e.2 with | .one _ => true | .many vs => decide (vs.length ≤ 10)) = true := by decide +kernel
      intro d hd k vs hk
      simpa using this d hd _ hk
    · intro u hu
      cases hu
      decide +kernel

/-- A case that meets the hypotheses of `C116_partial`. -/
example : ∃ net p t f sf layers,
    TrainedModel exParsers exampleModelEnv exScoreVocab 5 exampleModelEnv (exampleSmall "q") net (exTrainedEnv p) t f false "a\n".toList sf
      layers ∧ SameMachine exampleModelEnv exampleModelEnv := by
  obtain ⟨net, p, t, f, sf, layers, h, _⟩ := exTrained false
  exact ⟨net, p, t, f, sf, layers, h, ⟨rfl, rfl, rfl, rfl, rfl⟩⟩

/-- C116 is violated with the option to exclude `<unk>`: the perplexities of the sentence `a` that the train command and the score command
report are different. -/
theorem C116_violated : ∃ net perplexity t f sf layers,
    TrainedModel exParsers exampleModelEnv exScoreVocab 5 exampleModelEnv (exampleSmall "q") net (exTrainedEnv perplexity) t f true
      "a\n".toList sf layers ∧ SameMachine exampleModelEnv exampleModelEnv ∧
    ∀ (showNum : Flt ℝ → Str), (∀ x, '\n' ∉ showNum x) → ∀ log base, ∃ p p', finishTrain (exTrainedEnv perplexity) t = .ok (some (.best p)) ∧
      p' < p ∧ ∃ N out, (∀ fuel, N ≤ fuel → scoreReal showNum log exampleModelEnv sf true true base fuel "a\n".toList = .ok (some (out, none))) ∧
        (fileLines out).getLast? = some ("Perplexity: ".toList ++ showNum (.fin p') ++ "\n".toList) := by
  obtain ⟨net, p, t, f, sf, layers, h, hout, hns⟩ := exTrained true
  have hm : SameMachine exampleModelEnv exampleModelEnv := ⟨rfl, rfl, rfl, rfl, rfl⟩
  refine ⟨net, p, t, f, sf, layers, h, hm, fun showNum hnl log base => ?_⟩
  have hcls : ∀ w, w ≠ 5 → exScoreVocab.classOf[w]? ≠ exScoreVocab.classOf[5]? := by
    intro w hw
    by_cases h6 : w < 6
    · interval_cases w <;> first | exact absurd rfl hw | decide
    · rw [List.getElem?_eq_none (by show 6 ≤ w; omega)]
      decide
  refine C116_violated_exclude h hm hout hns hcls [[(sos, 0), ("a".toList, 0), (eos, 0)]] ?_ ?_ showNum hnl log base
  · rw [sequences_iff _ _ (by simp)]
    decide +kernel
  · intro seq hseq tok htok id hid
    have hv := constructible_nodup exScoreVocab_constructible
    rcases List.mem_singleton.mp hseq with rfl
    have key : ∃ i < 6, IdOf exScoreVocab false 5 tok.1 i := by
      simp only [List.mem_cons, List.not_mem_nil, or_false] at htok
      rcases htok with rfl | rfl | rfl
      · exact ⟨3, by omega, .known _ 3 (by decide +kernel) nofun⟩
      · exact ⟨1, by omega, .known _ 1 (by decide +kernel) nofun⟩
      · exact ⟨4, by omega, .known _ 4 (by decide +kernel) nofun⟩
    obtain ⟨i, hi, hi'⟩ := key
    rw [idOf_unique hv hid hi']
    exact hi

end TheanoLM
