import Verif.Lemmas.TrainerStateFile
/-!
# The training state in a model file (C106)
-/
set_option linter.unusedSectionVars false
namespace TheanoLM

section
variable {S : Type} [Field S] [LinearOrder S]
variable {env : CreateEnv S} {a : Architecture} {net : CreatedNetwork S} {method : OptMethod} {opt : Params S} {vocab : Option VocabState}

/-- C106: restoring the state from a model file gives exactly the state that was saved last: the values of the parameters of the network
and the optimizer, the learning rate, the order of the training sentences and the position in it, the epoch and the update number, and
the cost history.  The last cost in the history is the one of the candidate.  The vocabulary in the file has not changed. -/
theorem C106 (hs : TrainSetup env a net method opt) {f : StateFile S} {t : TrainObjects S} (h : ModelSaved env a net opt vocab f (some t))
    (t' : TrainObjects S) (ht' : TrainingOf env a net opt t') :
    resetTraining t' f = .ok { t with
      iter := { t'.iter with src := { t'.iter.src with order := t.iter.src.order, nextLine := t.iter.src.nextLine } }
      candidateIndex := if t.costs = [] then none else some (t.costs.length - 1) } ∧
    f.vocab = vocab := by
  obtain ⟨c1, _, c3⟩ := h.content hs
  obtain ⟨ht, hf⟩ := c3 t rfl
  refine ⟨?_, c1⟩
  have hlayers : restoreLayers f.data t'.layers = .ok t.layers := by
    rw [restoreLayers_erase f.data (ht'.layers.erase.symm.trans ht.layers.erase), restoreLayers_saved ht.layers]
    intro c hc p hp
    exact hf.values p (List.mem_append_left _ (List.mem_flatMap.mpr ⟨c, hc, hp⟩))
  have harch : t'.arch.checkState f.arch = .ok () := by
    rw [ht'.arch, hf.arch, C51_self _ (createdArchitecture_valid env hs.valid)]
  have hopt : restoreOptimizer f t'.optParams = .ok (t.optParams, t.learningRate) := by
    unfold restoreOptimizer Params.restore
    rw [hf.optimizer]
    simp only
    rw [mapE_restore (forall₂_shapes_trans ht'.params ht.params) fun d hd => hf.values d (List.mem_append_right _ hd)]
    simp only
    rw [← ht'.size, ht.size]
  unfold resetTraining
  rw [hlayers]
  simp only
  rw [harch]
  simp only
  rw [hf.trainer]
  simp only
  rw [hf.iterator]
  unfold restoreIterator
  simp only
  rw [if_neg ht.order]
  simp only
  rw [hopt, ht'.arch, ← ht.arch]
  simp only [Option.getD_some, List.length_eq_zero_iff]

/-- C106, saving: the state can always be saved to a file that does not have a state yet.  If the optimizer is not Adam, and the number of
training sentences has not changed, it can be saved again to the same file. -/
theorem C106_saves_partial (hs : TrainSetup env a net method opt) (t : TrainObjects S) (ht : TrainingOf env a net opt t) :
    (∀ f : StateFile S, ModelSaved env a net opt vocab f none → ∃ f', saveTraining t f = .ok f') ∧
    (∃ f', saveTraining t .new = .ok f') ∧
    (method ≠ .adam → ∀ (f : StateFile S) (t0 : TrainObjects S), ModelSaved env a net opt vocab f (some t0) →
      t0.iter.src.order.length = t.iter.src.order.length → ∃ f', saveTraining t f = .ok f') := by
  have hnew : ∀ vocab, ∃ f', saveTraining t { StateFile.new with vocab := vocab } = .ok f' := by
    intro vocab
    obtain ⟨data, hd⟩ := saveParams_ok (file := []) (ht.nodup hs) (ht.conflict hs) (fun d _ =>
      ⟨fun old ho => (by cases ho), fun _ path hp => (by cases hp)⟩)
    exact saveTraining_succeeds hd rfl
  refine ⟨fun f hf => ?_, hnew none, fun hm f t0 hf hl => ?_⟩
  · rw [(hf.content hs).2.1 rfl]
    exact hnew vocab
  · obtain ⟨ht0, hh⟩ := (hf.content hs).2.2 t0 rfl
    have hsame : List.Forall₂ SameShape t0.allParams t.allParams :=
      List.rel_append (sameNetwork_trans ht0.layers.params ht.layers.params)
        (sameNetwork_trans (sameShape_of_forall ht0.params (hs.shapes ht0 hm)) (sameShape_of_forall ht.params (hs.shapes ht hm)))
    obtain ⟨data, hd⟩ := saveParams_again hsame hh.values (ht.nodup hs) (ht.conflict hs)
    refine saveTraining_succeeds (it := ⟨some t.iter.src.order, some t.iter.src.nextLine⟩) hd ?_
    rw [hh.iterator]
    unfold saveIterator
    simp only [Option.getD_some]
    rw [if_pos hl]

/-- C106, saving, is violated by Adam: once a file has a state, saving to it directly always fails, because the number of time steps is
a scalar.  Training without validation data saves the state to the model file after every epoch. -/
theorem C106_violated_adam (hs : TrainSetup env a net .adam opt) {f : StateFile S} {t0 : TrainObjects S}
    (h : ModelSaved env a net opt vocab f (some t0)) (t : TrainObjects S) (ht : TrainingOf env a net opt t) :
    saveTraining t f = .error .typeError := by
  obtain ⟨ht0, hh⟩ := (h.content hs).2.2 t0 rfl
  have hn : (t.allParams.map Prod.fst).Nodup := ht.nodup hs
  have hc := ht.conflict hs
  have hn' := hn
  unfold TrainObjects.allParams at hn hc
  rw [List.map_append, List.nodup_append] at hn
  rw [List.pairwise_append] at hc
  obtain ⟨d1, hd1⟩ := saveParams_again (sameNetwork_trans ht0.layers.params ht.layers.params)
    (fun d hd => hh.values d (List.mem_append_left _ hd)) hn.1 hc.1
  rw [saveTraining_eq, hd1]
  simp only
  unfold saveIterator
  rw [hh.iterator]
  simp only [Option.getD_some]
  split
  · rename_i e it heq
    split at heq
    · cases heq
    · cases heq
      rfl
  · rename_i it heq
    have hv : opt.vars = ("optimizer/timestep".toList, ⟨[], [0]⟩) :: (networkParams net.layers).flatMap fun d =>
        (optVariables .adam).map fun v => (d.1 ++ v.1, ⟨d.2.shape, d.2.data.map fun _ => v.2⟩) := by
      rw [hs.names.1]
      unfold optimizerParams
      rw [if_pos rfl]
      rfl
    have h0 := ht0.params
    have h1 := ht.params
    rw [hv] at h0 h1
    cases e0 : t0.optParams.vars with
    | nil => rw [e0] at h0; cases h0
    | cons x0 r0 =>
      cases e1 : t.optParams.vars with
      | nil => rw [e1] at h1; cases h1
      | cons x1 r1 =>
        rw [e0] at h0
        rw [e1] at h1
        cases h0 with
        | cons a0 _ =>
          cases h1 with
          | cons a1 _ =>
            have hx0 := hh.values x0 (List.mem_append_right _ (by rw [e0]; simp))
            have hnot : dictGet? (networkParams t.layers) x1.1 = none := by
              rw [dictGet?_none]
              intro hm
              exact hn.2.2 _ hm _ (by rw [e1]; simp) rfl
            have hg : dictGet? d1 x1.1 = some x0.2 := by
              rw [saveParams_get hn.1 hd1, hnot, ← a1.1, a0.1, hx0]
              rfl
            have : saveParams (x1 :: r1) d1 = .error .typeError := by
              rw [saveParams]
              unfold saveParam
              rw [hg]
              simp only
              rw [if_pos a0.2.symm]
            rw [this]

/-- C106, files that do not have a state, or from which a part of it has been removed: the state is not restored. -/
theorem C106_missing (hs : TrainSetup env a net method opt) {f : StateFile S} {t : TrainObjects S}
    (h : ModelSaved env a net opt vocab f (some t)) (t' : TrainObjects S) (ht' : TrainingOf env a net opt t') :
    resetTraining t' { f with trainer := none } = .error .incompatibleState ∧
    resetTraining t' { f with iterator := none } = .error .incompatibleState ∧
    resetTraining t' { f with optimizer := none } = .error .incompatibleState := by
  obtain ⟨ht, hf⟩ := (h.content hs).2.2 t rfl
  have hlayers : restoreLayers f.data t'.layers = .ok t.layers := by
    rw [restoreLayers_erase f.data (ht'.layers.erase.symm.trans ht.layers.erase), restoreLayers_saved ht.layers]
    intro c hc p hp
    exact hf.values p (List.mem_append_left _ (List.mem_flatMap.mpr ⟨c, hc, hp⟩))
  have harch : t'.arch.checkState f.arch = .ok () := by
    rw [ht'.arch, hf.arch, C51_self _ (createdArchitecture_valid env hs.valid)]
  refine ⟨?_, ?_, ?_⟩
  · unfold resetTraining
    simp only
    rw [hlayers]
    simp only
    rw [harch]
  · unfold resetTraining
    simp only
    rw [hlayers]
    simp only
    rw [harch]
    simp only
    rw [hf.trainer]
    rfl
  · unfold resetTraining
    simp only
    rw [hlayers]
    simp only
    rw [harch]
    simp only
    rw [hf.trainer]
    simp only
    rw [hf.iterator]
    unfold restoreIterator
    simp only
    rw [if_neg ht.order]
    rfl

theorem restored_vars {file vars vars' : List (Str × Arr S)} (h : mapE (restoreParam file) vars = .ok vars') :
    vars'.map Prod.fst = vars.map Prod.fst ∧ ∀ d ∈ vars', Holds file d.1 d.2 := by
  induction vars generalizing vars' with
  | nil => injection h with h; rw [← h]; exact ⟨rfl, fun d hd => by cases hd⟩
  | cons d vars ih =>
    obtain ⟨b, bs, hb, hbs, rfl⟩ := mapE_cons_ok h
    obtain ⟨i1, i2⟩ := ih hbs
    unfold restoreParam at hb
    cases hd : dictGet? file d.1 with
    | none =>
      rw [hd] at hb
      simp only at hb
      split at hb <;> cases hb
    | some v =>
      rw [hd] at hb
      simp only at hb
      split at hb
      · cases hb
        refine ⟨by rw [List.map_cons, List.map_cons, i1], fun x hx => ?_⟩
        rcases List.mem_cons.1 hx with rfl | hx
        · exact hd
        · exact i2 x hx
      · cases hb

/-- C106, any file: whatever is restored was in the file. -/
theorem C106_source (t r : TrainObjects S) (f : StateFile S) (h : resetTraining t f = .ok r) :
    (∃ g, f.trainer = some g ∧ g.epoch = some r.epoch ∧ g.update = some r.update ∧ g.costs.getD [] = r.costs) ∧
    f.iterator = some ⟨some r.iter.src.order, some r.iter.src.nextLine⟩ ∧ r.iter.src.order ≠ [] ∧
    f.optimizer = some (some r.learningRate) ∧ f.arch ≠ none ∧ r.arch = t.arch ∧
    r.optParams.vars.map Prod.fst = t.optParams.vars.map Prod.fst ∧ ∀ d ∈ r.optParams.vars, Holds f.data d.1 d.2 := by
  unfold resetTraining at h
  split at h
  · cases h
  · rename_i layers h1
    split at h
    · cases h
    · rename_i h2
      split at h
      · cases h
      · rename_i g h3
        split at h
        · cases h
        · rename_i epoch h4
          split at h
          · cases h
          · rename_i update h5
            split at h
            · cases h
            · rename_i iter h6
              split at h
              · cases h
              · rename_i optParams lr h7
                cases h
                have harch : f.arch ≠ none := by
                  intro e
                  rw [e] at h2
                  cases h2
                have hit : f.iterator = some ⟨some iter.src.order, some iter.src.nextLine⟩ ∧ iter.src.order ≠ [] := by
                  unfold restoreIterator at h6
                  split at h6
                  · cases h6
                  · rename_i gi hgi
                    split at h6
                    · cases h6
                    · rename_i order ho
                      split at h6
                      · cases h6
                      · rename_i hne
                        split at h6
                        · cases h6
                        · rename_i n hn
                          cases h6
                          refine ⟨?_, hne⟩
                          rw [hgi, ← ho, ← hn]
                have hop : f.optimizer = some (some lr) ∧ mapE (restoreParam f.data) t.optParams.vars = .ok optParams.vars := by
                  unfold restoreOptimizer at h7
                  split at h7
                  · cases h7
                  · cases h7
                  · rename_i lr' hlr
                    unfold Params.restore at h7
                    cases hm : mapE (restoreParam f.data) t.optParams.vars with
                    | error e => rw [hm] at h7; cases h7
                    | ok vars =>
                      rw [hm] at h7
                      cases h7
                      exact ⟨hlr, rfl⟩
                have hvars := restored_vars hop.2
                exact ⟨⟨g, h3, h4, h5, rfl⟩, hit.1, hit.2, hop.1, harch, rfl, hvars.1, hvars.2⟩

end

/-! ## Cases that meet the hypotheses -/

instance (s path : Str) : Decidable (PlainPath s path) := inferInstanceAs (Decidable (∀ part ∈ comps path, ¬ s <:+ part))

/-- A state with the given parameters. -/
def exampleObjects (layers : List (Created ℚ)) (optParams : Params ℚ) (epoch nextLine : Nat) (costs : List ℚ) : TrainObjects ℚ :=
  ⟨createdArchitecture exampleEnv exampleDescription, layers, optParams, 1 / 10 ^ epoch, ⟨⟨[2, 0, 1], nextLine, epoch⟩, [], false⟩, epoch, 7, costs, none⟩

set_option synthInstance.maxSize 2000 in
theorem exampleSetup_created : ∃ net, createNetwork exampleEnv exampleDescription = .ok net ∧
    (∀ c ∈ net.layers, '/' ∉ c.name ∧ ∀ d ∈ c.layer.devices, '/' ∉ d.getD []) ∧
    (∀ d ∈ networkParams net.layers, ∀ v ∈ (optVariables .nesterov : List (Str × ℚ)), PlainPath v.1 d.1) ∧
    (∀ d ∈ networkParams net.layers, ∀ v ∈ (optVariables .adam : List (Str × ℚ)), PlainPath v.1 d.1) ∧
    (∃ opt, createOptimizer .nesterov (networkParams net.layers) = .ok opt ∧ opt.vars ≠ []) ∧
    ∃ opt, createOptimizer .adam (networkParams net.layers) = .ok opt ∧ opt.vars ≠ [] := by
  decide +kernel

theorem example_same {net net' : CreatedNetwork ℚ} (h1 : createNetwork exampleEnv exampleDescription = .ok net)
    (h2 : createNetwork exampleOther exampleDescription = .ok net') : SameNetwork net.layers net'.layers := by
  have key := createNetwork_same exampleOther_same (a := exampleDescription) (b := exampleDescription)
    (List.forall₂_same.mpr fun d _ => rfl) (List.forall₂_same.mpr fun d _ k => rfl) rfl exampleDescription_prior exampleOther_prior
  rw [h1, h2] at key
  cases key with
  | ok h => exact h.1

theorem example_refl {net : CreatedNetwork ℚ} (h1 : createNetwork exampleEnv exampleDescription = .ok net) :
    SameNetwork net.layers net.layers := by
  have key := createNetwork_same (env := exampleEnv) (env' := exampleEnv) ⟨rfl, rfl, rfl, rfl, rfl, rfl, rfl, rfl⟩ (a := exampleDescription)
    (b := exampleDescription) (List.forall₂_same.mpr fun d _ => rfl) (List.forall₂_same.mpr fun d _ k => rfl) rfl exampleDescription_prior
    exampleDescription_prior
  rw [h1] at key
  cases key with
  | ok h => exact h.1

/-- A case that meets the hypotheses of `C106`, `C106_saves_partial` and `C106_missing`: the state is saved to the model file, and then
another state, with other values of the parameters of the network and the optimizer, is saved before validation and copied to the model
file. -/
example : ∃ net opt, TrainSetup exampleEnv exampleDescription net .nesterov opt ∧
    ∃ t t' : TrainObjects ℚ, TrainingOf exampleEnv exampleDescription net opt t ∧ TrainingOf exampleEnv exampleDescription net opt t' ∧
      networkParams t.layers ≠ networkParams t'.layers ∧ t.optParams ≠ t'.optParams ∧ t.iter.src.nextLine ≠ t'.iter.src.nextLine ∧
      ∃ f f', ModelSaved exampleEnv exampleDescription net opt none f (some t) ∧
        ModelSaved exampleEnv exampleDescription net opt none f' (some { t' with costs := [5, 3] }) ∧
        ∃ r, resetTraining t f' = .ok r ∧ networkParams r.layers = networkParams t'.layers ∧ r.candidateIndex = some 1 := by
  obtain ⟨net, h1, h2, h3, _, ⟨opt, h4, h5⟩, _⟩ := exampleSetup_created
  obtain ⟨net0, g1, _, net', g2, g3⟩ := exampleDescription_created
  rw [h1] at g1
  cases g1
  have hn : NoSlash net.layers := fun c hc => ⟨(h2 c hc).1, fun d hd => (h2 c hc).2 (some d) hd⟩
  have hs : TrainSetup exampleEnv exampleDescription net .nesterov opt := ⟨exampleDescription_valid, h1, hn, h3, h4⟩
  let opt' : Params ℚ := ⟨opt.vars.map fun d => (d.1, ⟨d.2.shape, 8 :: d.2.data⟩), opt.totalSize⟩
  have ht : TrainingOf exampleEnv exampleDescription net opt (exampleObjects net.layers opt 0 1 [5]) :=
    ⟨rfl, example_refl h1, List.forall₂_same.2 fun d _ => ⟨rfl, rfl⟩, rfl, by simp [exampleObjects]⟩
  have ht' : TrainingOf exampleEnv exampleDescription net opt (exampleObjects net'.layers opt' 1 2 [5]) := by
    refine ⟨rfl, example_same h1 g2, ?_, rfl, by simp [exampleObjects]⟩
    show List.Forall₂ _ opt.vars (opt.vars.map _)
    rw [List.forall₂_map_right_iff]
    exact List.forall₂_same.2 fun d _ => ⟨rfl, rfl⟩
  have hne : opt ≠ opt' := by
    intro e
    have e2 : opt.vars = opt.vars.map fun d => (d.1, ⟨d.2.shape, 8 :: d.2.data⟩) := congrArg Params.vars e
    cases hv : opt.vars with
    | nil => exact h5 hv
    | cons d ds =>
      rw [hv] at e2
      have := congrArg (fun l => (l.map fun d : Str × Arr ℚ => d.2.data.length).head?) e2
      simp at this
  obtain ⟨f, hf⟩ := (C106_saves_partial (vocab := none) hs _ ht).1 _ .new
  obtain ⟨st, hst⟩ := (C106_saves_partial (vocab := none) hs _ ht').2.1
  have s1 := ModelSaved.saved .new ht hf
  have s2 := ModelSaved.validated (costs := [5, 3]) s1 ht' hst
  exact ⟨net, opt, hs, _, _, ht, ht', g3, hne, by simp [exampleObjects], f, _, s1, s2, _, (C106 hs s2 _ ht).1, rfl, rfl⟩

/-- A case that meets the hypotheses of `C106_violated_adam`. -/
example : ∃ net opt, TrainSetup exampleEnv exampleDescription net .adam opt ∧ ∃ t f,
    ModelSaved exampleEnv exampleDescription net opt none f (some t) ∧ TrainingOf exampleEnv exampleDescription net opt t := by
  obtain ⟨net, h1, h2, _, h3, _, ⟨opt, h4, _⟩⟩ := exampleSetup_created
  have hn : NoSlash net.layers := fun c hc => ⟨(h2 c hc).1, fun d hd => (h2 c hc).2 (some d) hd⟩
  have hs : TrainSetup exampleEnv exampleDescription net .adam opt := ⟨exampleDescription_valid, h1, hn, h3, h4⟩
  have ht : TrainingOf exampleEnv exampleDescription net opt (exampleObjects net.layers opt 0 1 [5]) :=
    ⟨rfl, example_refl h1, List.forall₂_same.2 fun d _ => ⟨rfl, rfl⟩, rfl, by simp [exampleObjects]⟩
  obtain ⟨f, hf⟩ := (C106_saves_partial (vocab := none) hs _ ht).1 _ .new
  exact ⟨net, opt, hs, _, f, .saved .new ht hf, ht⟩

/-- A projection on the devices `dev0` and `dev0_velocity`, and a softmax layer. -/
def exampleCollision : Architecture where
  inputs := [[("type".toList, .one (.str "word".toList)), ("name".toList, .one (.str "w".toList))]]
  layers := [
    [("type".toList, .one (.str "projection".toList)), ("name".toList, .one (.str "p".toList)),
      ("inputs".toList, .many [.str "w".toList]), ("size".toList, .one (.int 2)),
      ("devices".toList, .many [.str "dev0".toList, .str "dev0_velocity".toList])],
    exampleLayer "softmax" "o" ["p"] []]
  outputLayer := .str "o".toList

/-- C106 is violated when a device is called `dev0_velocity`: a parameter of the network and a variable of the optimizer are saved under
the same name, and restoring the state changes the parameter. -/
theorem C106_violated_device : ∃ net, createNetwork exampleEnv exampleCollision = .ok net ∧
    ∃ opt, createOptimizer .nesterov (networkParams net.layers) = .ok opt ∧
    ∃ f, saveTraining { exampleObjects net.layers opt 0 1 [5] with arch := createdArchitecture exampleEnv exampleCollision } .new = .ok f ∧
    ∃ r, resetTraining { exampleObjects net.layers opt 0 1 [5] with arch := createdArchitecture exampleEnv exampleCollision } f = .ok r ∧
      networkParams r.layers ≠ networkParams net.layers := by
  decide +kernel

end TheanoLM
