import Verif.Props.TrainerStateSpec
import Verif.Props.Architecture
/-!
# Lemmas: the content of a model file
-/
set_option linter.unusedSectionVars false
namespace TheanoLM

section
variable {S : Type} [Field S] [LinearOrder S]

/-- All the parameters. -/
def TrainObjects.allParams (t : TrainObjects S) : List (Str × Arr S) := networkParams t.layers ++ t.optParams.vars

variable {env : CreateEnv S} {a : Architecture} {net : CreatedNetwork S} {method : OptMethod} {opt : Params S}

theorem TrainSetup.names (h : TrainSetup env a net method opt) :
    opt.vars = optimizerParams method (networkParams net.layers) ∧
    ((networkParams net.layers ++ opt.vars).map Prod.fst).Pairwise fun k k' => Incomp (comps k) (comps k') := by
  obtain ⟨hp1, hp2⟩ := createNetwork_paths h.network
  have hinc := training_names method rfl (networkParams_incomp hp1 hp2 h.noSlash) (networkParams_layers hp2 h.noSlash)
    (fun k hk v hv => by
      obtain ⟨d, hd, rfl⟩ := List.mem_map.1 hk
      exact h.plain d hd v hv)
  have hnd : (((Params.empty : Params S).vars.map Prod.fst) ++ (optimizerParams method (networkParams net.layers)).map Prod.fst).Nodup := by
    rw [List.pairwise_append] at hinc
    exact hinc.2.1.imp fun h => h.paths.1
  obtain ⟨p', h1, h2⟩ := addAllParams_ok _ _ hnd
  have e : p' = opt := by
    have := h.optimizer
    unfold createOptimizer at this
    rw [h1] at this
    exact Except.ok.inj this
  have e2 : opt.vars = optimizerParams method (networkParams net.layers) := by rw [← e, h2]; rfl
  refine ⟨e2, ?_⟩
  rw [List.map_append, e2]
  exact hinc

theorem forall₂_fst_keys {l l' : List (Str × Arr S)} (h : List.Forall₂ (fun d d' => d.1 = d'.1 ∧ d.2.shape = d'.2.shape) l l') :
    l.map Prod.fst = l'.map Prod.fst := by
  induction h with
  | nil => rfl
  | cons h1 _ ih => rw [List.map_cons, List.map_cons, h1.1, ih]

theorem TrainingOf.keys {t : TrainObjects S} (h : TrainingOf env a net opt t) :
    t.allParams.map Prod.fst = (networkParams net.layers ++ opt.vars).map Prod.fst := by
  unfold TrainObjects.allParams
  rw [List.map_append, List.map_append, ← forall₂_sameShape_keys h.layers.params]
  congr 1
  exact (forall₂_fst_keys h.params).symm

theorem TrainingOf.nodup {t : TrainObjects S} (hs : TrainSetup env a net method opt) (h : TrainingOf env a net opt t) :
    (t.allParams.map Prod.fst).Nodup := by
  rw [h.keys]
  exact hs.names.2.imp fun h => h.paths.1

theorem TrainingOf.conflict {t : TrainObjects S} (hs : TrainSetup env a net method opt) (h : TrainingOf env a net opt t) :
    t.allParams.Pairwise fun d d' => ¬ Conflict d.1 d'.1 := by
  rw [← List.pairwise_map (f := Prod.fst) (R := fun k k' => ¬ Conflict k k'), h.keys]
  exact hs.names.2.imp fun h => h.paths.2

/-- What saving does, in terms of all the parameters. -/
theorem saveTraining_eq (t : TrainObjects S) (f : StateFile S) : saveTraining t f =
    match saveParams (networkParams t.layers) f.data with
    | .error e => .error e
    | .ok d1 =>
      match saveIterator t.iter.src.order t.iter.src.nextLine f.iterator with
      | .error e => .error e
      | .ok iterator =>
        match saveParams t.optParams.vars d1 with
        | .error e => .error e
        | .ok data => .ok ⟨data, some (t.arch.getState f.arch), some ⟨some t.epoch, some t.update, some t.costs⟩, some iterator,
            some (some t.learningRate), f.vocab⟩ := by
  unfold saveTraining saveNetwork
  simp only
  rw [saveLayers_eq]
  cases saveParams (networkParams t.layers) f.data with
  | error e => rfl
  | ok d1 => rfl

theorem saveIterator_ok {order : List Nat} {n : Nat} {g : Option IteratorGroup} {r : IteratorGroup}
    (h : saveIterator order n g = .ok r) : r = ⟨some order, some n⟩ := by
  unfold saveIterator at h
  split at h
  · split at h
    · exact (Except.ok.inj h).symm
    · cases h
  · exact (Except.ok.inj h).symm

theorem saveTraining_ok {t : TrainObjects S} {f f' : StateFile S} (h : saveTraining t f = .ok f') :
    saveParams t.allParams f.data = .ok f'.data ∧ f'.arch = some (t.arch.getState f.arch) ∧
      f'.trainer = some ⟨some t.epoch, some t.update, some t.costs⟩ ∧
      f'.iterator = some ⟨some t.iter.src.order, some t.iter.src.nextLine⟩ ∧ f'.optimizer = some (some t.learningRate) ∧
      f'.vocab = f.vocab := by
  rw [saveTraining_eq] at h
  unfold TrainObjects.allParams
  rw [saveParams_append]
  cases h1 : saveParams (networkParams t.layers) f.data with
  | error e => rw [h1] at h; cases h
  | ok d1 =>
    rw [h1] at h
    simp only at h ⊢
    cases h2 : saveIterator t.iter.src.order t.iter.src.nextLine f.iterator with
    | error e => rw [h2] at h; cases h
    | ok it =>
      rw [h2] at h
      simp only at h
      cases h3 : saveParams t.optParams.vars d1 with
      | error e => rw [h3] at h; cases h
      | ok data =>
        rw [h3] at h
        cases h
        rw [saveIterator_ok h2]
        exact ⟨rfl, rfl, rfl, rfl, rfl, rfl⟩

/-- The file has the state. -/
structure FileHas (env : CreateEnv S) (a : Architecture) (net : CreatedNetwork S) (opt : Params S) (f : StateFile S)
    (t : TrainObjects S) : Prop where
  keys : f.data.map Prod.fst = (networkParams net.layers ++ opt.vars).map Prod.fst
  values : ∀ d ∈ t.allParams, dictGet? f.data d.1 = some d.2
  arch : f.arch = some ((createdArchitecture env a).getState none)
  trainer : f.trainer = some ⟨some t.epoch, some t.update, some t.costs⟩
  iterator : f.iterator = some ⟨some t.iter.src.order, some t.iter.src.nextLine⟩
  optimizer : f.optimizer = some (some t.learningRate)

theorem saved_values {t : TrainObjects S} (hs : TrainSetup env a net method opt) (ht : TrainingOf env a net opt t) {d d' : List (Str × Arr S)}
    (h : saveParams t.allParams d = .ok d') : ∀ p ∈ t.allParams, dictGet? d' p.1 = some p.2 := by
  intro p hp
  rw [saveParams_get (ht.nodup hs) h, dictGet?_of_mem (ht.nodup hs) (show (p.1, p.2) ∈ _ from hp)]
  rfl

/-- Saving to a file without the state. -/
theorem fileHas_new {t : TrainObjects S} (hs : TrainSetup env a net method opt) (ht : TrainingOf env a net opt t) {f f' : StateFile S}
    (hd : f.data = []) (ha : f.arch = none) (h : saveTraining t f = .ok f') : FileHas env a net opt f' t := by
  obtain ⟨h1, h2, h3, h4, h5, h6⟩ := saveTraining_ok h
  refine ⟨?_, saved_values hs ht h1, ?_, h3, h4, h5⟩
  · have := saveParams_new_keys _ h1 (by rw [hd]; simpa using ht.nodup hs)
    rw [hd] at this
    rw [this, ← ht.keys]
    rfl
  · rw [h2, ht.arch, ha]

/-- Saving to a file with an earlier state. -/
theorem fileHas_again {t t' : TrainObjects S} (hs : TrainSetup env a net method opt) (ht' : TrainingOf env a net opt t')
    {f f' : StateFile S} (hf : FileHas env a net opt f t) (h : saveTraining t' f = .ok f') : FileHas env a net opt f' t' := by
  obtain ⟨h1, h2, h3, h4, h5, h6⟩ := saveTraining_ok h
  refine ⟨?_, saved_values hs ht' h1, ?_, h3, h4, h5⟩
  · rw [saveParams_old_keys _ h1 (fun k hk => by rw [hf.keys, ← ht'.keys]; exact hk), hf.keys]
  · rw [h2, ht'.arch, hf.arch, C50_again _ (createdArchitecture_valid env hs.valid)]

theorem not_mem_append' {α : Type} {x : α} {l l' : List α} (h : x ∉ l) (h' : x ∉ l') : x ∉ l ++ l' := by
  rw [List.mem_append, not_or]; exact ⟨h, h'⟩

/-- Copying a state to a file whose parameters have the same names. -/
theorem copyState_eq {state f : StateFile S} (hv : state.vocab = none) (ha : state.arch.isSome) (ht : state.trainer.isSome)
    (hi : state.iterator.isSome) (ho : state.optimizer.isSome)
    (hk : ∀ k ∈ f.data.map Prod.fst, k ∈ state.data.map Prod.fst)
    (hl : ∀ k ∈ state.data.map Prod.fst, topName k ≠ "vocabulary".toList) :
    copyState state f = { state with vocab := f.vocab } := by
  have hmem : ∀ d ∈ state.data, topName d.1 ∈ state.names := by
    intro d hd
    unfold StateFile.names
    simp only [List.mem_append]
    exact .inl (.inl (.inl (.inl (.inl (List.mem_map.2 ⟨d, hd, rfl⟩)))))
  have hdata : f.data.filter (fun d => !state.names.contains (topName d.1)) = [] := by
    rw [List.filter_eq_nil_iff]
    intro d hd
    obtain ⟨d', hd', e⟩ := List.mem_map.1 (hk d.1 (List.mem_map_of_mem (f := Prod.fst) hd))
    have := hmem d' hd'
    rw [e] at this
    simpa using this
  have hnames : state.names = state.data.map (fun d => topName d.1) ++ ["architecture".toList] ++ ["trainer".toList] ++
      ["iterator".toList] ++ ["optimizer".toList] ++ [] := by
    unfold StateFile.names
    rw [if_pos ha, if_pos ht, if_pos hi, if_pos ho, if_neg (by rw [hv]; decide)]
  have hvoc : "vocabulary".toList ∉ state.names := by
    rw [hnames]
    refine not_mem_append' (not_mem_append' (not_mem_append' (not_mem_append' (not_mem_append' ?_ (by decide)) (by decide)) (by decide))
      (by decide)) (by decide)
    intro h
    obtain ⟨d, hd, e⟩ := List.mem_map.1 h
    exact hl d.1 (List.mem_map_of_mem (f := Prod.fst) hd) e
  have h1 : "architecture".toList ∈ state.names := by
    rw [hnames]
    exact List.mem_append_left _ (List.mem_append_left _ (List.mem_append_left _ (List.mem_append_left _
      (List.mem_append_right _ (List.mem_singleton_self _)))))
  have h2 : "trainer".toList ∈ state.names := by
    rw [hnames]
    exact List.mem_append_left _ (List.mem_append_left _ (List.mem_append_left _ (List.mem_append_right _ (List.mem_singleton_self _))))
  have h3 : "iterator".toList ∈ state.names := by
    rw [hnames]
    exact List.mem_append_left _ (List.mem_append_left _ (List.mem_append_right _ (List.mem_singleton_self _)))
  have h4 : "optimizer".toList ∈ state.names := by
    rw [hnames]
    exact List.mem_append_left _ (List.mem_append_right _ (List.mem_singleton_self _))
  unfold copyState
  rw [hdata, List.nil_append, if_neg hvoc, if_pos h1, if_pos h2, if_pos h3, if_pos h4]

theorem comps_topName (k : Str) : (comps k).head? = some (topName k) := by
  induction k with
  | nil => rfl
  | cons c k ih =>
    rw [comps]
    unfold topName at ih ⊢
    by_cases hc : c = '/'
    · rw [if_pos hc, hc]; rfl
    · rw [if_neg hc, List.takeWhile_cons, if_pos (by simpa using hc)]
      cases hk : comps k with
      | nil => exact absurd hk (comps_ne_nil k)
      | cons w ws =>
        rw [hk] at ih
        rw [← Option.some.inj ih]
        rfl

theorem TrainSetup.topNames (h : TrainSetup env a net method opt) :
    ∀ k ∈ (networkParams net.layers ++ opt.vars).map Prod.fst, topName k ≠ "vocabulary".toList := by
  obtain ⟨hp1, hp2⟩ := createNetwork_paths h.network
  have hl := networkParams_layers hp2 h.noSlash
  have key : ∀ k w rest, comps k = w :: rest → w ≠ "vocabulary".toList → topName k ≠ "vocabulary".toList := by
    intro k w rest e hw e2
    have := comps_topName k
    rw [e] at this
    exact hw ((Option.some.inj this).trans e2)
  intro k hk
  rw [List.map_append, List.mem_append] at hk
  rcases hk with hk | hk
  · obtain ⟨w, rest, e⟩ := hl k hk
    exact key k _ _ e (by decide)
  · rw [h.names.1] at hk
    obtain ⟨d, hd, rfl⟩ := List.mem_map.1 hk
    unfold optimizerParams at hd
    rcases List.mem_append.1 hd with hd | hd
    · split at hd
      · rw [List.mem_singleton.1 hd]
        exact key "optimizer/timestep".toList "optimizer".toList ["timestep".toList] (by decide) (by decide)
      · cases hd
    · obtain ⟨d0, hd0, hd⟩ := List.mem_flatMap.1 hd
      obtain ⟨v, hv, rfl⟩ := List.mem_map.1 hd
      obtain ⟨w, rest, e⟩ := hl d0.1 (List.mem_map_of_mem (f := Prod.fst) hd0)
      obtain ⟨init, x, h1, h2⟩ := comps_suffix ((optVariables_suffixes (S := S) method).1 v hv).1 d0.1
      cases init with
      | nil =>
        rw [h1] at e
        cases e
      | cons w' ws =>
        rw [h1] at e
        rw [(List.cons.inj e).1] at h2
        exact key _ _ _ h2 (by decide)

theorem TrainingOf.withCosts {t : TrainObjects S} (h : TrainingOf env a net opt t) (costs : List S) :
    TrainingOf env a net opt { t with costs := costs } := ⟨h.arch, h.layers, h.params, h.size, h.order⟩

/-- The content of a file to which the state has been saved. -/
theorem ModelSaved.content {vocab : Option VocabState} (hs : TrainSetup env a net method opt) {f : StateFile S} {o : Option (TrainObjects S)}
    (h : ModelSaved env a net opt vocab f o) :
    f.vocab = vocab ∧ (o = none → f = { StateFile.new with vocab := vocab }) ∧
      ∀ t, o = some t → TrainingOf env a net opt t ∧ FileHas env a net opt f t := by
  induction h with
  | new => exact ⟨rfl, fun _ => rfl, fun t ht => by cases ht⟩
  | saved h1 h2 h3 ih =>
    rename_i f f' o t
    obtain ⟨i1, i2, i3⟩ := ih
    refine ⟨(saveTraining_ok h3).2.2.2.2.2.trans i1, fun e => (by cases e), fun t' e => ?_⟩
    cases e
    refine ⟨h2, ?_⟩
    cases o with
    | none => exact fileHas_new hs h2 (by rw [i2 rfl]; rfl) (by rw [i2 rfl]; rfl) h3
    | some t0 => exact fileHas_again hs h2 (i3 t0 rfl).2 h3
  | validated h1 h2 h3 ih =>
    rename_i f state o t costs
    obtain ⟨i1, i2, i3⟩ := ih
    have hf := fileHas_new hs h2 rfl rfl h3
    have e : copyState (replaceCosts costs state) f = { replaceCosts costs state with vocab := f.vocab } := by
      refine copyState_eq (saveTraining_ok h3).2.2.2.2.2 ?_ ?_ ?_ ?_ ?_ ?_
      · show state.arch.isSome = true
        rw [hf.arch]; rfl
      · show (state.trainer.map _).isSome = true
        rw [hf.trainer]; rfl
      · show state.iterator.isSome = true
        rw [hf.iterator]; rfl
      · show state.optimizer.isSome = true
        rw [hf.optimizer]; rfl
      · intro k hk
        show k ∈ state.data.map Prod.fst
        cases o with
        | none => rw [i2 rfl] at hk; cases hk
        | some t0 => rw [hf.keys, ← (i3 t0 rfl).2.keys]; exact hk
      · intro k hk
        refine hs.topNames k ?_
        rw [← hf.keys]
        exact hk
    rw [e]
    refine ⟨i1, fun e => (by cases e), fun t' e => ?_⟩
    cases e
    refine ⟨h2.withCosts costs, hf.keys, hf.values, hf.arch, ?_, hf.iterator, hf.optimizer⟩
    show state.trainer.map _ = _
    rw [hf.trainer]
    rfl

theorem mapE_restore {l l' : List (Str × Arr S)} (h : List.Forall₂ (fun d d' => d.1 = d'.1 ∧ d.2.shape = d'.2.shape) l l')
    {file : List (Str × Arr S)} (hf : ∀ d ∈ l', dictGet? file d.1 = some d.2) : mapE (restoreParam file) l = .ok l' := by
  induction h with
  | nil => rfl
  | cons h1 _ ih =>
    rename_i d d' l l' _
    have e : restoreParam file d = .ok d' := by
      unfold restoreParam
      rw [h1.1, hf d' (by simp)]
      simp only
      rw [if_pos (by rw [h1.2])]
    rw [mapE, e, ih fun x hx => hf x (List.mem_cons_of_mem _ hx)]

theorem forall₂_shapes_trans {l l1 l2 : List (Str × Arr S)} (h1 : List.Forall₂ (fun d d' => d.1 = d'.1 ∧ d.2.shape = d'.2.shape) l l1)
    (h2 : List.Forall₂ (fun d d' => d.1 = d'.1 ∧ d.2.shape = d'.2.shape) l l2) :
    List.Forall₂ (fun d d' => d.1 = d'.1 ∧ d.2.shape = d'.2.shape) l1 l2 := by
  induction h1 generalizing l2 with
  | nil => cases h2; exact .nil
  | cons a1 _ ih =>
    cases h2 with
    | cons b1 b2 => exact .cons ⟨a1.1.symm.trans b1.1, a1.2.symm.trans b1.2⟩ (ih b2)

theorem saveTraining_succeeds {t : TrainObjects S} {f : StateFile S} {data : List (Str × Arr S)} {it : IteratorGroup}
    (h1 : saveParams t.allParams f.data = .ok data) (h2 : saveIterator t.iter.src.order t.iter.src.nextLine f.iterator = .ok it) :
    ∃ f', saveTraining t f = .ok f' := by
  unfold TrainObjects.allParams at h1
  rw [saveParams_append] at h1
  rw [saveTraining_eq, h2]
  cases h3 : saveParams (networkParams t.layers) f.data with
  | error e => rw [h3] at h1; cases h1
  | ok d1 =>
    rw [h3] at h1
    simp only at h1 ⊢
    rw [h1]
    exact ⟨_, rfl⟩

theorem saveParams_again {l0 l file : List (Str × Arr S)} (h : List.Forall₂ SameShape l0 l)
    (hf : ∀ d ∈ l0, dictGet? file d.1 = some d.2) (hn : (l.map Prod.fst).Nodup) (hc : l.Pairwise fun d d' => ¬ Conflict d.1 d'.1) :
    ∃ file', saveParams l file = .ok file' := by
  refine saveParams_ok hn hc fun d hd => ?_
  obtain ⟨d0, hd0, h1, h2, h3⟩ := forall₂_mem_right h hd
  have hg := hf d0 hd0
  rw [h1] at hg
  constructor
  · intro old ho
    rw [hg] at ho
    cases ho
    exact ⟨h2, h2 ▸ h3⟩
  · intro ho
    rw [hg] at ho
    cases ho

theorem sameNetwork_trans {l l1 l2 : List (Str × Arr S)} (h1 : List.Forall₂ SameShape l l1) (h2 : List.Forall₂ SameShape l l2) :
    List.Forall₂ SameShape l1 l2 := by
  induction h1 generalizing l2 with
  | nil => cases h2; exact .nil
  | cons a1 _ ih =>
    cases h2 with
    | cons b1 b2 => exact .cons ⟨a1.1.symm.trans b1.1, a1.2.1.symm.trans b1.2.1, a1.2.1 ▸ a1.2.2⟩ (ih b2)

theorem sameShape_of_forall {l l' : List (Str × Arr S)} (h : List.Forall₂ (fun d d' => d.1 = d'.1 ∧ d.2.shape = d'.2.shape) l l')
    (hne : ∀ d ∈ l, d.2.shape ≠ []) : List.Forall₂ SameShape l l' := by
  induction h with
  | nil => exact .nil
  | cons h1 _ ih =>
    exact .cons ⟨h1.1, h1.2, hne _ (by simp)⟩ (ih fun d hd => hne d (List.mem_cons_of_mem _ hd))

/-- The variables of the optimizers other than Adam are not scalars. -/
theorem TrainSetup.shapes (hs : TrainSetup env a net method opt) {t : TrainObjects S} (ht : TrainingOf env a net opt t)
    (hm : method ≠ .adam) : ∀ d ∈ opt.vars, d.2.shape ≠ [] := by
  intro d hd
  rw [hs.names.1] at hd
  unfold optimizerParams at hd
  rw [if_neg hm, List.nil_append] at hd
  obtain ⟨d0, hd0, hd⟩ := List.mem_flatMap.1 hd
  obtain ⟨v, _, rfl⟩ := List.mem_map.1 hd
  obtain ⟨_, _, h⟩ := forall₂_mem_left ht.layers.params hd0
  exact h.2.2

end

end TheanoLM
