import Verif.Lemmas.NetworkState
import Verif.Lemmas.NetworkSame
import Verif.Lemmas.NetworkPaths
import Verif.Props.Architecture
import Verif.Props.CreatedEval
/-!
# C81: a network that has been saved is loaded with the same structure and parameters

C82: the default device.
-/
set_option linter.unusedSectionVars false
namespace TheanoLM

section
variable {S : Type} [Add S] [Mul S] [Sub S] [Div S] [Zero S] [One S] [Min S]

/-! ## Specification -/

/-- `file` is the result of saving a network any number of times to a new file, each time with other values of the parameters; the
last ones are in `layers`.  (The network was created as `created`, from the architecture `a`.) -/
inductive Saved (a : Architecture) (created : List (Created S)) : NetworkFile S → List (Created S) → Prop
  | first {layers file} : SameNetwork created layers → saveNetwork a layers ⟨[], none⟩ = .ok file → Saved a created file layers
  | again {layers layers' file file'} : Saved a created file layers → SameNetwork created layers' →
      saveNetwork a layers' file = .ok file' → Saved a created file' layers'

/-! ## Helpers -/

theorem saveParams_append (l l' file : List (Str × Arr S)) : saveParams (l ++ l') file =
    match saveParams l file with
    | .error e => .error e
    | .ok file' => saveParams l' file' := by
  induction l generalizing file with
  | nil => rfl
  | cons d l ih =>
    rw [List.cons_append, saveParams, saveParams]
    cases saveParam file d with
    | error e => rfl
    | ok f => exact ih f

theorem saveLayers_eq (layers : List (Created S)) (file : List (Str × Arr S)) :
    saveLayers layers file = saveParams (networkParams layers) file := by
  induction layers generalizing file with
  | nil => rfl
  | cons c layers ih =>
    rw [saveLayers]
    show _ = saveParams (c.layer.params c.name ++ networkParams layers) file
    rw [saveParams_append]
    cases saveParams (c.layer.params c.name) file with
    | error e => rfl
    | ok f => exact ih f

/-- The same path, and an array of the same shape that is not a scalar. -/
def SameShape (p p' : Str × Arr S) : Prop := p.1 = p'.1 ∧ p.2.shape = p'.2.shape ∧ p.2.shape ≠ []

theorem dictParams_same {α : Type} {same : List α → List α → Prop} {enc : List α → Arr S}
    (h : ∀ v v', same v v' → (enc v).shape = (enc v').shape ∧ (enc v).shape ≠ []) (layer : Str) {d d' : ParamDict α} (hd : SameParams same d d') :
    List.Forall₂ SameShape (dictParams enc layer d) (dictParams enc layer d') := by
  unfold dictParams
  rw [List.forall₂_map_left_iff, List.forall₂_map_right_iff]
  refine hd.imp fun e e' he => ⟨?_, h _ _ he.2⟩
  rw [he.1]

theorem encVector_same {v v' : List S} (h : SameVector v v') : (encVector v).shape = (encVector v').shape ∧ (encVector v).shape ≠ [] := by
  unfold SameVector at h
  simp [encVector, h]

theorem encMatrix_same {v v' : List (List S)} (h : SameMatrix v v') : (encMatrix v).shape = (encMatrix v').shape ∧ (encMatrix v).shape ≠ [] := by
  obtain ⟨h1, n, h2⟩ := h
  refine ⟨?_, by simp [encMatrix]⟩
  unfold encMatrix
  simp only
  rw [h1]
  cases v with
  | nil =>
    cases v' with
    | nil => rfl
    | cons c v' => simp at h1
  | cons c v =>
    cases v' with
    | nil => simp at h1
    | cons c' v' => simp [h2 c (by simp), h2 c' (by simp)]

theorem tensor_heads {v v' : List (List (List S))} (h : SameTensor v v') :
    (v.headD []).length = (v'.headD []).length ∧ ((v.headD []).headD []).length = ((v'.headD []).headD []).length := by
  obtain ⟨h1, m, n, h2⟩ := h
  cases v with
  | nil =>
    cases v' with
    | nil => exact ⟨rfl, rfl⟩
    | cons c v' => simp at h1
  | cons c v =>
    cases v' with
    | nil => simp at h1
    | cons c' v' =>
      obtain ⟨k1, k2⟩ := h2 c (by simp)
      obtain ⟨m1, m2⟩ := h2 c' (by simp)
      show c.length = c'.length ∧ (c.headD []).length = (c'.headD []).length
      refine ⟨by rw [k1, m1], ?_⟩
      cases c with
      | nil =>
        cases c' with
        | nil => rfl
        | cons x c' => simp at k1 m1; omega
      | cons x c =>
        cases c' with
        | nil => simp at k1 m1; omega
        | cons y c' => show x.length = y.length; rw [k2 x (by simp), m2 y (by simp)]

theorem encTensor_same {v v' : List (List (List S))} (h : SameTensor v v') :
    (encTensor v).shape = (encTensor v').shape ∧ (encTensor v).shape ≠ [] := by
  obtain ⟨h1, h2⟩ := tensor_heads h
  refine ⟨?_, by simp [encTensor]⟩
  unfold encTensor
  simp only
  rw [h1, h2, h.1]

theorem encLevel_same {v v' : List (List (List S))} (h : SameTensor v v') :
    (encLevel v).shape = (encLevel v').shape ∧ (encLevel v).shape ≠ [] := by
  obtain ⟨h1, h2⟩ := tensor_heads h
  refine ⟨?_, by simp [encLevel]⟩
  unfold encLevel
  simp only
  rw [h1, h2, h.1]

theorem SameBasic.params {b b' : Basic S} (h : SameBasic b b') (layer : Str) : List.Forall₂ SameShape (b.params layer) (b'.params layer) :=
  List.rel_append (dictParams_same (fun _ _ => encMatrix_same) layer h.weights) (dictParams_same (fun _ _ => encVector_same) layer h.biases)

theorem SameLayer.params {l l' : Layer S} (h : SameLayer l l') (name : Str) : List.Forall₂ SameShape (l.params name) (l'.params name) := by
  cases h with
  | wordInput => exact .nil
  | classInput => exact .nil
  | projection h => exact h.params name
  | fullyConnected h => exact h.params name
  | addition h => exact h.params name
  | recurrent h => exact h.params name
  | bidirectional h1 h2 => exact List.rel_append (h1.params _) (h2.params _)
  | highway h => exact h.params name
  | glu h h2 => exact List.rel_append (dictParams_same (fun _ _ => encTensor_same) name h2) (h.params name)
  | dropout h => exact h.params name
  | softmax h => exact h.params name
  | hsoftmax h h2 h3 =>
    rename_i b b' _ _ w w' bs bs'
    have e : ∀ n, levelPath b n = levelPath b' n := fun n => by unfold levelPath; rw [h.devices]
    simp only [Layer.params]
    rw [e, e]
    have h2' : SameParams SameTensor [(levelPath b' "level1/W".toList, w)] [(levelPath b' "level1/W".toList, w')] := .cons ⟨rfl, h2⟩ .nil
    have h3' : SameParams SameMatrix [(levelPath b' "level1/b".toList, bs)] [(levelPath b' "level1/b".toList, bs')] := .cons ⟨rfl, h3⟩ .nil
    exact List.rel_append (List.rel_append (h.params name) (dictParams_same (fun _ _ => encLevel_same) name h2'))
      (dictParams_same (fun _ _ => encMatrix_same) name h3')

theorem SameNetwork.params {l l' : List (Created S)} (h : SameNetwork l l') : List.Forall₂ SameShape (networkParams l) (networkParams l') := by
  unfold SameNetwork at h
  induction h with
  | nil => exact .nil
  | cons h _ ih =>
    rename_i c c' _ _ _
    show List.Forall₂ SameShape (c.layer.params c.name ++ _) (c'.layer.params c'.name ++ _)
    rw [h.1]
    exact List.rel_append (h.2.2.params _) ih

theorem SameBasic.devs {b b' : Basic S} (h : SameBasic b b') : b.devices = b'.devices := h.devices

theorem SameLayer.devices {l l' : Layer S} (h : SameLayer l l') : l.devices = l'.devices := by
  cases h <;> simp only [Layer.devices]
  all_goals first
    | rfl
    | (rename_i h1 h2 h3; exact h1.devices)
    | (rename_i h1 h2; rw [h1.devs, h2.devs])
    | (rename_i h1 h2; exact h1.devices)
    | (rename_i h1; exact h1.devices)

theorem SameNetwork.noSlash {l l' : List (Created S)} (h : SameNetwork l l') (hn : NoSlash l) : NoSlash l' := by
  intro c hc
  obtain ⟨c', hc', h1, _, h3⟩ := forall₂_mem_right h hc
  have := hn c' hc'
  rw [h1, h3.devices] at this
  exact this

theorem forall₂_sameShape_keys {l l' : List (Str × Arr S)} (h : List.Forall₂ SameShape l l') : l.map Prod.fst = l'.map Prod.fst := by
  induction h with
  | nil => rfl
  | cons h _ ih => rw [List.map_cons, List.map_cons, ih, h.1]

theorem sameLookup_of_perm {d e : ArchDict} (hd : (d.map Prod.fst).Nodup) (h : d.Perm e) : SameLookup d e := by
  intro k
  have he : (e.map Prod.fst).Nodup := (h.map Prod.fst).nodup_iff.mp hd
  apply Option.ext
  intro v
  rw [← mem_iff_get hd, ← mem_iff_get he]
  exact h.mem_iff

theorem subDict_of_lookup {d e : ArchDict} (hd : (d.map Prod.fst).Nodup) (he : (e.map Prod.fst).Nodup) (h : SameLookup d e) : SubDict d e := by
  have key : ∀ k v, (k, v) ∈ d → (k, v) ∈ e := by
    intro k v hm
    rw [mem_iff_get he, ← h, ← mem_iff_get hd]
    exact hm
  exact fun k => ⟨fun v hv => key k _ hv, fun vs hv => .inl ⟨vs, key k _ hv, List.prefix_refl _⟩⟩

section
variable (env : CreateEnv S) (d : ArchDict)

theorem describedInput_nodup (h : (d.map Prod.fst).Nodup) : ((describedInput env d).map Prod.fst).Nodup :=
  dictSet_keys _ _ _ (dictSet_keys _ _ _ (dictSet_keys _ _ _ h))

theorem describedInput_get (k : Str) : dictGet? (describedInput env d) k =
    if k = "devices".toList then some (.many []) else if k = "input_layers".toList then some (.many []) else
      if k = "size".toList then some (.one (.int ((if dictGet? d "type".toList = some (.one (.str "class".toList)) then env.numClasses else env.numWords : Nat) : ℤ)))
      else dictGet? d k := by
  unfold describedInput
  rw [dictGet?_set, dictGet?_set, dictGet?_set]

theorem describedInput_lists (h : (d.map Prod.fst).Nodup) (hl : ListsAtMost 10 d) : ListsAtMost 10 (describedInput env d) := by
  intro k vs hm
  rw [mem_iff_get (describedInput_nodup env d h), describedInput_get] at hm
  split at hm
  · cases hm; simp
  · split at hm
    · cases hm; simp
    · split at hm
      · cases hm
      · exact hl k vs (dictGet?_mem hm)

end

theorem createdArchitecture_valid (env : CreateEnv S) {a : Architecture} (ha : a.Valid) : (createdArchitecture env a).Valid := by
  refine ⟨?_, ha.layers, fun d hd => ?_⟩
  · show a.inputs.map (describedInput env) ≠ []
    simpa using ha.inputs
  · rcases List.mem_append.mp hd with hd | hd
    · obtain ⟨x, hx, rfl⟩ := List.mem_map.mp hd
      exact describedInput_nodup env x (ha.keys x (List.mem_append_left _ hx))
    · exact ha.keys d (List.mem_append_right _ hd)

theorem createdArchitecture_lists (env : CreateEnv S) {a : Architecture} (ha : a.Valid) (hl : ∀ d ∈ a.inputs ++ a.layers, ListsAtMost 10 d) :
    ∀ d ∈ (createdArchitecture env a).inputs ++ (createdArchitecture env a).layers, ListsAtMost 10 d := by
  intro d hd
  rcases List.mem_append.mp hd with hd | hd
  · obtain ⟨x, hx, rfl⟩ := List.mem_map.mp hd
    exact describedInput_lists env x (ha.keys x (List.mem_append_left _ hx)) (hl x (List.mem_append_left _ hx))
  · exact hl d (List.mem_append_right _ hd)

theorem createInput_described {env env' : CreateEnv S} (he : SameEnv env env') {d e : ArchDict} (h : SameLookup (describedInput env d) e) :
    createInput env d = createInput env' e := by
  have key : ∀ k, k ≠ "devices".toList → k ≠ "input_layers".toList → k ≠ "size".toList → dictGet? d k = dictGet? e k := by
    intro k h1 h2 h3
    rw [← h, describedInput_get, if_neg h1, if_neg h2, if_neg h3]
  unfold createInput strOption activationOption
  rw [key _ (by decide) (by decide) (by decide), key "name".toList (by decide) (by decide) (by decide),
    key "activation".toList (by decide) (by decide) (by decide), he.numWords, he.numClasses]

theorem describedInput_again {env env' : CreateEnv S} (he : SameEnv env env') {d e : ArchDict} (h : SameLookup (describedInput env d) e) :
    SameLookup (describedInput env' e) (describedInput env d) := by
  intro k
  have ht : dictGet? e "type".toList = dictGet? d "type".toList := by
    rw [← h, describedInput_get, if_neg (by decide), if_neg (by decide), if_neg (by decide)]
  by_cases h1 : k = "devices".toList
  · rw [describedInput_get, describedInput_get, if_pos h1, if_pos h1]
  by_cases h2 : k = "input_layers".toList
  · rw [describedInput_get, describedInput_get, if_neg h1, if_pos h2, if_neg h1, if_pos h2]
  by_cases h3 : k = "size".toList
  · rw [describedInput_get, describedInput_get, if_neg h1, if_neg h2, if_pos h3, if_neg h1, if_neg h2, if_pos h3, ht, he.numClasses, he.numWords]
  · rw [describedInput_get, if_neg h1, if_neg h2, if_neg h3, h]

/-! ## C81 -/

section
variable {env env' : CreateEnv S} {a : Architecture} {net : CreatedNetwork S}

/-- What is in the file after saving. -/
theorem Saved.content (ha : (createdArchitecture env a).Valid) (hnet : createNetwork env a = .ok net) (hn : NoSlash net.layers) {file : NetworkFile S} {layers : List (Created S)}
    (h : Saved (createdArchitecture env a) net.layers file layers) :
    SameNetwork net.layers layers ∧ file.arch = some ((createdArchitecture env a).getState none) ∧
      file.params.map Prod.fst = (networkParams net.layers).map Prod.fst ∧
      ∀ p ∈ networkParams layers, dictGet? file.params p.1 = some p.2 := by
  obtain ⟨hp1, hp2⟩ := createNetwork_paths hnet
  have hinc := networkParams_incomp hp1 hp2 hn
  have nodup : ∀ {l : List (Created S)}, SameNetwork net.layers l → ((networkParams l).map Prod.fst).Nodup := by
    intro l hl
    rw [← forall₂_sameShape_keys hl.params]
    exact hinc.imp fun h => h.paths.1
  have get : ∀ {l : List (Created S)} {f f' : List (Str × Arr S)}, SameNetwork net.layers l → saveParams (networkParams l) f = .ok f' →
      ∀ p ∈ networkParams l, dictGet? f' p.1 = some p.2 := by
    intro l f f' hl hs p hp
    rw [saveParams_get (nodup hl) hs, dictGet?_of_mem (nodup hl) (show (p.1, p.2) ∈ _ from hp)]
    rfl
  -- the paths in the file are the old paths and the new ones
  have keysOf : ∀ (l f f' : List (Str × Arr S)), saveParams l f = .ok f' → l.map Prod.fst = f.map Prod.fst →
      f'.map Prod.fst = f.map Prod.fst := by
    have one : ∀ (d : Str × Arr S) (f f' : List (Str × Arr S)), saveParam f d = .ok f' → d.1 ∈ f.map Prod.fst →
        f'.map Prod.fst = f.map Prod.fst := by
      intro d f f' hs hm
      unfold saveParam at hs
      cases hd : dictGet? f d.1 with
      | none => exact absurd hm ((dictGet?_none _ _).mp hd)
      | some old =>
        rw [hd] at hs
        simp only at hs
        split at hs
        · cases hs
        · split at hs
          · cases hs
          · injection hs with hs
            rw [← hs]
            unfold dictSet
            rw [if_pos]
            · rw [List.map_map]
              apply List.map_congr_left
              intro x _
              show (if x.1 = d.1 then (d.1, d.2) else x).1 = x.1
              split
              · rename_i e; exact e.symm
              · rfl
            · rw [List.any_eq_true]
              obtain ⟨x, hx, e⟩ := List.mem_map.mp hm
              exact ⟨x, hx, by simpa using e⟩
    have all : ∀ (l f f' : List (Str × Arr S)), saveParams l f = .ok f' → (∀ k ∈ l.map Prod.fst, k ∈ f.map Prod.fst) →
        f'.map Prod.fst = f.map Prod.fst := by
      intro l
      induction l with
      | nil => intro f f' hs _; cases hs; rfl
      | cons d l ih =>
        intro f f' hs hm
        rw [saveParams] at hs
        split at hs
        · cases hs
        · rename_i f1 h1
          have e := one d f f1 h1 (hm _ (by simp))
          rw [ih f1 f' hs (fun k hk => by rw [e]; exact hm k (by rw [List.map_cons]; exact List.mem_cons_of_mem _ hk)), e]
    exact fun l f f' hs e => all l f f' hs fun k hk => e ▸ hk
  have newKeys : ∀ (l f f' : List (Str × Arr S)), saveParams l f = .ok f' → (f.map Prod.fst ++ l.map Prod.fst).Nodup →
      f'.map Prod.fst = f.map Prod.fst ++ l.map Prod.fst := by
    intro l
    induction l with
    | nil => intro f f' hs _; cases hs; simp
    | cons d l ih =>
      intro f f' hs hm
      rw [saveParams] at hs
      split at hs
      · cases hs
      · rename_i f1 h1
        have hd : dictGet? f d.1 = none := by
          rw [dictGet?_none]
          intro hx
          rw [List.nodup_append] at hm
          exact hm.2.2 _ hx _ (by simp) rfl
        have e : f1 = f ++ [d] := by
          unfold saveParam at h1
          rw [hd] at h1
          simp only at h1
          split at h1
          · cases h1
          · split at h1
            · cases h1
            · injection h1 with h1; exact h1.symm
        rw [ih f1 f' hs (by rw [e]; simpa using hm), e]
        simp
  induction h with
  | first h1 h2 =>
    rename_i layers file
    unfold saveNetwork at h2
    rw [saveLayers_eq] at h2
    split at h2
    · cases h2
    · rename_i params hs
      cases h2
      refine ⟨h1, rfl, ?_, get h1 hs⟩
      have := newKeys _ _ _ hs (by simpa using nodup h1)
      rw [List.map_nil, List.nil_append] at this
      exact this.trans (forall₂_sameShape_keys h1.params).symm
  | again h0 h1 h2 ih =>
    rename_i layers layers' file file'
    obtain ⟨i1, i2, i3, i4⟩ := ih
    unfold saveNetwork at h2
    rw [saveLayers_eq] at h2
    split at h2
    · cases h2
    · rename_i params hs
      cases h2
      refine ⟨h1, ?_, ?_, get h1 hs⟩
      · show some ((createdArchitecture env a).getState file.arch) = _
        rw [i2, C50_again _ ha]
      · rw [← i3]
        exact keysOf _ _ _ hs (by rw [i3, forall₂_sameShape_keys h1.params])

/-- C81: a network can be saved to a new file, and again to the same file after its parameters have changed. -/
theorem C81_saves (ha : a.Valid) (hnet : createNetwork env a = .ok net) (hn : NoSlash net.layers) (layers : List (Created S))
    (hs : SameNetwork net.layers layers) :
    (∃ file, saveNetwork (createdArchitecture env a) layers ⟨[], none⟩ = .ok file) ∧
    ∀ (old : List (Created S)) (file : NetworkFile S), Saved (createdArchitecture env a) net.layers file old →
      ∃ file', saveNetwork (createdArchitecture env a) layers file = .ok file' := by
  obtain ⟨hp1, hp2⟩ := createNetwork_paths hnet
  have hinc := networkParams_incomp hp1 hp2 hn
  have hnodup : ((networkParams layers).map Prod.fst).Nodup := by
    rw [← forall₂_sameShape_keys hs.params]
    exact hinc.imp fun h => h.paths.1
  have hconf : (networkParams layers).Pairwise fun d d' => ¬ Conflict d.1 d'.1 := by
    rw [← List.pairwise_map (f := Prod.fst) (R := fun k k' => ¬ Conflict k k'), ← forall₂_sameShape_keys hs.params]
    exact hinc.imp fun h => h.paths.2
  have save : ∀ file : NetworkFile S, (∃ f, saveParams (networkParams layers) file.params = .ok f) →
      ∃ file', saveNetwork (createdArchitecture env a) layers file = .ok file' := by
    rintro file ⟨f, hf⟩
    unfold saveNetwork
    rw [saveLayers_eq, hf]
    exact ⟨_, rfl⟩
  refine ⟨save _ (saveParams_ok hnodup hconf ?_), fun old file hold => save _ (saveParams_ok hnodup hconf ?_)⟩
  · exact fun d _ => ⟨fun old h => (by cases h), fun _ path h => (by simp at h)⟩
  · obtain ⟨o1, _, o3, o4⟩ := hold.content (createdArchitecture_valid env ha) hnet hn
    intro d hd
    have hm : ∃ p ∈ networkParams old, p.1 = d.1 ∧ p.2.shape = d.2.shape ∧ p.2.shape ≠ [] := by
      obtain ⟨p, hp, h1⟩ := forall₂_mem_right hs.params hd
      obtain ⟨q, hq, h2⟩ := forall₂_mem_left o1.params hp
      exact ⟨q, hq, h2.1.symm.trans h1.1, h2.2.1.symm.trans h1.2.1, by rw [← h2.2.1]; exact h1.2.2⟩
    obtain ⟨p, hp, e1, e2, e3⟩ := hm
    have hget := o4 p hp
    rw [e1] at hget
    refine ⟨fun v hv => ?_, fun hnone => ?_⟩
    · rw [hget] at hv
      cases hv
      exact ⟨e2, e2 ▸ e3⟩
    · rw [hget] at hnone
      cases hnone

/-- Loading a network from a file that contains its architecture and the values of its parameters, and possibly something else. -/
theorem loadNetwork_content (he : SameEnv env env') (ha : a.Valid) (hi : a.inputs.length ≤ 10) (hl : ∀ d ∈ a.inputs ++ a.layers, ListsAtMost 10 d)
    (hp : PriorFits env a) (hp' : PriorFits env' a) (hnet : createNetwork env a = .ok net) (layers : List (Created S)) (file : NetworkFile S)
    (s1 : SameNetwork net.layers layers) (s2 : file.arch = some ((createdArchitecture env a).getState none))
    (s4 : ∀ p ∈ networkParams layers, dictGet? file.params p.1 = some p.2) : loadNetwork env' file = .ok ⟨layers, net.output⟩ := by
  have hva := createdArchitecture_valid env ha
  obtain ⟨b, hb, hsame⟩ := C50_partial (createdArchitecture env a) hva (by simpa [createdArchitecture] using hi)
    (createdArchitecture_lists env ha hl)
  have hinputs : List.Forall₂ (fun d e => (d.map Prod.fst).Nodup ∧ (e.map Prod.fst).Nodup ∧ SameLookup (describedInput env d) e)
      a.inputs b.inputs := by
    have h := hsame.inputs
    rw [show (createdArchitecture env a).inputs = a.inputs.map (describedInput env) from rfl, List.forall₂_map_left_iff] at h
    have hk : ∀ d ∈ a.inputs, (d.map Prod.fst).Nodup := fun d hd => ha.keys d (List.mem_append_left _ hd)
    clear * - h hk
    generalize a.inputs = l at h hk
    generalize b.inputs = l' at h
    induction h with
    | nil => exact .nil
    | cons h1 _ ih =>
      rename_i d e _ _ _
      have hd := hk d List.mem_cons_self
      have hdn := describedInput_nodup env d hd
      exact .cons ⟨hd, (h1.map Prod.fst).nodup_iff.mp hdn, sameLookup_of_perm hdn h1⟩ (ih fun d hd => hk d (List.mem_cons_of_mem _ hd))
  have hlayers : List.Forall₂ (fun d e => (d.map Prod.fst).Nodup ∧ (e.map Prod.fst).Nodup ∧ SameLookup d e) a.layers b.layers := by
    have h := hsame.layers
    rw [show (createdArchitecture env a).layers = a.layers from rfl] at h
    have hk : ∀ d ∈ a.layers, (d.map Prod.fst).Nodup := fun d hd => ha.keys d (List.mem_append_right _ hd)
    clear * - h hk
    generalize a.layers = l at h hk
    generalize b.layers = l' at h
    induction h with
    | nil => exact .nil
    | cons h1 _ ih =>
      rename_i d e _ _ _
      have hd := hk d List.mem_cons_self
      exact .cons ⟨hd, (h1.map Prod.fst).nodup_iff.mp hd, sameLookup_of_perm hd h1⟩ (ih fun d hd => hk d (List.mem_cons_of_mem _ hd))
  have hout : a.outputLayer = b.outputLayer := hsame.output
  have hpb : PriorFits env' b := by
    intro p hpp
    refine ⟨(hp' p hpp).1, fun e hm ht n hname => ?_⟩
    obtain ⟨d, hd, _, _, hlk⟩ := forall₂_mem_right hlayers hm
    rw [← hout]
    exact (hp' p hpp).2 d hd (by rw [hlk]; exact ht) n (by rw [hlk]; exact hname)
  obtain ⟨e, g1, _⟩ | ⟨n1, n2, g1, g2, g3, g4⟩ := (createNetwork_same he (hinputs.imp fun d e h => createInput_described he h.2.2)
    (hlayers.imp fun d e h => h.2.2) hout hp hpb).cases
  · rw [hnet] at g1; cases g1
  · rw [hnet] at g1
    cases g1
    unfold loadNetwork
    rw [s2, hb]
    simp only
    rw [g2]
    simp only
    rw [restoreLayers_erase file.params (g3.erase.symm.trans s1.erase), restoreLayers_saved s1 fun c hc p hpm => ?_]
    · simp only
      have hcheck : (createdArchitecture env' b).checkState (some ((createdArchitecture env a).getState none)) = .ok () := by
        rw [C51_partial _ _ hva]
        refine ⟨⟨_, List.prefix_refl _, ?_⟩, ⟨_, List.prefix_refl _, ?_⟩, hout.symm⟩
        · show List.Forall₂ SubDict (b.inputs.map (describedInput env')) (a.inputs.map (describedInput env))
          rw [List.forall₂_map_left_iff, List.forall₂_map_right_iff]
          exact hinputs.flip.imp fun e d h => subDict_of_lookup (describedInput_nodup env' e h.2.1) (describedInput_nodup env d h.1)
            (describedInput_again he h.2.2)
        · show List.Forall₂ SubDict b.layers a.layers
          exact hlayers.flip.imp fun e d h => subDict_of_lookup h.2.1 h.1 fun k => (h.2.2 k).symm
      rw [hcheck, g4]
    · exact s4 p (List.mem_flatMap.mpr ⟨c, hc, hpm⟩)

/-- C81 (partial: at most ten inputs, at most ten values in a list, no slash in the names of layers and devices, and the same default
device, see `C81_violated_device`, `C81_violated_name` and `C50_violated`).  A network is created from an architecture, trained, and
saved any number of times to the same file.  When it is loaded from the file, using the same vocabulary, it has the same layers, the
same output layer, and exactly the values that the parameters had when the network was last saved. -/
theorem C81_partial (he : SameEnv env env') (ha : a.Valid) (hi : a.inputs.length ≤ 10) (hl : ∀ d ∈ a.inputs ++ a.layers, ListsAtMost 10 d)
    (hp : PriorFits env a) (hp' : PriorFits env' a) (hnet : createNetwork env a = .ok net) (hn : NoSlash net.layers)
    (layers : List (Created S)) (file : NetworkFile S) (hs : Saved (createdArchitecture env a) net.layers file layers) :
    loadNetwork env' file = .ok ⟨layers, net.output⟩ := by
  obtain ⟨s1, s2, _, s4⟩ := hs.content (createdArchitecture_valid env ha) hnet hn
  exact loadNetwork_content he ha hi hl hp hp' hnet layers file s1 s2 s4

end

end

/-- Another initialization of the network of `exampleDescription`, as when it is loaded: the class probabilities are not used. -/
def exampleOther : CreateEnv ℚ := { exampleEnv with priorBias := none, rand := fun _ _ is => 2 * is.sum + 1 }

theorem exampleOther_same : SameEnv exampleEnv exampleOther := ⟨rfl, rfl, rfl, rfl, rfl, rfl, rfl, rfl⟩

theorem exampleOther_prior : PriorFits exampleOther exampleDescription := fun p hp => by cases hp

theorem exampleDescription_valid : exampleDescription.Valid := ⟨by decide, by decide, by decide +kernel⟩

instance (l : List (Created ℚ)) : Decidable (∀ c ∈ l, '/' ∉ c.name ∧ ∀ d ∈ c.layer.devices, '/' ∉ d.getD []) := inferInstance

theorem exampleDescription_created : ∃ net, createNetwork exampleEnv exampleDescription = .ok net ∧
    (∀ c ∈ net.layers, '/' ∉ c.name ∧ ∀ d ∈ c.layer.devices, '/' ∉ d.getD []) ∧
    ∃ net', createNetwork exampleOther exampleDescription = .ok net' ∧ networkParams net.layers ≠ networkParams net'.layers := by
  decide +kernel

/-- A case that meets the hypotheses of `C81_saves` and `C81_partial`: the values of the parameters of the network `layers` that is saved
are not the initial ones. -/
example : exampleDescription.inputs.length ≤ 10 ∧ (∀ d ∈ exampleDescription.inputs ++ exampleDescription.layers, ListsAtMost 10 d) ∧
    PriorFits exampleEnv exampleDescription ∧ ∃ net, createNetwork exampleEnv exampleDescription = .ok net ∧ NoSlash net.layers ∧
      ∃ layers, SameNetwork net.layers layers ∧ networkParams net.layers ≠ networkParams layers ∧
      ∃ file, Saved (createdArchitecture exampleEnv exampleDescription) net.layers file layers ∧
        loadNetwork exampleOther file = .ok ⟨layers, net.output⟩ := by
  have hl : ∀ d ∈ exampleDescription.inputs ++ exampleDescription.layers, ListsAtMost 10 d := by
    have : ∀ d ∈ exampleDescription.inputs ++ exampleDescription.layers, ∀ e ∈ d,
        (match e.2 with | .one _ => true | .many vs => decide (vs.length ≤ 10)) = true := by decide +kernel
    intro d hd k vs hk
    simpa using this d hd _ hk
  obtain ⟨net, h1, h2, net', h3, h4⟩ := exampleDescription_created
  have hs : SameNetwork net.layers net'.layers := by
    have key := createNetwork_same exampleOther_same (a := exampleDescription) (b := exampleDescription)
      (List.forall₂_same.mpr fun d hd => (by
        have : ∀ d ∈ exampleDescription.inputs, strOption d "name".toList = strOption d "name".toList := fun _ _ => rfl
        rfl)) (List.forall₂_same.mpr fun d _ k => rfl) rfl exampleDescription_prior exampleOther_prior
    rw [h1, h3] at key
    cases key with
    | ok h => exact h.1
  have hn : NoSlash net.layers := fun c hc => ⟨(h2 c hc).1, fun d hd => (h2 c hc).2 (some d) hd⟩
  obtain ⟨file, hf⟩ := (C81_saves exampleDescription_valid h1 hn _ hs).1
  have hsv := Saved.first hs hf
  exact ⟨by decide, hl, exampleDescription_prior, net, h1, hn, _, hs, h4, file, hsv,
    C81_partial exampleOther_same exampleDescription_valid (by decide) hl exampleDescription_prior exampleOther_prior h1 hn _ _ hsv⟩

/-- A word input, a projection, and a softmax layer. -/
def exampleSmall (projection : String) : Architecture where
  inputs := [[("type".toList, .one (.str "word".toList)), ("name".toList, .one (.str "w".toList))]]
  layers := [exampleLayer "projection" "p" ["w"] [("size", .one (.int 2))],
    exampleLayer "projection" projection ["w"] [("size", .one (.int 2))], exampleLayer "softmax" "o" ["p", projection] []]
  outputLayer := .str "o".toList

instance decidableIsError {α : Type} (r : Except Err α) (e : Err) : Decidable (r = .error e) :=
  match r with
  | .error e' => decidable_of_iff (e' = e) (by simp)
  | .ok _ => isFalse (by simp)

/-- C81 is violated when the default device is not the same: a network that was saved when the default device was `dev0` cannot be
loaded when Theano has been configured differently. -/
theorem C81_violated_device : ∃ net, createNetwork { exampleEnv with defaultDevice := some "dev0".toList } (exampleSmall "q") = .ok net ∧
    ∃ file, saveNetwork (createdArchitecture exampleEnv (exampleSmall "q")) net.layers ⟨[], none⟩ = .ok file ∧
      loadNetwork exampleEnv file = .error .attributeError := by
  decide +kernel

/-- C81 is violated by names that contain a slash: a network that has been created cannot be saved. -/
theorem C81_violated_name : ∃ net, createNetwork exampleEnv (exampleSmall "p/W") = .ok net ∧
    saveNetwork (createdArchitecture exampleEnv (exampleSmall "p/W")) net.layers ⟨[], none⟩ = .error .valueError := by
  decide +kernel

/-! ## C82 -/

/-- C82: the device that is used by default.  A requested device is used if it is available, otherwise it is an error.  If no device has
been requested, it is the default context if there is one, otherwise the first one; no context is used if there are none. -/
theorem C82 (contexts : Option (List (Option Str))) (requested : Option Str) :
    (∀ device, requested = some device →
      (((∃ names, contexts = some names ∧ some device ∈ names) ∨ (contexts = none ∧ device = "cpu".toList)) →
        defaultDevice contexts requested = .ok (some device)) ∧
      (¬ ((∃ names, contexts = some names ∧ some device ∈ names) ∨ (contexts = none ∧ device = "cpu".toList)) →
        defaultDevice contexts requested = .error .valueError)) ∧
    (requested = none → ∃ result, defaultDevice contexts requested = .ok result ∧
      (∀ names, contexts = some names → names ≠ [] → result ∈ names ∧ (result = none ↔ none ∈ names) ∧
        (none ∉ names → names[0]? = some result)) ∧
      (contexts = none ∨ contexts = some [] → result = none)) := by
  constructor
  · rintro device rfl
    cases contexts with
    | none =>
      show (_ → (if device = "cpu".toList then _ else _) = _) ∧ (_ → (if device = "cpu".toList then _ else _) = _)
      by_cases h : device = "cpu".toList
      · rw [if_pos h]
        exact ⟨fun _ => rfl, fun hn => absurd (.inr ⟨rfl, h⟩) hn⟩
      · rw [if_neg h]
        refine ⟨fun hp => ?_, fun _ => rfl⟩
        rcases hp with ⟨names, hc, _⟩ | ⟨_, hd⟩
        · cases hc
        · exact absurd hd h
    | some names =>
      show (_ → (if some device ∈ names then _ else _) = _) ∧ (_ → (if some device ∈ names then _ else _) = _)
      by_cases h : some device ∈ names
      · rw [if_pos h]
        exact ⟨fun _ => rfl, fun hn => absurd (.inl ⟨names, rfl, h⟩) hn⟩
      · rw [if_neg h]
        refine ⟨fun hp => ?_, fun _ => rfl⟩
        rcases hp with ⟨names', hc, hm⟩ | ⟨hc, _⟩
        · cases hc; exact absurd hm h
        · cases hc
  · rintro rfl
    cases contexts with
    | none => exact ⟨none, rfl, fun names h => (by cases h), fun _ => rfl⟩
    | some names =>
      by_cases h : none ∈ names
      · refine ⟨none, ?_, fun names' hc _ => ?_, fun _ => rfl⟩
        · show (if none ∈ names then _ else _) = _
          rw [if_pos h]
        · cases hc
          exact ⟨h, by simp [h], fun hn => absurd h hn⟩
      · refine ⟨names.headD none, ?_, fun names' hc hne => ?_, fun he => ?_⟩
        · show (if none ∈ names then _ else _) = _
          rw [if_neg h]
        · cases hc
          cases names with
          | nil => exact absurd rfl hne
          | cons x names =>
            refine ⟨List.mem_cons_self, ?_, fun _ => rfl⟩
            show x = none ↔ _
            constructor
            · rintro rfl
              exact List.mem_cons_self
            · exact fun hm => absurd hm h
        · rcases he with he | he
          · cases he
          · cases he; rfl

/-- The documentation of the function says that the result is `cpu` if there is no GPU, but it is `None`. -/
theorem C82_no_gpu : defaultDevice none none = .ok none ∧ defaultDevice (some []) none = .ok none := ⟨rfl, rfl⟩

example : defaultDevice (some [some "dev0".toList, some "dev1".toList]) none = .ok (some "dev0".toList) ∧
    defaultDevice (some [some "dev1".toList, none]) none = .ok none ∧
    defaultDevice (some [some "dev0".toList]) (some "dev1".toList) = .error .valueError := by decide

end TheanoLM
