import Verif.Lemmas.LayerCreate
import Verif.Lemmas.Statistics
/-!
# Lemmas about the creation of all the layers of a network
-/
namespace TheanoLM
set_option linter.unusedSectionVars false

variable {S : Type} [Add S] [Mul S] [Sub S] [Div S] [Zero S] [One S] [Min S]

theorem strOption_ok {d : ArchDict} {key s : Str} (h : strOption d key = .ok s) : dictGet? d key = some (.one (.str s)) := by
  unfold strOption at h
  split at h
  · cases h
  · rename_i t ht
    cases h
    exact ht
  · cases h

/-- The names of the layer types. -/
def LayerType.names : LayerType → List String
  | .projection => ["projection"]
  | .fullyConnected => ["fc", "tanh"]
  | .addition => ["add"]
  | .recurrent .lstm => ["lstm"]
  | .recurrent .gru => ["gru"]
  | .bidirectional .lstm => ["blstm"]
  | .bidirectional .gru => ["bgru"]
  | .highway => ["highway", "highwaytanh"]
  | .glu => ["glu"]
  | .softmax => ["softmax"]
  | .hsoftmax => ["hsoftmax"]
  | .dropout => ["dropout"]

theorem layerType_names {s : Str} {type : LayerType} (h : layerType s = some type) : ∃ t ∈ type.names, s = t.toList := by
  unfold layerType at h
  by_cases h0 : s = "projection".toList
  · rw [if_pos h0] at h
    cases h
    exact ⟨_, List.mem_cons_self, h0⟩
  rw [if_neg h0] at h
  by_cases h1 : s = "fc".toList ∨ s = "tanh".toList
  · rw [if_pos h1] at h
    cases h
    rcases h1 with e | e
    · exact ⟨_, List.mem_cons_self, e⟩
    · exact ⟨_, List.mem_cons_of_mem _ List.mem_cons_self, e⟩
  rw [if_neg h1] at h
  by_cases h2 : s = "add".toList
  · rw [if_pos h2] at h
    cases h
    exact ⟨_, List.mem_cons_self, h2⟩
  rw [if_neg h2] at h
  by_cases h3 : s = "lstm".toList
  · rw [if_pos h3] at h
    cases h
    exact ⟨_, List.mem_cons_self, h3⟩
  rw [if_neg h3] at h
  by_cases h4 : s = "gru".toList
  · rw [if_pos h4] at h
    cases h
    exact ⟨_, List.mem_cons_self, h4⟩
  rw [if_neg h4] at h
  by_cases h5 : s = "blstm".toList
  · rw [if_pos h5] at h
    cases h
    exact ⟨_, List.mem_cons_self, h5⟩
  rw [if_neg h5] at h
  by_cases h6 : s = "bgru".toList
  · rw [if_pos h6] at h
    cases h
    exact ⟨_, List.mem_cons_self, h6⟩
  rw [if_neg h6] at h
  by_cases h7 : s = "highway".toList ∨ s = "highwaytanh".toList
  · rw [if_pos h7] at h
    cases h
    rcases h7 with e | e
    · exact ⟨_, List.mem_cons_self, e⟩
    · exact ⟨_, List.mem_cons_of_mem _ List.mem_cons_self, e⟩
  rw [if_neg h7] at h
  by_cases h8 : s = "glu".toList
  · rw [if_pos h8] at h
    cases h
    exact ⟨_, List.mem_cons_self, h8⟩
  rw [if_neg h8] at h
  by_cases h9 : s = "softmax".toList
  · rw [if_pos h9] at h
    cases h
    exact ⟨_, List.mem_cons_self, h9⟩
  rw [if_neg h9] at h
  by_cases h10 : s = "hsoftmax".toList
  · rw [if_pos h10] at h
    cases h
    exact ⟨_, List.mem_cons_self, h10⟩
  rw [if_neg h10] at h
  by_cases h11 : s = "dropout".toList
  · rw [if_pos h11] at h
    cases h
    exact ⟨_, List.mem_cons_self, h11⟩
  rw [if_neg h11] at h
  cases h

/-- The type of a created layer. -/
theorem createSized_type {env : CreateEnv S} {s : Str} {type : LayerType} {o : LayerOptions} {size : Nat} {c : Created S}
    (ht : layerType s = some type) (h : createSized env type o size = .ok c) :
    (∃ t ∈ c.layer.typeNames, s = t.toList) ∧ (type = .addition ↔ ∃ b l, c.layer = .addition b l) ∧
      (type = .softmax → s = "softmax".toList) := by
  have key : (∀ t ∈ type.names, t ∈ c.layer.typeNames) ∧ (type = .addition ↔ ∃ b l, c.layer = .addition b l) := by
    unfold createSized at h
    split at h
    · obtain ⟨b, hb, rfl⟩ := createSimple_ok h
      exact ⟨fun t ht => ht, by simp⟩
    · obtain ⟨b, hb, rfl⟩ := createSimple_ok h
      exact ⟨fun t ht => ht, by simp⟩
    · obtain ⟨b, hb, rfl⟩ := createSimple_ok h
      exact ⟨fun t ht => ht, by simp⟩
    · rename_i kind
      split at h
      · cases h
      · split at h
        · cases h
        · cases h
          cases kind with
          | lstm => exact ⟨fun t ht => ht, by simp⟩
          | gru => exact ⟨fun t ht => ht, by simp⟩
    · rename_i kind
      split at h
      · cases h
      · unfold createBidirectional at h
        simp only at h
        split at h
        · cases h
        · split at h
          · cases h
          · cases h
            cases kind with
            | lstm => exact ⟨fun t ht => ht, by simp⟩
            | gru => exact ⟨fun t ht => ht, by simp⟩
    · split at h
      · cases h
      · obtain ⟨b, hb, rfl⟩ := createSimple_ok h
        exact ⟨fun t ht => ht, by simp⟩
    · unfold createGlu at h
      split at h
      · cases h
      · split at h
        · split at h
          · cases h
          · obtain ⟨b, hb, rfl⟩ := createSimple_ok h
            exact ⟨fun t ht => ht, by simp⟩
        · cases h
    · split at h
      · cases h
      · split at h
        · cases h
        · obtain ⟨b, hb, rfl⟩ := createSimple_ok h
          exact ⟨fun t ht => ht, by simp⟩
    · obtain ⟨b, hb, rfl⟩ := createSimple_ok h
      exact ⟨fun t ht => ht, by simp⟩
    · unfold createHSoftmax at h
      split at h
      · cases h
      · obtain ⟨b, hb, rfl⟩ := createSimple_ok h
        exact ⟨fun t ht => ht, by simp⟩
  obtain ⟨t, ht1, ht2⟩ := layerType_names ht
  refine ⟨⟨t, key.1 t ht1, ht2⟩, key.2, ?_⟩
  rintro rfl
  obtain rfl : t = "softmax" := by simpa [LayerType.names] using ht1
  exact ht2

/-- The other options of the layers. -/
theorem createSized_options {env : CreateEnv S} {type : LayerType} {o : LayerOptions} {size : Nat} {c : Created S}
    (h : createSized env type o size = .ok c) :
    (∀ b scale, c.layer = .dropout b scale → dropoutScale env o = .ok scale) ∧
    (∀ b n i f, c.layer = .glu b n i f → filterSizeOption env o = .ok n) ∧ (∀ b u, c.layer = .softmax b u → u = env.unkClass) := by
  unfold createSized at h
  split at h
  · obtain ⟨b, hb, rfl⟩ := createSimple_ok h
    exact ⟨by simp, by simp, by simp⟩
  · obtain ⟨b, hb, rfl⟩ := createSimple_ok h
    exact ⟨by simp, by simp, by simp⟩
  · obtain ⟨b, hb, rfl⟩ := createSimple_ok h
    exact ⟨by simp, by simp, by simp⟩
  · rename_i kind
    split at h
    · cases h
    · split at h
      · cases h
      · cases h
        cases kind with
        | lstm => exact ⟨by simp, by simp, by simp⟩
        | gru => exact ⟨by simp, by simp, by simp⟩
  · rename_i kind
    split at h
    · cases h
    · unfold createBidirectional at h
      simp only at h
      split at h
      · cases h
      · split at h
        · cases h
        · cases h
          cases kind with
          | lstm => exact ⟨by simp, by simp, by simp⟩
          | gru => exact ⟨by simp, by simp, by simp⟩
  · split at h
    · cases h
    · obtain ⟨b, hb, rfl⟩ := createSimple_ok h
      exact ⟨by simp, by simp, by simp⟩
  · unfold createGlu at h
    split at h
    · cases h
    · rename_i length hf
      split at h
      · split at h
        · cases h
        · obtain ⟨b, hb, rfl⟩ := createSimple_ok h
          refine ⟨by simp, ?_, by simp⟩
          intro b' n i f hc
          injection hc with _ hc
          rw [← hc]
          exact hf
      · cases h
  · split at h
    · cases h
    · rename_i scale hs
      split at h
      · cases h
      · obtain ⟨b, hb, rfl⟩ := createSimple_ok h
        refine ⟨?_, by simp, by simp⟩
        intro b' sc hc
        injection hc with _ hc
        rw [← hc]
        exact hs
  · obtain ⟨b, hb, rfl⟩ := createSimple_ok h
    refine ⟨by simp, by simp, ?_⟩
    intro b' u hc
    injection hc with _ hc
    exact hc.symm
  · unfold createHSoftmax at h
    split at h
    · cases h
    · obtain ⟨b, hb, rfl⟩ := createSimple_ok h
      exact ⟨by simp, by simp, by simp⟩

theorem findLayer_ok {layers : List (Created S)} {name : Str} {i : Nat} (h : findLayer layers name = .ok i) :
    i < layers.length ∧ layers[i]?.map Created.name = some name := by
  unfold findLayer at h
  split at h
  · rename_i j hj
    cases h
    obtain ⟨hlt, hp, _⟩ := List.findIdx?_eq_some_iff_getElem.mp hj
    refine ⟨hlt, ?_⟩
    rw [List.getElem?_eq_getElem hlt, Option.map_some]
    exact congrArg some (of_decide_eq_true hp)
  · cases h

/-- The options of a layer. -/
theorem layerOptions_ok {env : CreateEnv S} {outputLayer : ArchVal} {layers : List (Created S)} {d : ArchDict} {o : LayerOptions}
    (h : layerOptions env outputLayer layers d = .ok o) :
    dictGet? d "name".toList = some (.one (.str o.name)) ∧
      (∃ e names, dictGet? d "inputs".toList = some e ∧ entryStrings e = .ok names ∧ mapE (findLayer layers) names = .ok o.inputs) ∧
      o.inputSizes = o.inputs.map (fun i => (layers[i]?.map Created.size).getD 0) ∧
      layerDevices env d = .ok o.devices ∧
      o.options = if ArchVal.str o.name = outputLayer then dictSet d "size".toList (.one (.int env.numClasses)) else d := by
  unfold layerOptions at h
  split at h
  · cases h
  · rename_i name hname
    split at h
    · cases h
    · rename_i e he
      split at h
      · cases h
      · rename_i names hnames
        split at h
        · cases h
        · rename_i inputs hinputs
          split at h
          · cases h
          · rename_i devices hdevices
            cases h
            exact ⟨strOption_ok hname, ⟨e, names, he, hnames, hinputs⟩, rfl, hdevices, rfl⟩

theorem entryStrings_many (names : List Str) : entryStrings (.many (names.map .str)) = .ok names := by
  unfold entryStrings
  induction names with
  | nil => rfl
  | cons a names ih =>
    rw [List.map_cons]
    exact mapE_cons_eq rfl ih

/-- A created layer. -/
theorem createLayer_ok {env : CreateEnv S} {o : LayerOptions} {c : Created S}
    (hp : ∀ p, env.priorBias = some p → dictGet? o.options "type".toList = some (.one (.str "softmax".toList)) → p.length = c.size)
    (h : createLayer env o = .ok c) :
    BasicsFrom o c ∧ ParamShapes env.priorBias o.inputSizes c ∧
      (∃ t ∈ c.layer.typeNames, dictGet? o.options "type".toList = some (.one (.str t.toList))) ∧
      (¬ (∃ b l, c.layer = .addition b l) → basicSize env o = .ok c.size) ∧
      ((∃ b l, c.layer = .addition b l) → additionSize env o = .ok c.size) := by
  unfold createLayer at h
  split at h
  · cases h
  · rename_i s hs
    split at h
    · cases h
    · rename_i type ht
      split at h
      · cases h
      · rename_i size hsize
        obtain ⟨k1, k2, k3⟩ := createSized_type ht h
        have hsz : c.size = size := by
          by_cases hpr : type = .softmax
          · subst hpr
            unfold createSized at h
            obtain ⟨b, hb, rfl⟩ := createSimple_ok h
            rfl
          · exact (createSized_ok (fun e => absurd e hpr) h).2.1
        obtain ⟨m1, m2, m3⟩ := createSized_ok (by
          intro e p hpp
          rw [← hsz]
          refine hp p hpp ?_
          rw [strOption_ok hs, k3 e]) h
        obtain ⟨t, ht1, ht2⟩ := k1
        refine ⟨m1, m3, ⟨t, ht1, ?_⟩, fun hna => ?_, fun ha => ?_⟩
        · rw [strOption_ok hs, ht2]
        · rw [if_neg (fun e => hna (k2.mp e))] at hsize
          rw [hsize, hsz]
        · rw [if_pos (k2.mpr ha)] at hsize
          rw [hsize, hsz]

theorem addLayer_ok {layers r : List (Created S)} {c : Created S} (h : addLayer layers c = .ok r) :
    r = layers ++ [c] ∧ ∀ c' ∈ layers, c'.name ≠ c.name := by
  unfold addLayer at h
  split at h
  · cases h
  · rename_i hn
    cases h
    refine ⟨rfl, fun c' hc' e => hn ?_⟩
    rw [List.any_eq_true]
    exact ⟨c', hc', by simpa using e⟩

theorem names_append {layers : List (Created S)} {c : Created S} (hn : (layers.map Created.name).Nodup)
    (h : ∀ c' ∈ layers, c'.name ≠ c.name) : ((layers ++ [c]).map Created.name).Nodup := by
  rw [List.map_append, List.nodup_append]
  refine ⟨hn, by simp, fun a ha b hb => ?_⟩
  obtain ⟨c', hc', rfl⟩ := List.mem_map.mp ha
  simp only [List.map_cons, List.map_nil, List.mem_singleton] at hb
  rw [hb]
  exact h c' hc'

/-- The network inputs. -/
theorem createInputs_trace {env : CreateEnv S} {ds : List ArchDict} {layers r : List (Created S)}
    (h : createInputs env ds layers = .ok r) :
    layers <+: r ∧ r.length = layers.length + ds.length ∧ ((layers.map Created.name).Nodup → (r.map Created.name).Nodup) ∧
      ∀ (j : Nat) (d : ArchDict), ds[j]? = some d → ∃ c, r[layers.length + j]? = some c ∧ createInput env d = .ok c := by
  induction ds generalizing layers with
  | nil => cases h; exact ⟨List.prefix_refl _, rfl, id, fun j d hd => by simp at hd⟩
  | cons d ds ih =>
    rw [createInputs] at h
    split at h
    · cases h
    · rename_i c hc
      split at h
      · cases h
      · rename_i l hl
        obtain ⟨rfl, hne⟩ := addLayer_ok hl
        obtain ⟨h1, h2, h3, h4⟩ := ih h
        refine ⟨List.IsPrefix.trans (List.prefix_append _ _) h1, ?_, fun hn => h3 (names_append hn hne), fun j d' hd' => ?_⟩
        · rw [h2]; simp; omega
        · cases j with
          | zero =>
            simp only [List.getElem?_cons_zero, Option.some.injEq] at hd'
            subst hd'
            refine ⟨c, ?_, hc⟩
            obtain ⟨t, rfl⟩ := h1
            simp
          | succ j =>
            obtain ⟨c', hc', hd''⟩ := h4 j d' (by simpa using hd')
            refine ⟨c', ?_, hd''⟩
            rw [← hc']
            congr 1
            simp
            omega

/-- The layers: each is created from its description and the layers before it. -/
theorem createLayers_trace {env : CreateEnv S} {outputLayer : ArchVal} {ds : List ArchDict} {layers r : List (Created S)}
    (h : createLayers env outputLayer ds layers = .ok r) :
    layers <+: r ∧ r.length = layers.length + ds.length ∧ ((layers.map Created.name).Nodup → (r.map Created.name).Nodup) ∧
      ∀ (j : Nat) (d : ArchDict), ds[j]? = some d → ∃ o c, r[layers.length + j]? = some c ∧
        layerOptions env outputLayer (r.take (layers.length + j)) d = .ok o ∧ createLayer env o = .ok c := by
  induction ds generalizing layers with
  | nil => cases h; exact ⟨List.prefix_refl _, rfl, id, fun j d hd => by simp at hd⟩
  | cons d ds ih =>
    rw [createLayers] at h
    split at h
    · cases h
    · rename_i o ho
      split at h
      · cases h
      · rename_i c hc
        split at h
        · cases h
        · rename_i l hl
          obtain ⟨rfl, hne⟩ := addLayer_ok hl
          obtain ⟨h1, h2, h3, h4⟩ := ih h
          refine ⟨List.IsPrefix.trans (List.prefix_append _ _) h1, ?_, fun hn => h3 (names_append hn hne), fun j d' hd' => ?_⟩
          · rw [h2]; simp; omega
          · cases j with
            | zero =>
              simp only [List.getElem?_cons_zero, Option.some.injEq] at hd'
              subst hd'
              obtain ⟨t, rfl⟩ := h1
              refine ⟨o, c, by simp, ?_, hc⟩
              rw [List.append_assoc, Nat.add_zero, List.take_left]
              exact ho
            | succ j =>
              obtain ⟨o', c', hc', ho', hd''⟩ := h4 j d' (by simpa using hd')
              have e : (layers ++ [c]).length + j = layers.length + (j + 1) := by simp; omega
              rw [e] at hc' ho'
              exact ⟨o', c', hc', ho', hd''⟩

end TheanoLM
