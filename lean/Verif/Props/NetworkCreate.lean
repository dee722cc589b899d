import Verif.Lemmas.NetworkTrace
/-!
# Creation of a network from its description (C80)
-/
namespace TheanoLM
set_option linter.unusedSectionVars false

section
variable {S : Type} [Add S] [Mul S] [Sub S] [Div S] [Zero S] [One S] [Min S]

theorem activationOption_ok {d : ArchDict} {a : Activation} (h : activationOption d = .ok a) :
    dictGet? d "activation".toList = some (.one (.str a.optionName.toList)) ∨ dictGet? d "activation".toList = none ∧ a = .tanh := by
  unfold activationOption at h
  split at h
  · rename_i hn
    cases h
    exact Or.inr ⟨hn, rfl⟩
  · rename_i e he
    left
    by_cases h1 : e = .one (.str "tanh".toList)
    · rw [if_pos h1] at h
      cases h
      rw [he, h1]
      rfl
    rw [if_neg h1] at h
    by_cases h2 : e = .one (.str "relu".toList)
    · rw [if_pos h2] at h
      cases h
      rw [he, h2]
      rfl
    rw [if_neg h2] at h
    by_cases h3 : e = .one (.str "leakyrelu".toList)
    · rw [if_pos h3] at h
      cases h
      rw [he, h3]
      rfl
    rw [if_neg h3] at h
    cases h

theorem createInput_ok {env : CreateEnv S} {d : ArchDict} {c : Created S} (h : createInput env d = .ok c) : DescribedInput env d c := by
  unfold createInput at h
  split at h
  · cases h
  · rename_i type ht
    by_cases h1 : type = "word".toList
    · rw [if_pos h1] at h
      split at h
      · rename_i name a hn ha
        cases h
        exact ⟨strOption_ok hn, Or.inl ⟨h1 ▸ strOption_ok ht, rfl, rfl⟩⟩
      · cases h
      · cases h
    rw [if_neg h1] at h
    by_cases h2 : type = "class".toList
    · rw [if_pos h2] at h
      split at h
      · rename_i name a hn ha
        cases h
        exact ⟨strOption_ok hn, Or.inr ⟨h2 ▸ strOption_ok ht, rfl, rfl⟩⟩
      · cases h
      · cases h
    rw [if_neg h2] at h
    cases h

theorem optionsGet {env : CreateEnv S} {outputLayer : ArchVal} {d : ArchDict} {o : LayerOptions}
    (ho : o.options = if ArchVal.str o.name = outputLayer then dictSet d "size".toList (.one (.int env.numClasses)) else d)
    {key : Str} (hk : key ≠ "size".toList) : dictGet? o.options key = dictGet? d key := by
  rw [ho]
  split
  · rw [dictGet?_set, if_neg hk]
  · rfl

theorem getElem?_take_size {layers : List (Created S)} {k i : Nat} (h : i < k) : (layers.take k)[i]? = layers[i]? := by
  rw [List.getElem?_take, if_pos h]

/-- The facts about a layer that was created from its description and the layers before it. -/
theorem described_of_created {env : CreateEnv S} {outputLayer : ArchVal} {layers : List (Created S)} {k : Nat} {d : ArchDict}
    {o : LayerOptions} {c : Created S} (hk : k ≤ layers.length)
    (hp : ∀ p, env.priorBias = some p → p.length = env.numClasses ∧
      (dictGet? d "type".toList = some (.one (.str "softmax".toList)) → ∀ n, dictGet? d "name".toList = some (.one (.str n)) → .str n = outputLayer))
    (ho : layerOptions env outputLayer (layers.take k) d = .ok o) (hc : createLayer env o = .ok c) :
    Described env outputLayer layers k d c ∧ ParamShapes env.priorBias (inputSizesOf layers c) c ∧ (∀ i ∈ c.layer.inputs, i < k) ∧
      (∀ b ∈ c.layer.basics, b.inputs = c.layer.inputs ∧ (b.devices = [none] ∨ b.devices ≠ [])) := by
  obtain ⟨o1, ⟨e, names, o2, o3, o4⟩, o5, o6, o7⟩ := layerOptions_ok ho
  have hin : ∀ i ∈ o.inputs, i < k := by
    intro i hi
    obtain ⟨name, _, hn⟩ := mapE_mem o4 hi
    have := (findLayer_ok hn).1
    rw [List.length_take] at this
    omega
  have hlen : o.inputSizes = o.inputs.map fun i => (layers[i]?.map Created.size).getD 0 := by
    rw [o5]
    apply List.map_congr_left
    intro i hi
    rw [getElem?_take_size (hin i hi)]
  -- the size of the output layer
  have hout : ArchVal.str o.name = outputLayer → dictGet? o.options "size".toList = some (.one (.int env.numClasses)) := by
    intro h
    rw [o7, if_pos h, dictGet?_set, if_pos rfl]
  have hsizes : (basicSize env o = .ok c.size ∨ additionSize env o = .ok c.size) → ArchVal.str o.name = outputLayer → c.size = env.numClasses := by
    intro h hn
    have e1 : entrySize env.parseInt (.one (.int env.numClasses)) = .ok env.numClasses := by
      show (if (env.numClasses : ℤ) < 0 then Except.error Err.valueError else Except.ok (env.numClasses : ℤ).toNat) = _
      rw [if_neg (by omega)]
      rfl
    rcases h with h | h
    · unfold basicSize at h
      rw [hout hn] at h
      simp only [e1] at h
      injection h with h
      exact h.symm
    · unfold additionSize at h
      rw [hout hn] at h
      simp only [e1] at h
      injection h with h
      exact h.symm
  have htype : dictGet? o.options "type".toList = dictGet? d "type".toList := optionsGet o7 (by decide)
  have hact : dictGet? o.options "activation".toList = dictGet? d "activation".toList := optionsGet o7 (by decide)
  have hprior : ∀ p, env.priorBias = some p → dictGet? o.options "type".toList = some (.one (.str "softmax".toList)) → p.length = c.size := by
    intro p hpp ht
    obtain ⟨q1, q2⟩ := hp p hpp
    rw [htype] at ht
    have hn := q2 ht o.name o1
    rw [q1]
    symm
    refine hsizes ?_ hn
    -- the type softmax is not the addition
    unfold createLayer at hc
    split at hc
    · cases hc
    · rename_i s hs
      split at hc
      · cases hc
      · split at hc
        · cases hc
        · rename_i size hsize
          have es : c.size = size := by
            rename_i type hty _
            have : s = "softmax".toList := by
              have := strOption_ok hs
              rw [htype, ht] at this
              injection this with this
              injection this with this
              injection this with this
              exact this.symm
            subst this
            have : type = .softmax := by
              have h2 : layerType "softmax".toList = some .softmax := by decide
              rw [h2] at hty
              injection hty with hty
              exact hty.symm
            subst this
            unfold createSized at hc
            obtain ⟨b, _, rfl⟩ := createSimple_ok hc
            rfl
          split at hsize
          · right; rw [hsize, es]
          · left; rw [hsize, es]
  obtain ⟨⟨b1, b2, b3⟩, c2, c3, c4, c5⟩ := createLayer_ok hprior hc
  obtain ⟨t1, t2, t3⟩ : (∀ b scale, c.layer = .dropout b scale → dropoutScale env o = .ok scale) ∧
      (∀ b n i f, c.layer = .glu b n i f → filterSizeOption env o = .ok n) ∧ (∀ b u, c.layer = .softmax b u → u = env.unkClass) := by
    unfold createLayer at hc
    split at hc
    · cases hc
    · split at hc
      · cases hc
      · split at hc
        · cases hc
        · exact createSized_options hc
  have hins : inputSizesOf layers c = o.inputSizes := by
    unfold inputSizesOf
    rw [b2, hlen]
  have hopt : ArchVal.str c.name ≠ outputLayer → o.options = d := by
    intro h
    rw [o7, if_neg (by rwa [b1] at h)]
  refine ⟨⟨by rw [b1]; exact o1, ?_, ?_, ?_, ?_, ?_, ?_, ?_, ?_, ?_, ?_, ?_⟩, by rw [hins]; exact c2, by rw [b2]; exact hin, ?_⟩
  · obtain ⟨t, ht1, ht2⟩ := c3
    exact ⟨t, ht1, by rw [← htype]; exact ht2⟩
  · intro names' hn'
    rw [o2] at hn'
    injection hn' with hn'
    subst hn'
    rw [entryStrings_many] at o3
    cases o3
    rw [b2]
    refine List.Forall₂.imp ?_ (mapE_ok o4)
    intro name i h
    obtain ⟨h1, h2⟩ := findLayer_ok h
    rw [List.length_take] at h1
    refine ⟨by omega, ?_⟩
    rwa [getElem?_take_size (by omega)] at h2
  · intro h
    rw [b1] at h
    by_cases ha : ∃ b l, c.layer = .addition b l
    · exact hsizes (Or.inr (c5 ha)) h
    · exact hsizes (Or.inl (c4 ha)) h
  · intro z h hz
    have hz' : dictGet? o.options "size".toList = some (.one (.int z)) := by rw [hopt h]; exact hz
    have key : ∀ n, entrySize env.parseInt (.one (.int z)) = .ok n → (n : ℤ) = z := by
      intro n hn
      change (if z < 0 then _ else _) = _ at hn
      split at hn
      · cases hn
      · injection hn with hn
        omega
    by_cases ha : ∃ b l, c.layer = .addition b l
    · have := c5 ha
      unfold additionSize at this
      rw [hz'] at this
      exact key _ this
    · have := c4 ha
      unfold basicSize at this
      rw [hz'] at this
      exact key _ this
  · intro h hz ha
    have hz' : dictGet? o.options "size".toList = none := by rw [hopt h]; exact hz
    have := c4 ha
    unfold basicSize at this
    rw [hz'] at this
    injection this with this
    rw [hins, ← this]
  · intro b s h hz ha
    have hz' : dictGet? o.options "size".toList = none := by rw [hopt h]; exact hz
    have := c5 ⟨b, s, ha⟩
    unfold additionSize at this
    rw [hz'] at this
    rw [hins]
    simp only at this
    split at this
    · cases this
    · rename_i he
      injection this with this
      rw [he, ← this]
      rfl
  · intro b hb
    have := activationOption_ok (b3 b hb).2.2
    rwa [hact] at this
  · intro names' hn' b hb
    rw [(b3 b hb).2.1]
    unfold layerDevices at o6
    rw [hn'] at o6
    simp only at o6
    by_cases he : names' = []
    · subst he
      rw [if_pos (show (ArchEntry.many (List.map ArchVal.str [])).falsy = true from rfl)] at o6
      rw [if_pos rfl]
      injection o6 with o6
      exact o6.symm
    · rw [if_neg (by simp [ArchEntry.falsy, he]), entryStrings_many] at o6
      rw [if_neg he]
      injection o6 with o6
      exact o6.symm
  · intro b scale hl
    have hs := t1 b scale hl
    unfold dropoutScale at hs
    rw [optionsGet o7 (by decide)] at hs
    constructor
    · intro hn
      rw [hn] at hs
      injection hs with hs
      exact hs.symm
    · intro v rate hv hr
      rw [hv] at hs
      simp only [hr] at hs
      injection hs with hs
      exact hs.symm
  · intro b length i f hl
    have hs := t2 b length i f hl
    unfold filterSizeOption at hs
    rw [optionsGet o7 (by decide)] at hs
    constructor
    · intro hn
      rw [hn] at hs
      injection hs with hs
      exact hs.symm
    · intro z hz
      rw [hz] at hs
      change (if z < 0 then _ else _) = _ at hs
      split at hs
      · cases hs
      · injection hs with hs
        omega
  · exact t3
  · intro b hb
    refine ⟨by rw [(b3 b hb).1, b2], Or.inr ?_⟩
    rw [(b3 b hb).2.1]
    unfold layerDevices at o6
    split at o6
    · injection o6 with o6; rw [← o6]; simp
    · split at o6
      · injection o6 with o6; rw [← o6]; simp
      · rename_i e' he' hf
        split at o6
        · cases o6
        · rename_i ds hds
          injection o6 with o6
          rw [← o6]
          intro h0
          have : ds = [] := by simpa using h0
          subst this
          cases e' with
          | one v =>
            cases v with
            | str s =>
              simp only [entryStrings, Except.ok.injEq, List.map_eq_nil_iff] at hds
              subst hds
              simp [ArchEntry.falsy] at hf
            | int i => simp [entryStrings] at hds
          | many vs =>
            have := mapE_length hds
            have hvs : vs = [] := List.length_eq_zero_iff.mp this.symm
            subst hvs
            simp [ArchEntry.falsy] at hf

/-- The prior probabilities of the classes are only used by a softmax output layer, which has a unit for each class. -/
def PriorFits (env : CreateEnv S) (a : Architecture) : Prop :=
  ∀ p, env.priorBias = some p → p.length = env.numClasses ∧ ∀ d ∈ a.layers,
    dictGet? d "type".toList = some (.one (.str "softmax".toList)) →
      ∀ n, dictGet? d "name".toList = some (.one (.str n)) → .str n = a.outputLayer

theorem createNetwork_cases {env : CreateEnv S} {a : Architecture} {net : CreatedNetwork S} (h : createNetwork env a = .ok net) :
    ∃ inputs, createInputs env a.inputs [] = .ok inputs ∧ createLayers env a.outputLayer a.layers inputs = .ok net.layers ∧
      net.layers.findIdx? (fun c => ArchVal.str c.name = a.outputLayer) = some net.output := by
  unfold createNetwork at h
  split at h
  · cases h
  · rename_i inputs hi
    split at h
    · cases h
    · rename_i layers hl
      split at h
      · cases h
      · rename_i i hf
        cases h
        exact ⟨inputs, hi, hl, hf⟩

/-- C80: a network that is created has an input for every input and a layer for every layer of the description, in that order, with
distinct names; each of them is what its description says, and the output layer is the one that the description names. -/
theorem C80_layers (env : CreateEnv S) (a : Architecture) (net : CreatedNetwork S) (hp : PriorFits env a)
    (h : createNetwork env a = .ok net) :
    net.layers.length = a.inputs.length + a.layers.length ∧ (net.layers.map Created.name).Nodup ∧
    (∀ (k : Nat) (d : ArchDict), a.inputs[k]? = some d → ∃ c, net.layers[k]? = some c ∧ DescribedInput env d c) ∧
    (∀ (k : Nat) (d : ArchDict), a.layers[k]? = some d → ∃ c, net.layers[a.inputs.length + k]? = some c ∧
      Described env a.outputLayer net.layers (a.inputs.length + k) d c) ∧
    ∃ c, net.layers[net.output]? = some c ∧ .str c.name = a.outputLayer := by
  obtain ⟨inputs, h1, h2, h3⟩ := createNetwork_cases h
  obtain ⟨_, i2, i3, i4⟩ := createInputs_trace h1
  obtain ⟨l1, l2, l3, l4⟩ := createLayers_trace h2
  simp only [List.length_nil, Nat.zero_add] at i2 i4
  refine ⟨by rw [l2, i2], l3 (i3 (by simp)), fun k d hd => ?_, fun k d hd => ?_, ?_⟩
  · obtain ⟨c, hc, hcd⟩ := i4 k d hd
    obtain ⟨t, ht⟩ := l1
    refine ⟨c, ?_, createInput_ok hcd⟩
    rw [← ht, List.getElem?_append_left (List.getElem?_eq_some_iff.mp hc).1]
    exact hc
  · obtain ⟨o, c, hc, ho, hcd⟩ := l4 k d hd
    rw [i2] at hc ho
    refine ⟨c, hc, (described_of_created ?_ ?_ ho hcd).1⟩
    · have := (List.getElem?_eq_some_iff.mp hc).1
      omega
    · exact fun p hpp => ⟨(hp p hpp).1, (hp p hpp).2 d (List.mem_of_getElem? hd)⟩
  · obtain ⟨hlt, hpr, _⟩ := List.findIdx?_eq_some_iff_getElem.mp h3
    exact ⟨_, List.getElem?_eq_getElem hlt, of_decide_eq_true hpr⟩

/-- C80: the parameters of every layer have the shapes that the sizes of the layer and its inputs require, however they are divided to
devices, and the biases have their initial values.  The inputs of a layer are before it. -/
theorem C80_parameters (env : CreateEnv S) (a : Architecture) (net : CreatedNetwork S) (hp : PriorFits env a)
    (h : createNetwork env a = .ok net) (k : Nat) (c : Created S) (hc : net.layers[k]? = some c) :
    ParamShapes env.priorBias (inputSizesOf net.layers c) c ∧ (∀ i ∈ c.layer.inputs, i < k) ∧
      ∀ b ∈ c.layer.basics, b.inputs = c.layer.inputs := by
  obtain ⟨inputs, h1, h2, h3⟩ := createNetwork_cases h
  obtain ⟨_, i2, i3, i4⟩ := createInputs_trace h1
  obtain ⟨l1, l2, l3, l4⟩ := createLayers_trace h2
  simp only [List.length_nil, Nat.zero_add] at i2 i4
  have hk := (List.getElem?_eq_some_iff.mp hc).1
  by_cases hlt : k < a.inputs.length
  · obtain ⟨c', hc', hcd⟩ := i4 k _ (List.getElem?_eq_getElem hlt)
    have e : c = c' := by
      obtain ⟨t, ht⟩ := l1
      rw [← ht, List.getElem?_append_left (by omega), hc'] at hc
      injection hc with hc
      exact hc.symm
    subst e
    rcases (createInput_ok hcd).type with ⟨_, hl, _⟩ | ⟨_, hl, _⟩
    · simp [ParamShapes, hl, Layer.inputs, Layer.basics]
    · simp [ParamShapes, hl, Layer.inputs, Layer.basics]
  · have hk' : k - a.inputs.length < a.layers.length := by omega
    obtain ⟨o, c', hc', ho, hcd⟩ := l4 _ _ (List.getElem?_eq_getElem hk')
    rw [i2, show a.inputs.length + (k - a.inputs.length) = k by omega] at hc' ho
    rw [hc] at hc'
    injection hc' with hc'
    subst hc'
    obtain ⟨_, m2, m3, m4⟩ := described_of_created (by omega)
      (fun p hpp => ⟨(hp p hpp).1, (hp p hpp).2 _ (List.getElem_mem hk')⟩) ho hcd
    exact ⟨m2, m3, fun b hb => (m4 b hb).1⟩

end

end TheanoLM
