import Verif.Model.Gradient
import Verif.Props.UnusedLayers
/-!
# Architectures that cannot be trained: C138
-/
set_option linter.unusedSectionVars false

namespace TheanoLM

/-! ## Specification -/

/-- There is nothing to train in the layer: it is an input of the network, drops units out, or adds inputs that all have its size. -/
def NothingToTrain {S : Type} (c : Created S) : Prop :=
  match c.layer with
  | .wordInput => True
  | .classInput => True
  | .dropout _ _ => True
  | .addition _ sizes => ∀ s ∈ sizes, s = c.size
  | _ => False

/-! ## Lemmas -/

section
variable {S : Type} [Add S] [Mul S] [Sub S] [Div S] [Zero S] [One S] [Min S]

theorem meetLayers_mono (layers : List (Created S)) (n : Nat) (m : List Nat) : ∀ j ∈ m, j ∈ meetLayers layers n m := by
  induction n generalizing m with
  | zero => exact fun j hj => hj
  | succ n ih =>
    intro j hj
    rw [meetLayers]
    apply ih
    split
    · exact List.mem_append_right _ hj
    · exact hj

theorem meetLayers_closed {layers : List (Created S)} (he : ∀ i, ∀ j ∈ layerInputsAt layers i, j < i) (n : Nat) (m : List Nat)
    (hm : ∀ i ∈ m, n ≤ i → ∀ j ∈ layerInputsAt layers i, j ∈ m) :
    ∀ i ∈ meetLayers layers n m, ∀ j ∈ layerInputsAt layers i, j ∈ meetLayers layers n m := by
  induction n generalizing m with
  | zero => exact fun i hi j hj => hm i hi (Nat.zero_le _) j hj
  | succ n ih =>
    rw [meetLayers]
    apply ih
    by_cases hn : n ∈ m
    · rw [if_pos hn]
      intro i hi hle j hj
      rcases List.mem_append.mp hi with h | h
      · have := he n i h
        omega
      · by_cases e : i = n
        · subst e
          exact List.mem_append_left _ hj
        · exact List.mem_append_right _ (hm i h (by omega) j hj)
    · rw [if_neg hn]
      intro i hi hle j hj
      have : i ≠ n := fun e => hn (e ▸ hi)
      exact hm i hi (by omega) j hj

theorem layerInputsAt_mem {layers : List (Created S)} {i j : Nat} :
    j ∈ layerInputsAt layers i ↔ ∃ layer, (layers.map Created.layer)[i]? = some layer ∧ j ∈ layer.inputs := by
  unfold layerInputsAt
  rw [List.getElem?_map]
  cases layers[i]? with
  | none => simp
  | some c => simp

theorem meetLayers_sound {layers : List (Created S)} {output : Nat} (n : Nat) (m : List Nat)
    (hm : ∀ j ∈ m, ComputedFrom (layers.map Created.layer) output j) :
    ∀ j ∈ meetLayers layers n m, ComputedFrom (layers.map Created.layer) output j := by
  induction n generalizing m with
  | zero => exact hm
  | succ n ih =>
    rw [meetLayers]
    apply ih
    split
    · rename_i hn
      intro j hj
      rcases List.mem_append.mp hj with h | h
      · obtain ⟨layer, h1, h2⟩ := layerInputsAt_mem.mp h
        exact .input (hm n hn) h1 h2
      · exact hm j h
    · exact hm

theorem meetLayers_iff {layers : List (Created S)} {output : Nat} (he : ∀ i, ∀ j ∈ layerInputsAt layers i, j < i)
    (ho : output < layers.length) (j : Nat) :
    j ∈ meetLayers layers layers.length [output] ↔ ComputedFrom (layers.map Created.layer) output j := by
  constructor
  · apply meetLayers_sound
    intro j hj
    rw [List.mem_singleton] at hj
    subst hj
    exact .self
  · intro h
    induction h with
    | self => exact meetLayers_mono _ _ _ _ List.mem_cons_self
    | input _ hl hj ih =>
      refine meetLayers_closed he _ _ ?_ _ ih _ (layerInputsAt_mem.mpr ⟨_, hl, hj⟩)
      intro i hi hle
      rw [List.mem_singleton] at hi
      omega

theorem initParams_ne {α : Type} {devices : List (Option Str)} {name : Str} {value : List α} {l : List (Bool × Str × List α)}
    {d : ParamDict α} (h : initParams devices l [] = .ok d) (hm : (true, name, value) ∈ l) : d ≠ [] := by
  obtain ⟨⟨h1, h2⟩, _⟩ := (initParams_mem h).1 hm
  have h3 := h2 0 (List.length_pos_iff.mpr h1)
  rintro rfl
  unfold getParam at h3
  simp [dictGet?] at h3

theorem params_ne_weights {b : Basic S} (h : b.weights ≠ []) (name : Str) : b.params name ≠ [] := by
  unfold Basic.params dictParams
  simp [h]

theorem params_eq_nil {b : Basic S} (name : Str) : b.params name = [] ↔ b.weights = [] ∧ b.biases = [] := by
  unfold Basic.params dictParams
  simp

theorem additionWeights_nil (env : CreateEnv S) (name : Str) (size k : Nat) (sizes : List Nat) :
    additionWeights env name size k sizes = [] ↔ ∀ s ∈ sizes, s = size := by
  induction sizes generalizing k with
  | nil => simp [additionWeights]
  | cons s rest ih =>
    rw [additionWeights]
    by_cases h : s = size
    · rw [if_neg (by simpa using h), ih]
      simp [h]
    · rw [if_pos h]
      simp [h]

theorem additionWeights_split (env : CreateEnv S) (name : Str) (size k : Nat) (sizes : List Nat) :
    ∀ e ∈ additionWeights env name size k sizes, e.1 = true := by
  induction sizes generalizing k with
  | nil => simp [additionWeights]
  | cons s rest ih =>
    rw [additionWeights]
    split
    · intro e he
      rcases List.mem_cons.mp he with rfl | he
      · rfl
      · exact ih _ e he
    · exact ih _

theorem createSized_params {env : CreateEnv S} {type : LayerType} {o : LayerOptions} {size : Nat} {c : Created S}
    (h : createSized env type o size = .ok c) :
    c.layer.inputs = o.inputs ∧ ∀ name, c.layer.params name = [] ↔ NothingToTrain c := by
  unfold createSized at h
  split at h
  · obtain ⟨b, hb, rfl⟩ := createSimple_ok h
    obtain ⟨h1, h2, h3, h4, h5, h6⟩ := createBasic_ok hb
    exact ⟨h1, fun name => iff_of_false (params_ne_weights (initParams_ne h5 List.mem_cons_self) name) id⟩
  · obtain ⟨b, hb, rfl⟩ := createSimple_ok h
    obtain ⟨h1, h2, h3, h4, h5, h6⟩ := createBasic_ok hb
    exact ⟨h1, fun name => iff_of_false (params_ne_weights (initParams_ne h5 List.mem_cons_self) name) id⟩
  · obtain ⟨b, hb, rfl⟩ := createSimple_ok h
    obtain ⟨h1, h2, h3, h4, h5, h6⟩ := createBasic_ok hb
    refine ⟨h1, fun name => ?_⟩
    show b.params name = [] ↔ ∀ s ∈ o.inputSizes, s = size
    rw [params_eq_nil, ← additionWeights_nil env o.name size 0 o.inputSizes]
    have hbias : b.biases = [] := by
      rw [initParams] at h6
      injection h6 with h6
      exact h6.symm
    constructor
    · rintro ⟨hw, _⟩
      cases he : additionWeights env o.name size 0 o.inputSizes with
      | nil => rfl
      | cons e rest =>
        obtain ⟨s, n, v⟩ := e
        have hs := additionWeights_split env o.name size 0 o.inputSizes (s, n, v) (by rw [he]; exact List.mem_cons_self)
        simp only at hs
        subst hs
        rw [he] at h5
        exact absurd hw (initParams_ne h5 List.mem_cons_self)
    · intro he
      rw [he, initParams] at h5
      injection h5 with h5
      exact ⟨h5.symm, hbias⟩
  · rename_i kind
    split at h
    · cases h
    · split at h
      · cases h
      · rename_i b hb
        cases h
        obtain ⟨h1, h2, h3, h4, h5, h6⟩ := createBasic_ok hb
        exact ⟨h1, fun name => iff_of_false (params_ne_weights (initParams_ne h5 List.mem_cons_self) name) id⟩
  · rename_i kind
    split at h
    · cases h
    · unfold createBidirectional at h
      simp only at h
      split at h
      · cases h
      · rename_i f hf
        split at h
        · cases h
        · rename_i b hb
          cases h
          obtain ⟨h1, h2, h3, h4, h5, h6⟩ := createBasic_ok hf
          refine ⟨h1, fun name => iff_of_false (fun hn => ?_) id⟩
          exact params_ne_weights (initParams_ne h5 List.mem_cons_self) _ (List.append_eq_nil_iff.mp hn).1
  · split at h
    · cases h
    · obtain ⟨b, hb, rfl⟩ := createSimple_ok h
      obtain ⟨h1, h2, h3, h4, h5, h6⟩ := createBasic_ok hb
      exact ⟨h1, fun name => iff_of_false (params_ne_weights (initParams_ne h5 List.mem_cons_self) name) id⟩
  · unfold createGlu at h
    split at h
    · cases h
    · split at h
      · split at h
        · cases h
        · rename_i filters hf
          obtain ⟨b, hb, rfl⟩ := createSimple_ok h
          obtain ⟨h1, h2, h3, h4, h5, h6⟩ := createBasic_ok hb
          refine ⟨h1, fun name => iff_of_false (fun hn => ?_) id⟩
          have := (List.append_eq_nil_iff.mp hn).1
          unfold dictParams at this
          exact initParams_ne hf List.mem_cons_self (List.map_eq_nil_iff.mp this)
      · cases h
  · split at h
    · cases h
    · split at h
      · cases h
      · obtain ⟨b, hb, rfl⟩ := createSimple_ok h
        obtain ⟨h1, h2, h3, h4, h5, h6⟩ := createBasic_ok hb
        refine ⟨h1, fun name => iff_of_true ((params_eq_nil name).mpr ?_) trivial⟩
        rw [initParams] at h5 h6
        injection h5 with h5
        injection h6 with h6
        exact ⟨h5.symm, h6.symm⟩
  · obtain ⟨b, hb, rfl⟩ := createSimple_ok h
    obtain ⟨h1, h2, h3, h4, h5, h6⟩ := createBasic_ok hb
    exact ⟨h1, fun name => iff_of_false (params_ne_weights (initParams_ne h5 List.mem_cons_self) name) id⟩
  · unfold createHSoftmax at h
    split at h
    · cases h
    · obtain ⟨b, hb, rfl⟩ := createSimple_ok h
      obtain ⟨h1, h2, h3, h4, h5, h6⟩ := createBasic_ok hb
      refine ⟨h1, fun name => iff_of_false (fun hn => ?_) id⟩
      exact params_ne_weights (initParams_ne h5 List.mem_cons_self) name
        (List.append_eq_nil_iff.mp (List.append_eq_nil_iff.mp hn).1).1

theorem createLayer_params {env : CreateEnv S} {o : LayerOptions} {c : Created S} (h : createLayer env o = .ok c) :
    c.layer.inputs = o.inputs ∧ ∀ name, c.layer.params name = [] ↔ NothingToTrain c := by
  unfold createLayer at h
  split at h
  · cases h
  · split at h
    · cases h
    · split at h
      · cases h
      · exact createSized_params h

theorem createNetwork_params {env : CreateEnv S} {a : Architecture} {net : CreatedNetwork S} (h : createNetwork env a = .ok net) :
    net.output < net.layers.length ∧ ∀ k c, net.layers[k]? = some c →
      (∀ i ∈ c.layer.inputs, i < k) ∧ ∀ name, c.layer.params name = [] ↔ NothingToTrain c := by
  obtain ⟨inputs, h1, h2, h3⟩ := createNetwork_cases h
  obtain ⟨_, i2, i3, i4⟩ := createInputs_trace h1
  obtain ⟨l1, l2, l3, l4⟩ := createLayers_trace h2
  simp only [List.length_nil, Nat.zero_add] at i2 i4
  refine ⟨(List.findIdx?_eq_some_iff_getElem.mp h3).1, fun k c hk => ?_⟩
  have hlt := (List.getElem?_eq_some_iff.mp hk).1
  by_cases hki : k < a.inputs.length
  · obtain ⟨c', hc', hcd⟩ := i4 k _ (List.getElem?_eq_getElem hki)
    obtain ⟨t, ht⟩ := l1
    rw [← ht, List.getElem?_append_left (by omega), hc'] at hk
    cases hk
    rcases (createInput_ok hcd).type with ⟨_, hl, _⟩ | ⟨_, hl, _⟩
    all_goals
      refine ⟨(by rw [hl]; intro i hi; cases hi), fun name => ?_⟩
      unfold NothingToTrain
      rw [hl]
      exact iff_of_true rfl trivial
  · have hkl : k - inputs.length < a.layers.length := by omega
    obtain ⟨o, c', hc', ho, hcd⟩ := l4 (k - inputs.length) _ (List.getElem?_eq_getElem hkl)
    rw [show inputs.length + (k - inputs.length) = k by omega] at hc' ho
    rw [hk] at hc'
    cases hc'
    obtain ⟨p1, p2⟩ := createLayer_params hcd
    refine ⟨fun i hi => ?_, p2⟩
    obtain ⟨_, ⟨e, names, _, _, o4⟩, _⟩ := layerOptions_ok ho
    rw [p1] at hi
    obtain ⟨name, _, hn⟩ := mapE_mem o4 hi
    have := (findLayer_ok hn).1
    rw [List.length_take] at this
    omega

theorem networkVariables_mem {net : CreatedNetwork S} {k : Nat} {p : Str} :
    (k, p) ∈ networkVariables net ↔ ∃ c, net.layers[k]? = some c ∧ p ∈ (c.layer.params c.name).map Prod.fst := by
  unfold networkVariables
  rw [List.mem_flatMap]
  constructor
  · rintro ⟨⟨c, i⟩, h1, h2⟩
    obtain ⟨q, hq, e⟩ := List.mem_map.mp h2
    cases e
    exact ⟨c, List.mem_zipIdx_iff_getElem?.mp h1, List.mem_map.mpr ⟨q, hq, rfl⟩⟩
  · rintro ⟨c, h1, h2⟩
    obtain ⟨q, hq, rfl⟩ := List.mem_map.mp h2
    exact ⟨(c, k), List.mem_zipIdx_iff_getElem?.mpr h1, List.mem_map.mpr ⟨q, hq, rfl⟩⟩

theorem costLayers_iff {env : CreateEnv S} {a : Architecture} {net : CreatedNetwork S} (h : createNetwork env a = .ok net)
    (l1 l2 : Option S) {j : Nat} (hj : j < net.layers.length) :
    j ∈ costLayers net l1 l2 ↔ l1.isSome ∨ l2.isSome ∨ ComputedFrom (net.layers.map Created.layer) net.output j := by
  obtain ⟨h1, h2⟩ := createNetwork_params h
  have he : ∀ i, ∀ j ∈ layerInputsAt net.layers i, j < i := by
    intro i j hj
    unfold layerInputsAt at hj
    cases hc : net.layers[i]? with
    | none => rw [hc] at hj; cases hj
    | some c => rw [hc] at hj; exact (h2 i c hc).1 j hj
  unfold costLayers
  cases l1 <;> cases l2 <;> simp [hj, meetLayers_iff he h1]

/-! ## The properties -/

/-- **C138** A network can be trained exactly when its output is computed from every layer where there is something to train, or when a
regularization term is added to the cost. -/
theorem C138_trainable_iff {env : CreateEnv S} {a : Architecture} {net : CreatedNetwork S} (h : createNetwork env a = .ok net)
    (l1 l2 : Option S) :
    (buildOptimizer net l1 l2).outcome = .ok () ↔ l1.isSome ∨ l2.isSome ∨
      ∀ k c, net.layers[k]? = some c → NothingToTrain c ∨ ComputedFrom (net.layers.map Created.layer) net.output k := by
  have key : (buildOptimizer net l1 l2).outcome = .ok () ↔ ∀ v ∈ networkVariables net, v.1 ∈ costLayers net l1 l2 := by
    unfold buildOptimizer gradientOf
    cases hf : (networkVariables net).find? fun v => decide (v.1 ∉ costLayers net l1 l2) with
    | none =>
      rw [List.find?_eq_none] at hf
      simpa using hf
    | some v =>
      have h1 := List.mem_of_find?_eq_some hf
      have h2 := List.find?_some hf
      simp only [reduceCtorEq, false_iff, not_forall]
      exact ⟨v, h1, by simpa using h2⟩
  rw [key]
  obtain ⟨h1, h2⟩ := createNetwork_params h
  constructor
  · intro hv
    by_cases hl1 : l1.isSome
    · exact .inl hl1
    · by_cases hl2 : l2.isSome
      · exact .inr (.inl hl2)
      · refine .inr (.inr fun k c hc => ?_)
        by_cases hn : NothingToTrain c
        · exact .inl hn
        · have hne := mt ((h2 k c hc).2 c.name).mp hn
          obtain ⟨p, hp⟩ := List.exists_mem_of_ne_nil _ hne
          have := hv (k, p.1) (networkVariables_mem.mpr ⟨c, hc, List.mem_map.mpr ⟨p, hp, rfl⟩⟩)
          rw [costLayers_iff h l1 l2 (List.getElem?_eq_some_iff.mp hc).1] at this
          rcases this with g | g | g
          · exact absurd g hl1
          · exact absurd g hl2
          · exact .inr g
  · rintro hall ⟨k, p⟩ hv
    obtain ⟨c, hc, hp⟩ := networkVariables_mem.mp hv
    rw [costLayers_iff h l1 l2 (List.getElem?_eq_some_iff.mp hc).1]
    rcases hall with g | g | g
    · exact .inl g
    · exact .inr (.inl g)
    · rcases g k c hc with g | g
      · rw [((h2 k c hc).2 c.name).mpr g] at hp
        cases hp
      · exact .inr (.inr g)

/-- **C138** When a network cannot be trained, the command prints a message that names a parameter of a layer that the output is not
computed from, and then ends in an error of another kind: a variable that has not been assigned is used. -/
theorem C138_message {env : CreateEnv S} {a : Architecture} {net : CreatedNetwork S} (h : createNetwork env a = .ok net)
    (l1 l2 : Option S) (hf : (buildOptimizer net l1 l2).outcome ≠ .ok ()) :
    (buildOptimizer net l1 l2).outcome = .error .nameError ∧ ∃ p k c, (buildOptimizer net l1 l2).printed = some p ∧
      net.layers[k]? = some c ∧ p ∈ (c.layer.params c.name).map Prod.fst ∧ ¬ ComputedFrom (net.layers.map Created.layer) net.output k := by
  unfold buildOptimizer gradientOf at hf ⊢
  cases hv : (networkVariables net).find? fun v => decide (v.1 ∉ costLayers net l1 l2) with
  | none => rw [hv] at hf; exact absurd rfl hf
  | some v =>
    obtain ⟨k, p⟩ := v
    obtain ⟨c, hc, hp⟩ := networkVariables_mem.mp (List.mem_of_find?_eq_some hv)
    have h2 := List.find?_some hv
    simp only [decide_eq_true_eq] at h2
    refine ⟨rfl, p, k, c, rfl, hc, hp, fun hcf => h2 ?_⟩
    exact (costLayers_iff h l1 l2 (List.getElem?_eq_some_iff.mp hc).1).mpr (.inr (.inr hcf))

/-- **C138** Nothing is printed about a network that can be trained. -/
theorem C138_silent (net : CreatedNetwork S) (l1 l2 : Option S) (h : (buildOptimizer net l1 l2).outcome = .ok ()) :
    (buildOptimizer net l1 l2).printed = none := by
  unfold buildOptimizer at h ⊢
  cases hg : gradientOf net l1 l2 with
  | ok _ => rfl
  | error p => rw [hg] at h; cases h

end

/-! ## Examples -/

/-- The layer "u" of the example is not connected; the network can be trained only with regularization. -/
example : ∃ net, createNetwork exampleEnv exampleUnused = .ok net ∧
    (buildOptimizer net none none).printed = some "layers/u/W".toList ∧ (buildOptimizer net none (some 1)).printed = none ∧
    (buildOptimizer net (some 1) none).printed = none := by
  decide +kernel

/-- A network with nothing disconnected. -/
example : ∃ net, createNetwork exampleEnv exampleDescription = .ok net ∧ (buildOptimizer net none none).printed = none := by
  decide +kernel

end TheanoLM
