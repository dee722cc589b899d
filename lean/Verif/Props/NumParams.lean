import Verif.Model.NumParams
import Verif.Lemmas.PackageArchitecture
import Verif.Props.Disconnected
import Verif.Props.NetworkState
/-!
# The number of parameters: C141
-/
set_option linter.unusedSectionVars false

namespace TheanoLM

/-! ## Specification -/

/-- The number of matrices in the gates and the candidate of a recurrent unit. -/
def unitParts : CellKind → Nat
  | .lstm => 4
  | .gru => 3

/-- The number of parameters of a layer whose inputs have the sizes `ins`: a weight matrix has a row for each input and a column for each
output, and a bias has an element for each output. -/
def expectedParams {S : Type} (ins : List Nat) (c : Created S) : Nat :=
  match c.layer with
  | .wordInput => 0
  | .classInput => 0
  | .projection _ => ins.sum * c.size
  | .fullyConnected _ => (ins.sum + 1) * c.size
  | .addition _ _ => ((ins.filter fun n => n ≠ c.size).map fun n => n * c.size).sum
  | .recurrent kind _ => unitParts kind * ((ins.sum + c.size + 1) * c.size)
  | .bidirectional kind _ _ =>
    unitParts kind * ((ins.sum + (c.size - c.size / 2) + 1) * (c.size - c.size / 2)) +
      unitParts kind * ((ins.sum + c.size / 2 + 1) * (c.size / 2))
  | .highway _ => 2 * ((ins.sum + 1) * c.size)
  | .glu _ filterSize _ _ => 2 * ((filterSize * ins.sum + 1) * c.size)
  | .dropout _ _ => 0
  | .softmax _ _ => (ins.sum + 1) * c.size
  | .hsoftmax _ level1 level2 _ _ => (ins.sum + 1) * level1 + level1 * ((ins.sum + 1) * level2)

/-! ## Lemmas -/

/-- The number of elements in a dictionary, when a slice has `f` elements. -/
def dictTotal {α : Type} (f : α → Nat) (d : ParamDict α) : Nat := (d.map fun e => (e.2.map f).sum).sum

section
variable {α : Type} (f : α → Nat)

theorem addParam_total {path : Str} {value : List α} {d d' : ParamDict α} (h : addParam path value d = .ok d') :
    dictTotal f d' = dictTotal f d + (value.map f).sum := by
  obtain ⟨rfl, _⟩ := addParam_ok h
  simp [dictTotal]

theorem addParts_total {name : Str} {value : List α} {parts : List (Option Str × (Nat × Nat))} {d d' : ParamDict α}
    (h : addParts name value parts d = .ok d') :
    dictTotal f d' = dictTotal f d + (parts.map fun e => ((deviceChunk value e.2).map f).sum).sum := by
  induction parts generalizing d with
  | nil => cases h; simp
  | cons e parts ih =>
    obtain ⟨e, r⟩ := e
    cases e with
    | none => cases h
    | some e =>
      rw [addParts] at h
      split at h
      · cases h
      · rename_i d1 h1
        rw [ih h, addParam_total f h1]
        simp only [List.map_cons, List.sum_cons]
        show dictTotal f d + ((deviceChunk value r).map f).sum + _ = _
        omega

theorem initParam_total {devices : List (Option Str)} {split : Bool} {name : Str} {value : List α} {d d' : ParamDict α}
    (h : initParam devices split name value d = .ok d') : dictTotal f d' = dictTotal f d + (value.map f).sum := by
  unfold initParam at h
  split at h
  · exact addParam_total f h
  · split at h
    · exact addParam_total f h
    · split at h
      · cases h
      · rename_i ranges hr
        obtain ⟨h0, h1⟩ := splitPerDevice_ok hr
        rw [splitPerDevice_eq h0 h1] at hr
        injection hr with hr
        have hc := chunks_cover value h0
        rw [addParts_total f h]
        congr 1
        have hz : (devices.zip ranges).map (fun e => ((deviceChunk value e.2).map f).sum) =
            ranges.map fun r => ((deviceChunk value r).map f).sum := by
          rw [show (fun e : Option Str × (Nat × Nat) => ((deviceChunk value e.2).map f).sum) =
            (fun r => ((deviceChunk value r).map f).sum) ∘ Prod.snd from rfl, ← List.map_map, List.map_snd_zip]
          rw [← hr]
          simp
        rw [hz]
        conv_rhs => rw [← hc]
        rw [← hr, List.map_flatten, List.sum_flatten, List.map_map, List.map_map, List.map_map]
        rfl

theorem initParams_total {devices : List (Option Str)} {l : List (Bool × Str × List α)} {d d' : ParamDict α}
    (h : initParams devices l d = .ok d') : dictTotal f d' = dictTotal f d + (l.map fun e => (e.2.2.map f).sum).sum := by
  induction l generalizing d with
  | nil => cases h; simp
  | cons e l ih =>
    obtain ⟨split, name, value⟩ := e
    rw [initParams] at h
    split at h
    · cases h
    · rename_i d1 h1
      rw [ih h, initParam_total f h1]
      simp only [List.map_cons, List.sum_cons]
      omega

end

section
variable {S : Type} [Add S] [Mul S] [Sub S] [Div S] [Zero S] [One S] [Min S]

theorem dictParams_total {α : Type} {f : α → Nat} {enc : List α → Arr S} (he : ∀ v, (enc v).data.length = (v.map f).sum) (layer : Str)
    (d : ParamDict α) : ((dictParams enc layer d).map fun p => p.2.data.length).sum = dictTotal f d := by
  unfold dictParams dictTotal
  rw [List.map_map]
  congr 1
  apply List.map_congr_left
  intro e _
  exact he e.2

theorem encVector_total (v : List S) : (encVector v).data.length = (v.map fun _ => 1).sum := by
  simp [encVector]

theorem encMatrix_total (v : List (List S)) : (encMatrix v).data.length = (v.map List.length).sum := by
  simp [encMatrix]

theorem encTensor_total (v : List (List (List S))) : (encTensor v).data.length = (v.map fun m => (m.map List.length).sum).sum := by
  simp [encTensor, List.length_flatten, List.map_flatten, List.sum_flatten, Function.comp_def]

theorem encLevel_total (v : List (List (List S))) : (encLevel v).data.length = (v.map fun m => (m.map List.length).sum).sum := by
  simp [encLevel, List.length_flatten, List.map_flatten, List.sum_flatten, Function.comp_def]

theorem params_total {o : LayerOptions} {size : Nat} {weights : List (Bool × Str × List (List S))} {biases : List (Bool × Str × List S)}
    {b : Basic S} (h : createBasic o size weights biases = .ok b) (name : Str) :
    ((b.params name).map fun p => p.2.data.length).sum =
      (weights.map fun e => (e.2.2.map List.length).sum).sum + (biases.map fun e => e.2.2.length).sum := by
  obtain ⟨_, _, _, _, h5, h6⟩ := createBasic_ok h
  unfold Basic.params
  rw [List.map_append, List.sum_append, dictParams_total encMatrix_total, dictParams_total encVector_total, initParams_total _ h5,
    initParams_total _ h6]
  simp [dictTotal]

theorem shaped_total {W : List (List S)} {rows columns : Nat} (h : W.length = columns ∧ ∀ c ∈ W, c.length = rows) :
    (W.map List.length).sum = rows * columns := by
  rw [show W.map List.length = List.replicate columns rows from ?_]
  · simp [Nat.mul_comm]
  · rw [List.eq_replicate_iff]
    refine ⟨by simp [h.1], fun n hn => ?_⟩
    obtain ⟨c, hc, rfl⟩ := List.mem_map.mp hn
    exact h.2 c hc

theorem randomMatrix_total (env : CreateEnv S) (layer param : Str) (rows columns width : Nat) :
    ((randomMatrix env layer param rows columns width).map List.length).sum = rows * columns := by
  apply shaped_total
  unfold randomMatrix
  refine ⟨by simp, fun c hc => ?_⟩
  obtain ⟨j, _, rfl⟩ := List.mem_map.mp hc
  simp

theorem cellBias_total (kind : CellKind) (size : Nat) : (cellBias kind size : List S).length = unitParts kind * size := by
  cases kind <;> simp [cellBias, matrixFromValues, unitParts] <;> omega

theorem cellParts_unit (kind : CellKind) : cellParts kind = unitParts kind := by
  cases kind <;> rfl

theorem additionWeights_total (env : CreateEnv S) (name : Str) (size k : Nat) (sizes : List Nat) :
    ((additionWeights env name size k sizes).map fun e => (e.2.2.map List.length).sum).sum =
      ((sizes.filter fun n => n ≠ size).map fun n => n * size).sum := by
  induction sizes generalizing k with
  | nil => rfl
  | cons n rest ih =>
    rw [additionWeights]
    by_cases h : n ≠ size
    · rw [if_pos h, List.filter_cons_of_pos (by simpa using h)]
      simp only [List.map_cons, List.sum_cons]
      rw [ih, randomMatrix_total]
    · rw [if_neg h, List.filter_cons_of_neg (by simpa using h), ih]

theorem createRecurrent_total {env : CreateEnv S} {kind : CellKind} {o : LayerOptions} {name : Str} {size : Nat} {b : Basic S}
    (h : createRecurrent env kind o name size = .ok b) (path : Str) :
    ((b.params path).map fun p => p.2.data.length).sum = unitParts kind * ((o.inputSizes.sum + size + 1) * size) := by
  rw [params_total h]
  simp only [List.map_cons, List.map_nil, List.sum_cons, List.sum_nil]
  rw [randomMatrix_total, randomMatrix_total, cellBias_total, cellParts_unit]
  ring

theorem basic_total (b : Basic S) (name : Str) :
    ((b.params name).map fun p => p.2.data.length).sum = dictTotal List.length b.weights + dictTotal (fun _ => 1) b.biases := by
  unfold Basic.params
  rw [List.map_append, List.sum_append, dictParams_total encMatrix_total, dictParams_total encVector_total]

theorem createSized_total {env : CreateEnv S} {type : LayerType} {o : LayerOptions} {size : Nat} {c : Created S}
    (hp : type = .softmax → ∀ p, env.priorBias = some p → p.length = size) (h : createSized env type o size = .ok c) (name : Str) :
    c.layer.numParams name = expectedParams o.inputSizes c := by
  unfold Layer.numParams
  unfold createSized at h
  split at h
  · obtain ⟨b, hb, rfl⟩ := createSimple_ok h
    show ((b.params name).map fun p => p.2.data.length).sum = o.inputSizes.sum * size
    rw [params_total hb]
    simp only [List.map_cons, List.map_nil, List.sum_cons, List.sum_nil, randomMatrix_total]
    omega
  · obtain ⟨b, hb, rfl⟩ := createSimple_ok h
    show ((b.params name).map fun p => p.2.data.length).sum = (o.inputSizes.sum + 1) * size
    rw [params_total hb]
    simp only [List.map_cons, List.map_nil, List.sum_cons, List.sum_nil, randomMatrix_total, List.length_replicate]
    ring
  · obtain ⟨b, hb, rfl⟩ := createSimple_ok h
    show ((b.params name).map fun p => p.2.data.length).sum = ((o.inputSizes.filter fun n => n ≠ size).map fun n => n * size).sum
    rw [params_total hb, additionWeights_total]
    simp
  · rename_i kind
    split at h
    · cases h
    · split at h
      · cases h
      · rename_i b hb
        cases h
        exact createRecurrent_total hb name
  · rename_i kind
    split at h
    · cases h
    · unfold createBidirectional at h
      simp only at h
      split at h
      · cases h
      · rename_i f hf
        split at h
        · cases h
        · rename_i b hb
          cases h
          show ((f.params _ ++ b.params _).map fun p => p.2.data.length).sum = _
          rw [List.map_append, List.sum_append, createRecurrent_total hf, createRecurrent_total hb]
          rfl
  · split at h
    · cases h
    · obtain ⟨b, hb, rfl⟩ := createSimple_ok h
      show ((b.params name).map fun p => p.2.data.length).sum = 2 * ((o.inputSizes.sum + 1) * size)
      rw [params_total hb]
      simp only [List.map_cons, List.map_nil, List.sum_cons, List.sum_nil, randomMatrix_total, matrixFromValues, List.flatMap_cons,
        List.flatMap_nil, List.length_append, List.length_replicate, List.length_nil]
      ring
  · unfold createGlu at h
    split at h
    · cases h
    · rename_i filterSize _
      split at h
      · rename_i inputSize hi
        split at h
        · cases h
        · rename_i filters hf
          obtain ⟨b, hb, rfl⟩ := createSimple_ok h
          show ((dictParams encTensor name filters ++ b.params name).map fun p => p.2.data.length).sum =
            2 * ((filterSize * o.inputSizes.sum + 1) * size)
          rw [List.map_append, List.sum_append, dictParams_total encTensor_total, initParams_total _ hf, params_total hb, hi]
          have ht : ((randomTensor env o.name "input/W".toList filterSize inputSize (2 * size)).map
              fun m => (m.map List.length).sum).sum = filterSize * inputSize * (2 * size) := by
            unfold randomTensor
            simp [Function.comp_def]
            ring
          simp only [List.map_cons, List.map_nil, List.sum_cons, List.sum_nil, ht, List.length_replicate, dictTotal]
          ring
      · cases h
  · split at h
    · cases h
    · split at h
      · cases h
      · obtain ⟨b, hb, rfl⟩ := createSimple_ok h
        show ((b.params name).map fun p => p.2.data.length).sum = 0
        rw [params_total hb]
        rfl
  · obtain ⟨b, hb, rfl⟩ := createSimple_ok h
    show ((b.params name).map fun p => p.2.data.length).sum = (o.inputSizes.sum + 1) * size
    rw [params_total hb]
    have hl : (env.priorBias.getD (List.replicate size 0)).length = size := by
      cases hq : env.priorBias with
      | none => simp
      | some p => exact hp rfl p hq
    simp only [List.map_cons, List.map_nil, List.sum_cons, List.sum_nil, randomMatrix_total, hl]
    ring
  · unfold createHSoftmax at h
    split at h
    · cases h
    · rename_i level1 level2 _
      obtain ⟨b, hb, rfl⟩ := createSimple_ok h
      show (List.map (fun p : Str × Arr S => p.2.data.length) (b.params name ++ dictParams encLevel name [(_, _)] ++
          dictParams encMatrix name [(_, _)])).sum =
        (o.inputSizes.sum + 1) * level1 + level1 * ((o.inputSizes.sum + 1) * level2)
      rw [List.map_append, List.sum_append, List.map_append, List.sum_append, dictParams_total encLevel_total,
        dictParams_total encMatrix_total, params_total hb]
      simp [dictTotal, Function.comp_def, randomMatrix_total]
      ring

theorem createLayer_total {env : CreateEnv S} {o : LayerOptions} {c : Created S}
    (hp : dictGet? o.options "type".toList = some (.one (.str "softmax".toList)) → ∀ p, env.priorBias = some p →
      basicSize env o = .ok p.length) (h : createLayer env o = .ok c) (name : Str) :
    c.layer.numParams name = expectedParams o.inputSizes c := by
  unfold createLayer at h
  split at h
  · cases h
  · rename_i s hs
    split at h
    · cases h
    · rename_i type ht
      split at h
      · cases h
      · rename_i size hz
        refine createSized_total ?_ h name
        rintro rfl p hpp
        rw [if_neg (by decide)] at hz
        have hsm : s = "softmax".toList := by
          obtain ⟨t, ht1, ht2⟩ := layerType_names ht
          rw [ht2, List.mem_singleton.mp ht1]
        have := strOption_ok hs
        rw [hsm] at this
        rw [hp this p hpp] at hz
        injection hz

/-! ## Trained networks and files -/

theorem sum_const_map {α : Type} {f : α → Nat} {n : Nat} {l : List α} (h : ∀ x ∈ l, f x = n) : (l.map f).sum = l.length * n := by
  rw [List.map_congr_left h]
  simp

theorem SameVector.total {v v' : List S} (h : SameVector v v') : (v.map fun _ => 1).sum = (v'.map fun _ => 1).sum := by
  unfold SameVector at h
  simpa using h

theorem SameMatrix.total {w w' : List (List S)} (h : SameMatrix w w') : (w.map List.length).sum = (w'.map List.length).sum := by
  obtain ⟨h1, n, h2⟩ := h
  rw [sum_const_map fun x hx => h2 x (List.mem_append_left _ hx), sum_const_map fun x hx => h2 x (List.mem_append_right _ hx), h1]

theorem SameTensor.total {w w' : List (List (List S))} (h : SameTensor w w') :
    (w.map fun m => (m.map List.length).sum).sum = (w'.map fun m => (m.map List.length).sum).sum := by
  obtain ⟨h1, m, n, h2⟩ := h
  have e : ∀ x ∈ w ++ w', (x.map List.length).sum = m * n := by
    intro x hx
    rw [sum_const_map (h2 x hx).2, (h2 x hx).1]
  rw [sum_const_map fun x hx => e x (List.mem_append_left _ hx), sum_const_map fun x hx => e x (List.mem_append_right _ hx), h1]

theorem SameParams.total {α : Type} {f : α → Nat} {same : List α → List α → Prop}
    (hs : ∀ v v', same v v' → (v.map f).sum = (v'.map f).sum) {d d' : ParamDict α} (h : SameParams same d d') :
    dictTotal f d = dictTotal f d' := by
  unfold SameParams at h
  induction h with
  | nil => rfl
  | cons h _ ih =>
    unfold dictTotal at *
    rw [List.map_cons, List.sum_cons, List.map_cons, List.sum_cons, ih, hs _ _ h.2]

theorem SameBasic.total {b b' : Basic S} (h : SameBasic b b') (name : Str) :
    ((b.params name).map fun p => p.2.data.length).sum = ((b'.params name).map fun p => p.2.data.length).sum := by
  rw [basic_total, basic_total, h.weights.total fun _ _ => SameMatrix.total, h.biases.total fun _ _ => SameVector.total]

theorem SameLayer.numParams {l l' : Layer S} (h : SameLayer l l') (name : Str) : l.numParams name = l'.numParams name := by
  unfold Layer.numParams
  cases h with
  | wordInput => rfl
  | classInput => rfl
  | projection h => exact h.total name
  | fullyConnected h => exact h.total name
  | addition h => exact h.total name
  | recurrent h => exact h.total name
  | bidirectional hf hb =>
    unfold Layer.params
    rw [List.map_append, List.sum_append, List.map_append, List.sum_append, hf.total, hb.total]
  | highway h => exact h.total name
  | glu h hf =>
    unfold Layer.params
    rw [List.map_append, List.sum_append, List.map_append, List.sum_append, h.total, dictParams_total encTensor_total,
      dictParams_total encTensor_total, hf.total fun _ _ => SameTensor.total]
  | dropout h => exact h.total name
  | softmax h => exact h.total name
  | hsoftmax h hw hb =>
    unfold Layer.params
    rw [List.map_append, List.sum_append, List.map_append, List.sum_append, List.map_append, List.sum_append, List.map_append,
      List.sum_append, h.total, dictParams_total encLevel_total, dictParams_total encLevel_total, dictParams_total encMatrix_total,
      dictParams_total encMatrix_total]
    simp only [dictTotal, List.map_cons, List.map_nil, hw.total, hb.total]

theorem numParams_network (layers : List (Created S)) :
    numParams layers = ((networkParams layers).map fun p => p.2.data.length).sum := by
  unfold numParams networkParams
  induction layers with
  | nil => rfl
  | cons c layers ih =>
    rw [List.map_cons, List.sum_cons, ih, List.flatMap_cons, List.map_append, List.sum_append]
    rfl

theorem saveParams_new_file (l : List (Str × Arr S)) : ∀ {f f' : List (Str × Arr S)}, saveParams l f = .ok f' →
    (f.map Prod.fst ++ l.map Prod.fst).Nodup → f' = f ++ l := by
  induction l with
  | nil => intro f f' hs _; cases hs; simp
  | cons d l ih =>
    intro f f' hs hm
    rw [saveParams] at hs
    split at hs
    · cases hs
    · rename_i f1 h1
      have hd : dictGet? f d.1 = none := by
        rw [dictGet?_none]
        intro hx
        rw [List.nodup_append] at hm
        exact hm.2.2 _ hx _ (by simp) rfl
      have e : f1 = f ++ [d] := by
        unfold saveParam at h1
        rw [hd] at h1
        simp only at h1
        split at h1
        · cases h1
        · split at h1
          · cases h1
          · injection h1 with h1; exact h1.symm
      rw [ih hs (by rw [e]; simpa using hm), e]
      simp

/-! ## The number of parameters -/

/-- C141: the number of parameters of every layer is what its type, its size and the sizes of its inputs require, on whichever devices the
parameters are. -/
theorem C141_layers (env : CreateEnv S) (a : Architecture) (net : CreatedNetwork S) (hp : PriorFits env a)
    (h : createNetwork env a = .ok net) (c : Created S) (hc : c ∈ net.layers) :
    c.layer.numParams c.name = expectedParams (inputSizesOf net.layers c) c := by
  obtain ⟨k, hk, rfl⟩ := List.getElem_of_mem hc
  have hc := List.getElem?_eq_getElem hk
  generalize net.layers[k] = c at hc
  obtain ⟨inputs, h1, h2, h3⟩ := createNetwork_cases h
  obtain ⟨_, i2, i3, i4⟩ := createInputs_trace h1
  obtain ⟨l1, l2, l3, l4⟩ := createLayers_trace h2
  simp only [List.length_nil, Nat.zero_add] at i2 i4
  by_cases hlt : k < a.inputs.length
  · obtain ⟨c', hc', hcd⟩ := i4 k _ (List.getElem?_eq_getElem hlt)
    obtain ⟨t, ht⟩ := l1
    rw [← ht, List.getElem?_append_left (by omega), hc'] at hc
    cases hc
    rcases (createInput_ok hcd).type with ⟨_, hl, _⟩ | ⟨_, hl, _⟩
    all_goals
      unfold expectedParams
      rw [hl]
      rfl
  · have hk' : k - a.inputs.length < a.layers.length := by omega
    obtain ⟨o, c', hc', ho, hcd⟩ := l4 _ _ (List.getElem?_eq_getElem hk')
    rw [i2, show a.inputs.length + (k - a.inputs.length) = k by omega] at hc' ho
    rw [hc] at hc'
    injection hc' with hc'
    subst hc'
    obtain ⟨o1, ⟨e, names, o2, o3, o4⟩, o5, o6, o7⟩ := layerOptions_ok ho
    have hin : ∀ i ∈ o.inputs, i < k := by
      intro i hi
      obtain ⟨name, _, hn⟩ := mapE_mem o4 hi
      have := (findLayer_ok hn).1
      rw [List.length_take] at this
      omega
    have hlen : o.inputSizes = inputSizesOf net.layers c := by
      unfold inputSizesOf
      rw [(createLayer_params hcd).1, o5]
      apply List.map_congr_left
      intro i hi
      rw [getElem?_take_size (hin i hi)]
    rw [← hlen]
    refine createLayer_total (fun ht p hpp => ?_) hcd _
    obtain ⟨q1, q2⟩ := hp p hpp
    rw [optionsGet o7 (by decide)] at ht
    have hn := q2 _ (List.getElem_mem hk') ht o.name o1
    unfold basicSize
    rw [o7, if_pos hn, dictGet?_set, if_pos rfl, q1]
    show (if (env.numClasses : ℤ) < 0 then Except.error Err.valueError else Except.ok (env.numClasses : ℤ).toNat) = _
    rw [if_neg (by omega)]
    rfl

/-- C141: training changes the values of the parameters but not their number. -/
theorem C141_trained (layers layers' : List (Created S)) (h : SameNetwork layers layers') : numParams layers' = numParams layers := by
  unfold numParams
  unfold SameNetwork at h
  induction h with
  | nil => rfl
  | cons h _ ih =>
    rw [List.map_cons, List.sum_cons, List.map_cons, List.sum_cons, ih, h.2.2.numParams, h.1]

/-- C141: the datasets of the parameters in a new model file have, together, one element for each parameter. -/
theorem C141_file (env : CreateEnv S) (a : Architecture) (net : CreatedNetwork S) (hnet : createNetwork env a = .ok net)
    (hn : NoSlash net.layers) (layers : List (Created S)) (hs : SameNetwork net.layers layers) (file : NetworkFile S)
    (h : saveNetwork (createdArchitecture env a) layers ⟨[], none⟩ = .ok file) :
    (file.params.map fun p => p.2.data.length).sum = numParams net.layers := by
  obtain ⟨hp1, hp2⟩ := createNetwork_paths hnet
  have hinc := networkParams_incomp hp1 hp2 hn
  have hnodup : ((networkParams layers).map Prod.fst).Nodup := by
    rw [← forall₂_sameShape_keys hs.params]
    exact hinc.imp fun h => h.paths.1
  unfold saveNetwork at h
  rw [saveLayers_eq] at h
  split at h
  · cases h
  · rename_i params hsave
    cases h
    rw [← C141_trained _ _ hs, numParams_network, saveParams_new_file _ hsave (by simpa using hnodup)]
    simp

theorem package_priorFits {env : CreateEnv S} {a : Architecture} (hp : ∀ p, env.priorBias = some p → p.length = env.numClasses)
    (ha : ∀ d ∈ a.layers, dictGet? d "type".toList = some (.one (.str "softmax".toList)) →
      dictGet? d "name".toList = some (.one a.outputLayer)) : PriorFits env a := by
  refine fun p h => ⟨hp p h, fun d hd ht n hn => ?_⟩
  rw [ha d hd ht] at hn
  injection hn with hn
  injection hn with hn
  exact hn.symm

/-- C141: the number of parameters of the network that the packaged description `lstm300` gives. -/
theorem C141_lstm300 (env : CreateEnv S) (hd : env.defaultDevice = none)
    (hp : ∀ p, env.priorBias = some p → p.length = env.numClasses) :
    ∃ net, createNetwork env lstm300 = .ok net ∧ numParams net.layers = 401 * env.numClasses + 571500 := by
  obtain ⟨b1, b2, b3, b4, h, q1, q2, q3, q4⟩ := lstm300_layers env hd
  refine ⟨_, h, ?_⟩
  have hall := C141_layers env lstm300 _ (package_priorFits hp (by decide +kernel)) h
  unfold numParams
  rw [List.map_congr_left hall]
  simp only [List.map_cons, List.map_nil, List.sum_cons, List.sum_nil, expectedParams, inputSizesOf, Layer.inputs, q1.1, q2.1,
    q3.1, q4.1, unitParts, List.getElem?_cons_zero, List.getElem?_cons_succ, Option.map_some, Option.getD_some]
  ring

/-- C141: the number of parameters of the network that the packaged description `lstm1500` gives. -/
theorem C141_lstm1500 (env : CreateEnv S) (hd : env.defaultDevice = none) (rate : S)
    (hf : env.parseFloat (.str "0.25".toList) = some rate) (hp : ∀ p, env.priorBias = some p → p.length = env.numClasses) :
    ∃ net, createNetwork env lstm1500 = .ok net ∧ numParams net.layers = 2001 * env.numClasses + 15007500 := by
  obtain ⟨b1, b2, b3, b4, b5, b6, b7, h, q1, q2, q3, q4, q5, q6, q7⟩ := lstm1500_layers env hd hf
  refine ⟨_, h, ?_⟩
  have hall := C141_layers env lstm1500 _ (package_priorFits hp (by decide +kernel)) h
  unfold numParams
  rw [List.map_congr_left hall]
  simp only [List.map_cons, List.map_nil, List.sum_cons, List.sum_nil, expectedParams, inputSizesOf, Layer.inputs, q1.1,
    q3.1, q5.1, q7.1, unitParts, List.getElem?_cons_zero, List.getElem?_cons_succ, Option.map_some,
    Option.getD_some]
  ring

end

/-! ## A case that meets the hypotheses -/

/-- A network with parameters on two devices, with prior probabilities as the biases of its output. -/
example : PriorFits exampleEnv exampleDescription ∧ ∃ net, createNetwork exampleEnv exampleDescription = .ok net ∧
    net.layers.map (fun c => c.layer.numParams c.name) = [0, 0, 8, 3, 68, 24, 0, 6, 64, 9] ∧ numParams net.layers = 182 :=
  ⟨exampleDescription_prior, by decide +kernel⟩

end TheanoLM
