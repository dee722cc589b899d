import Verif.Props.NetworkStateSpec
import Verif.Lemmas.Network
import Verif.Lemmas.Statistics
import Verif.Props.NetworkCreate
/-!
# Networks created from the same description differ only in the values of the parameters
-/
set_option linter.unusedSectionVars false
namespace TheanoLM

/-- The same error, or related results. -/
inductive ExRel {α β : Type} (R : α → β → Prop) : Except Err α → Except Err β → Prop
  | error (e : Err) : ExRel R (.error e) (.error e)
  | ok {a : α} {b : β} : R a b → ExRel R (.ok a) (.ok b)

theorem ExRel.cases {α β : Type} {R : α → β → Prop} {x : Except Err α} {y : Except Err β} (h : ExRel R x y) :
    (∃ e, x = .error e ∧ y = .error e) ∨ ∃ a b, x = .ok a ∧ y = .ok b ∧ R a b := by
  cases h with
  | error e => exact .inl ⟨e, rfl, rfl⟩
  | ok h => exact .inr ⟨_, _, rfl, rfl, h⟩

theorem ExRel.rfl {α : Type} {R : α → α → Prop} (x : Except Err α) (h : ∀ a, R a a) : ExRel R x x := by
  cases x with
  | error e => exact .error e
  | ok a => exact .ok (h a)

theorem ExRel.of_eq {α : Type} {x y : Except Err α} (h : x = y) : ExRel Eq x y := h ▸ ExRel.rfl x fun _ => Eq.refl _

section
variable {α : Type}

/-- The shapes determine the lengths, and the parts on the devices have the same shape. -/
structure ShapeRel (same : List α → List α → Prop) : Prop where
  length : ∀ {v v'}, same v v' → v.length = v'.length
  part : ∀ {v v'} (i j : Nat), same v v' → same ((v.take j).drop i) ((v'.take j).drop i)

theorem shapeVector {S : Type} : ShapeRel (SameVector (S := S)) :=
  ⟨fun h => h, fun i j h => by unfold SameVector at h ⊢; simp [h]⟩

theorem mem_part {l : List α} {i j : Nat} {x : α} (h : x ∈ (l.take j).drop i) : x ∈ l := List.mem_of_mem_take (List.mem_of_mem_drop h)

theorem shapeMatrix {S : Type} : ShapeRel (SameMatrix (S := S)) :=
  ⟨fun h => h.1, fun i j h => by
    obtain ⟨h1, n, h2⟩ := h
    refine ⟨by simp [h1], n, fun c hc => h2 c ?_⟩
    rcases List.mem_append.mp hc with hc | hc
    · exact List.mem_append_left _ (mem_part hc)
    · exact List.mem_append_right _ (mem_part hc)⟩

theorem shapeTensor {S : Type} : ShapeRel (SameTensor (S := S)) :=
  ⟨fun h => h.1, fun i j h => by
    obtain ⟨h1, m, n, h2⟩ := h
    refine ⟨by simp [h1], m, n, fun c hc => h2 c ?_⟩
    rcases List.mem_append.mp hc with hc | hc
    · exact List.mem_append_left _ (mem_part hc)
    · exact List.mem_append_right _ (mem_part hc)⟩

variable {same : List α → List α → Prop}

theorem SameParams.keys {d d' : ParamDict α} (h : SameParams same d d') : d.map Prod.fst = d'.map Prod.fst := by
  induction h with
  | nil => rfl
  | cons h _ ih => rw [List.map_cons, List.map_cons, ih, h.1]

theorem addParam_same {d d' : ParamDict α} (hd : SameParams same d d') {v v' : List α} (hv : same v v') (path : Str) :
    ExRel (SameParams same) (addParam path v d) (addParam path v' d') := by
  have hs : (dictGet? d path).isSome = (dictGet? d' path).isSome := by
    rw [Bool.eq_iff_iff, Option.isSome_iff_ne_none, Option.isSome_iff_ne_none, ne_eq, ne_eq, dictGet?_none, dictGet?_none, hd.keys]
  unfold addParam
  rw [hs]
  split
  · exact .error _
  · exact .ok (List.rel_append hd (.cons ⟨rfl, hv⟩ .nil))

theorem addParts_same (hr : ShapeRel same) (name : Str) {v v' : List α} (hv : same v v') (parts : List (Option Str × (Nat × Nat)))
    {d d' : ParamDict α} (hd : SameParams same d d') : ExRel (SameParams same) (addParts name v parts d) (addParts name v' parts d') := by
  induction parts generalizing d d' with
  | nil => exact .ok hd
  | cons p parts ih =>
    obtain ⟨dev, r⟩ := p
    cases dev with
    | none => exact .error _
    | some dev =>
      rw [addParts, addParts]
      obtain ⟨e, h1, h2⟩ | ⟨a, b, h1, h2, h3⟩ := (addParam_same hd (hr.part r.1 r.2 hv) (paramPath name (some dev))).cases
      · rw [h1, h2]; exact .error _
      · rw [h1, h2]; exact ih h3

theorem initParam_same (hr : ShapeRel same) (devices : List (Option Str)) (split : Bool) (name : Str) {v v' : List α} (hv : same v v')
    {d d' : ParamDict α} (hd : SameParams same d d') :
    ExRel (SameParams same) (initParam devices split name v d) (initParam devices split name v' d') := by
  unfold initParam
  split
  · exact addParam_same hd hv name
  · split
    · exact addParam_same hd hv name
    · rw [hr.length hv]
      cases splitPerDevice devices.length v'.length with
      | error e => exact .error _
      | ok ranges => exact addParts_same hr name hv _ hd

/-- The same parameters with initial values of the same shape. -/
def SameInits (same : List α → List α → Prop) (l l' : List (Bool × Str × List α)) : Prop :=
  List.Forall₂ (fun t t' => t.1 = t'.1 ∧ t.2.1 = t'.2.1 ∧ same t.2.2 t'.2.2) l l'

theorem SameInits.cons {l l' : List (Bool × Str × List α)} (split : Bool) (name : Str) {v v' : List α} (h : same v v')
    (hl : SameInits same l l') : SameInits same ((split, name, v) :: l) ((split, name, v') :: l') := List.Forall₂.cons ⟨rfl, rfl, h⟩ hl

theorem initParams_same (hr : ShapeRel same) (devices : List (Option Str)) {l l' : List (Bool × Str × List α)} (hl : SameInits same l l')
    {d d' : ParamDict α} (hd : SameParams same d d') :
    ExRel (SameParams same) (initParams devices l d) (initParams devices l' d') := by
  unfold SameInits at hl
  induction hl generalizing d d' with
  | nil => exact .ok hd
  | cons h _ ih =>
    rename_i t t' l l' _
    obtain ⟨s, n, v⟩ := t
    obtain ⟨s', n', v'⟩ := t'
    obtain ⟨h1, h2, h3⟩ := h
    simp only at h1 h2 h3
    subst h1 h2
    rw [initParams, initParams]
    obtain ⟨e, h1, h2⟩ | ⟨a, b, h1, h2, h3⟩ := (initParam_same hr devices s n h3 hd).cases
    · rw [h1, h2]; exact .error _
    · rw [h1, h2]; exact ih h3

end

/-- Dictionaries in which the same values are found. -/
def SameLookup (d e : ArchDict) : Prop := ∀ k, dictGet? d k = dictGet? e k

section
variable {S : Type} [Add S] [Mul S] [Sub S] [Div S] [Zero S] [One S] [Min S]

theorem randomMatrix_same (env env' : CreateEnv S) (layer param : Str) (rows columns width : Nat) :
    SameMatrix (randomMatrix env layer param rows columns width) (randomMatrix env' layer param rows columns width) := by
  unfold randomMatrix
  refine ⟨by simp, rows, fun c hc => ?_⟩
  rcases List.mem_append.mp hc with hc | hc
  · obtain ⟨j, _, rfl⟩ := List.mem_map.mp hc; simp
  · obtain ⟨j, _, rfl⟩ := List.mem_map.mp hc; simp

theorem randomTensor_same (env env' : CreateEnv S) (layer param : Str) (a b c : Nat) :
    SameTensor (randomTensor env layer param a b c) (randomTensor env' layer param a b c) := by
  unfold randomTensor
  refine ⟨by simp, a, b, fun x hx => ?_⟩
  rcases List.mem_append.mp hx with hx | hx
  · obtain ⟨j, _, rfl⟩ := List.mem_map.mp hx
    refine ⟨by simp, fun c hc => ?_⟩
    obtain ⟨i, _, rfl⟩ := List.mem_map.mp hc; simp
  · obtain ⟨j, _, rfl⟩ := List.mem_map.mp hx
    refine ⟨by simp, fun c hc => ?_⟩
    obtain ⟨i, _, rfl⟩ := List.mem_map.mp hc; simp

/-- The options of two layers are the same. -/
structure SameOptions (o o' : LayerOptions) : Prop where
  name : o.name = o'.name
  inputs : o.inputs = o'.inputs
  inputSizes : o.inputSizes = o'.inputSizes
  devices : o.devices = o'.devices
  options : SameLookup o.options o'.options

variable {env env' : CreateEnv S} {o o' : LayerOptions}

theorem activationOption_same {d d' : ArchDict} (h : SameLookup d d') : activationOption d = activationOption d' := by
  unfold activationOption
  rw [h]

theorem strOption_same {d d' : ArchDict} (h : SameLookup d d') (k : Str) : strOption d k = strOption d' k := by
  unfold strOption
  rw [h]

theorem createBasic_same (h : SameOptions o o') (size : Nat) {w w' : List (Bool × Str × List (List S))} {b b' : List (Bool × Str × List S)}
    (hw : SameInits SameMatrix w w') (hb : SameInits SameVector b b') :
    ExRel SameBasic (createBasic o size w b) (createBasic o' size w' b') := by
  unfold createBasic
  rw [activationOption_same h.options, h.devices]
  cases activationOption o'.options with
  | error e => exact .error _
  | ok activation =>
    simp only
    obtain ⟨e, h1, h2⟩ | ⟨w1, w2, h1, h2, h3⟩ := (initParams_same shapeMatrix o'.devices hw .nil).cases
    · rw [h1, h2]; exact .error _
    · rw [h1, h2]
      simp only
      obtain ⟨e, g1, g2⟩ | ⟨b1, b2, g1, g2, g3⟩ := (initParams_same shapeVector o'.devices hb .nil).cases
      · rw [g1, g2]; exact .error _
      · rw [g1, g2]; exact .ok ⟨h.inputs, rfl, rfl, rfl, h3, g3⟩

def SameCreated (c c' : Created S) : Prop := c.name = c'.name ∧ c.size = c'.size ∧ SameLayer c.layer c'.layer

theorem createSimple_same (h : SameOptions o o') (size : Nat) {w w' : List (Bool × Str × List (List S))} {b b' : List (Bool × Str × List S)}
    (hw : SameInits SameMatrix w w') (hb : SameInits SameVector b b') {make make' : Basic S → Layer S}
    (hm : ∀ x x', SameBasic x x' → SameLayer (make x) (make' x')) :
    ExRel SameCreated (createSimple o size w b make) (createSimple o' size w' b' make') := by
  unfold createSimple
  obtain ⟨e, h1, h2⟩ | ⟨b1, b2, h1, h2, h3⟩ := (createBasic_same h size hw hb).cases
  · rw [h1, h2]; exact .error _
  · rw [h1, h2]; exact .ok ⟨h.name, rfl, hm _ _ h3⟩

theorem createRecurrent_same (h : SameOptions o o') (kind : CellKind) (name : Str) (size : Nat) :
    ExRel SameBasic (createRecurrent env kind o name size) (createRecurrent env' kind o' name size) := by
  unfold createRecurrent
  rw [h.inputSizes]
  exact createBasic_same h size
    (.cons _ _ (randomMatrix_same ..) (.cons _ _ (randomMatrix_same ..) .nil)) (.cons _ _ (Eq.refl _) .nil)

theorem additionWeights_same (name : Str) (size : Nat) (k : Nat) (sizes : List Nat) :
    SameInits SameMatrix (additionWeights env name size k sizes) (additionWeights env' name size k sizes) := by
  induction sizes generalizing k with
  | nil => exact .nil
  | cons s sizes ih =>
    rw [additionWeights, additionWeights]
    split
    · exact .cons _ _ (randomMatrix_same ..) (ih _)
    · exact ih _

theorem createSized_same (he : SameEnv env env') (type : LayerType) (h : SameOptions o o') (size : Nat)
    (hp : type = .softmax → ∀ p, env.priorBias = some p → p.length = size)
    (hp' : type = .softmax → ∀ p, env'.priorBias = some p → p.length = size) :
    ExRel SameCreated (createSized env type o size) (createSized env' type o' size) := by
  have hrt : reverseTime o.options = reverseTime o'.options := by unfold reverseTime; rw [h.options]
  cases type with
  | projection =>
    simp only [createSized]
    rw [h.inputSizes, h.name]
    exact createSimple_same h size (.cons _ _ (randomMatrix_same ..) .nil) .nil fun _ _ hx => .projection hx
  | fullyConnected =>
    simp only [createSized]
    rw [h.inputSizes, h.name]
    exact createSimple_same h size (.cons _ _ (randomMatrix_same ..) .nil) (.cons _ _ (Eq.refl _) .nil)
      fun _ _ hx => .fullyConnected hx
  | addition =>
    simp only [createSized]
    rw [h.inputSizes, h.name]
    exact createSimple_same h size (additionWeights_same ..) .nil fun _ _ hx => .addition hx
  | recurrent kind =>
    simp only [createSized]
    rw [hrt, h.name]
    split
    · exact .error _
    · obtain ⟨e, h1, h2⟩ | ⟨b1, b2, h1, h2, h3⟩ := (createRecurrent_same (env := env) (env' := env') h kind o'.name size).cases
      · rw [h1, h2]; exact .error _
      · rw [h1, h2]; exact .ok ⟨rfl, rfl, .recurrent h3⟩
  | bidirectional kind =>
    simp only [createSized]
    rw [hrt]
    split
    · exact .error _
    · unfold createBidirectional
      simp only
      rw [h.name]
      obtain ⟨e, h1, h2⟩ | ⟨b1, b2, h1, h2, h3⟩ :=
        (createRecurrent_same (env := env) (env' := env') h kind (o'.name ++ "/forward".toList) (size - size / 2)).cases
      · rw [h1, h2]; exact .error _
      · rw [h1, h2]
        simp only
        obtain ⟨e, g1, g2⟩ | ⟨b1, b2, g1, g2, g3⟩ :=
          (createRecurrent_same (env := env) (env' := env') h kind (o'.name ++ "/backward".toList) (size / 2)).cases
        · rw [g1, g2]; exact .error _
        · rw [g1, g2]; exact .ok ⟨rfl, rfl, .bidirectional h3 g3⟩
  | highway =>
    simp only [createSized]
    rw [h.inputSizes, h.name]
    split
    · exact .error _
    · exact createSimple_same h size (.cons _ _ (randomMatrix_same ..) .nil) (.cons _ _ (Eq.refl _) .nil)
        fun _ _ hx => .highway hx
  | glu =>
    simp only [createSized, createGlu]
    have hf : filterSizeOption env o = filterSizeOption env' o' := by unfold filterSizeOption; rw [h.options, he.parseInt]
    rw [hf, h.inputSizes, h.name, h.devices]
    cases filterSizeOption env' o' with
    | error e => exact .error _
    | ok filterSize =>
      simp only
      generalize o'.inputSizes = sizes
      match sizes with
      | [] => exact .error _
      | [inputSize] =>
        simp only
        obtain ⟨e, h1, h2⟩ | ⟨b1, b2, h1, h2, h3⟩ := (initParams_same shapeTensor o'.devices
          (.cons true "input/W".toList (randomTensor_same env env' o'.name "input/W".toList filterSize inputSize (2 * size)) .nil) .nil).cases
        · rw [h1, h2]; exact .error _
        · rw [h1, h2]
          exact createSimple_same h size .nil (.cons _ _ (Eq.refl _) .nil) fun _ _ hx => .glu hx h3
      | _ :: _ :: _ => exact .error _
  | dropout =>
    simp only [createSized]
    have hf : dropoutScale env o = dropoutScale env' o' := by
      unfold dropoutScale; rw [h.options, he.parseFloat, he.rateLimit, he.defaultRate]
    rw [hf, h.inputSizes]
    cases dropoutScale env' o' with
    | error e => exact .error _
    | ok scale =>
      simp only
      split
      · exact .error _
      · exact createSimple_same h size .nil .nil fun _ _ hx => .dropout hx
  | softmax =>
    simp only [createSized]
    rw [h.inputSizes, h.name, he.unkClass]
    refine createSimple_same h size (.cons _ _ (randomMatrix_same ..) .nil) (.cons _ _ ?_ .nil) fun _ _ hx => .softmax hx
    have key : ∀ prior : Option (List S), (∀ p, prior = some p → p.length = size) →
        (prior.getD (List.replicate size 0)).length = size := by
      intro prior hpr
      cases prior with
      | none => simp
      | some p => exact hpr p rfl
    show (env.priorBias.getD (List.replicate size 0)).length = (env'.priorBias.getD (List.replicate size 0)).length
    rw [key _ (hp rfl), key _ (hp' rfl)]
  | hsoftmax =>
    simp only [createSized, createHSoftmax]
    rw [h.inputSizes, h.name, h.devices]
    cases hsoftmaxLevels o'.devices.length size with
    | error e => exact .error _
    | ok levels =>
      obtain ⟨l1, l2⟩ := levels
      simp only
      refine createSimple_same h size (.cons _ _ (randomMatrix_same ..) .nil) (.cons _ _ (Eq.refl _) .nil)
        fun _ _ hx => .hsoftmax hx ?_ ?_
      · refine ⟨by simp, l2, o'.inputSizes.sum, fun x hx => ?_⟩
        rcases List.mem_append.mp hx with hx | hx
        · obtain ⟨j, _, rfl⟩ := List.mem_map.mp hx
          refine ⟨by simp, fun c hc => ?_⟩
          obtain ⟨i, _, rfl⟩ := List.mem_map.mp hc; simp
        · obtain ⟨j, _, rfl⟩ := List.mem_map.mp hx
          refine ⟨by simp, fun c hc => ?_⟩
          obtain ⟨i, _, rfl⟩ := List.mem_map.mp hc; simp
      · refine ⟨rfl, l2, fun c hc => ?_⟩
        rcases List.mem_append.mp hc with hc | hc
        · rw [List.eq_of_mem_replicate hc]; simp
        · rw [List.eq_of_mem_replicate hc]; simp

/-- The prior probabilities fit a softmax layer with these options. -/
def PriorOptions (env : CreateEnv S) (o : LayerOptions) : Prop :=
  ∀ p, env.priorBias = some p → dictGet? o.options "type".toList = some (.one (.str "softmax".toList)) →
    ∀ size, basicSize env o = .ok size → p.length = size

theorem createLayer_same (he : SameEnv env env') (h : SameOptions o o') (hp : PriorOptions env o) (hp' : PriorOptions env' o') :
    ExRel SameCreated (createLayer env o) (createLayer env' o') := by
  unfold createLayer
  have h1 : additionSize env o = additionSize env' o' := by unfold additionSize; rw [h.options, he.parseInt, h.inputSizes]
  have h2 : basicSize env o = basicSize env' o' := by unfold basicSize; rw [h.options, he.parseInt, h.inputSizes]
  have h3 := strOption_same h.options "type".toList
  cases hs : strOption o'.options "type".toList with
  | error e => rw [h3, hs]; exact .error _
  | ok s =>
    rw [h3, hs]
    simp only
    cases ht : layerType s with
    | none => exact .error _
    | some type =>
      simp only
      rw [← h1, ← h2]
      cases hz : (if type = .addition then additionSize env o else basicSize env o) with
      | error e => exact .error _
      | ok size =>
        have key : type = .softmax → dictGet? o'.options "type".toList = some (.one (.str "softmax".toList)) ∧ basicSize env o = .ok size := by
          rintro rfl
          rw [if_neg (by simp)] at hz
          obtain ⟨t, ht1, ht2⟩ := layerType_names ht
          obtain rfl : t = "softmax" := by simpa [LayerType.names] using ht1
          rw [strOption_ok hs, ht2]
          exact ⟨rfl, hz⟩
        exact createSized_same he type h size
          (fun e p hpp => hp p hpp (by rw [h.options]; exact (key e).1) size (key e).2)
          (fun e p hpp => hp' p hpp (key e).1 size (by rw [← h2]; exact (key e).2))

variable {layers layers' : List (Created S)}

theorem SameNetwork.names (h : SameNetwork layers layers') : layers.map Created.name = layers'.map Created.name := by
  induction h with
  | nil => rfl
  | cons h _ ih => rw [List.map_cons, List.map_cons, ih, h.1]

theorem SameNetwork.sizes (h : SameNetwork layers layers') (i : Nat) :
    (layers[i]?.map Created.size) = (layers'[i]?.map Created.size) := by
  induction h generalizing i with
  | nil => rfl
  | cons h _ ih =>
    cases i with
    | zero => simp [h.2.1]
    | succ i => simpa using ih i

theorem findIdx?_names (f : Str → Bool) (l : List (Created S)) :
    l.findIdx? (fun c => f c.name) = (l.map Created.name).findIdx? f := by
  rw [List.findIdx?_map]
  rfl

theorem findLayer_same (h : SameNetwork layers layers') (name : Str) : findLayer layers name = findLayer layers' name := by
  unfold findLayer
  rw [findIdx?_names (fun n => decide (n = name)), findIdx?_names (fun n => decide (n = name)), h.names]

theorem SameLookup.set {d d' : ArchDict} (h : SameLookup d d') (k : Str) (v : ArchEntry) : SameLookup (dictSet d k v) (dictSet d' k v) := by
  intro k'
  rw [dictGet?_set, dictGet?_set, h]

theorem layerOptions_same (he : SameEnv env env') (output : ArchVal) (h : SameNetwork layers layers') {d d' : ArchDict} (hd : SameLookup d d') :
    ExRel SameOptions (layerOptions env output layers d) (layerOptions env' output layers' d') := by
  have hdev : layerDevices env d = layerDevices env' d' := by unfold layerDevices; rw [hd, he.defaultDevice]
  unfold layerOptions
  rw [strOption_same hd, hd]
  cases strOption d' "name".toList with
  | error e => exact .error _
  | ok name =>
    simp only
    cases dictGet? d' "inputs".toList with
    | none => exact .error _
    | some e =>
      simp only
      cases entryStrings e with
      | error e => exact .error _
      | ok names =>
        simp only
        rw [mapE_congr fun n _ => findLayer_same h n]
        cases mapE (findLayer layers') names with
        | error e => exact .error _
        | ok inputs =>
          simp only
          rw [hdev]
          cases layerDevices env' d' with
          | error e => exact .error _
          | ok devices =>
            refine .ok ⟨rfl, rfl, ?_, rfl, ?_⟩
            · exact List.map_congr_left fun i _ => by rw [h.sizes]
            · show SameLookup (if _ then _ else _) (if _ then _ else _)
              split
              · rw [he.numClasses]; exact hd.set _ _
              · exact hd

theorem addLayer_same (h : SameNetwork layers layers') {c c' : Created S} (hc : SameCreated c c') :
    ExRel SameNetwork (addLayer layers c) (addLayer layers' c') := by
  have : (layers.any fun x => decide (x.name = c.name)) = layers'.any fun x => decide (x.name = c'.name) := by
    have key : ∀ (l : List (Created S)) (n : Str), (l.any fun x => decide (x.name = n)) = (l.map Created.name).any fun x => decide (x = n) := by
      intro l n
      rw [List.any_map]
      rfl
    rw [key, key, h.names, hc.1]
  unfold addLayer
  rw [this]
  split
  · exact .error _
  · exact .ok (List.rel_append h (.cons hc .nil))

theorem createInputs_same {ds ds' : List ArchDict} (hd : List.Forall₂ (fun d d' => createInput env d = createInput env' d') ds ds')
    (h : SameNetwork layers layers') : ExRel SameNetwork (createInputs env ds layers) (createInputs env' ds' layers') := by
  induction hd generalizing layers layers' with
  | nil => exact .ok h
  | cons h1 _ ih =>
    rename_i d d' _ _ _
    rw [createInputs, createInputs, h1]
    cases hc : createInput env' d' with
    | error e => exact .error _
    | ok c =>
      have hl : SameLayer c.layer c.layer := by
        unfold createInput at hc
        split at hc
        · cases hc
        · split at hc
          · split at hc <;> first | cases hc; exact .wordInput | cases hc
          · split at hc
            · split at hc <;> first | cases hc; exact .classInput | cases hc
            · cases hc
      simp only
      obtain ⟨e, g1, g2⟩ | ⟨l1, l2, g1, g2, g3⟩ := (addLayer_same h (c := c) (c' := c) ⟨rfl, rfl, hl⟩).cases
      · rw [g1, g2]; exact .error _
      · rw [g1, g2]; exact ih g3

/-- The condition on the prior probabilities for one layer. -/
def PriorLayer (env : CreateEnv S) (output : ArchVal) (d : ArchDict) : Prop :=
  ∀ p, env.priorBias = some p → p.length = env.numClasses ∧ (dictGet? d "type".toList = some (.one (.str "softmax".toList)) →
      ∀ n, dictGet? d "name".toList = some (.one (.str n)) → .str n = output)

theorem priorOptions {output : ArchVal} {d : ArchDict} (hp : PriorLayer env output d) (ho : layerOptions env output layers d = .ok o) :
    PriorOptions env o := by
  intro p hpp ht size hsize
  obtain ⟨o1, _, _, _, o7⟩ := layerOptions_ok ho
  obtain ⟨q1, q2⟩ := hp p hpp
  have hn := q2 (by rw [← optionsGet o7 (by decide)]; exact ht) o.name o1
  have hout : dictGet? o.options "size".toList = some (.one (.int env.numClasses)) := by
    rw [o7, if_pos hn, dictGet?_set, if_pos rfl]
  unfold basicSize at hsize
  rw [hout] at hsize
  have e1 : entrySize env.parseInt (.one (.int env.numClasses)) = .ok env.numClasses := by
    show (if (env.numClasses : ℤ) < 0 then Except.error Err.valueError else Except.ok (env.numClasses : ℤ).toNat) = _
    rw [if_neg (by omega)]
    rfl
  simp only [e1] at hsize
  injection hsize with hsize
  rw [q1, hsize]

theorem createLayers_same (he : SameEnv env env') (output : ArchVal) {ds ds' : List ArchDict} (hd : List.Forall₂ SameLookup ds ds')
    (hp : ∀ d ∈ ds, PriorLayer env output d) (hp' : ∀ d ∈ ds', PriorLayer env' output d) (h : SameNetwork layers layers') :
    ExRel SameNetwork (createLayers env output ds layers) (createLayers env' output ds' layers') := by
  induction hd generalizing layers layers' with
  | nil => exact .ok h
  | cons h1 _ ih =>
    rename_i d d' ds ds' _
    rw [createLayers, createLayers]
    obtain ⟨e, g1, g2⟩ | ⟨o, o', g1, g2, g3⟩ := (layerOptions_same he output h h1).cases
    · rw [g1, g2]; exact .error _
    · rw [g1, g2]
      simp only
      obtain ⟨e, k1, k2⟩ | ⟨c, c', k1, k2, k3⟩ := (createLayer_same he g3 (priorOptions (hp d List.mem_cons_self) g1)
        (priorOptions (hp' d' List.mem_cons_self) g2)).cases
      · rw [k1, k2]; exact .error _
      · rw [k1, k2]
        simp only
        obtain ⟨e, m1, m2⟩ | ⟨l, l', m1, m2, m3⟩ := (addLayer_same h k3).cases
        · rw [m1, m2]; exact .error _
        · rw [m1, m2]
          exact ih (fun d hd => hp d (List.mem_cons_of_mem _ hd)) (fun d hd => hp' d (List.mem_cons_of_mem _ hd)) m3

theorem PriorFits.layer {a : Architecture} (h : PriorFits env a) : ∀ d ∈ a.layers, PriorLayer env a.outputLayer d :=
  fun d hd p hp => ⟨(h p hp).1, (h p hp).2 d hd⟩

theorem createNetwork_same (he : SameEnv env env') {a b : Architecture}
    (hi : List.Forall₂ (fun d d' => createInput env d = createInput env' d') a.inputs b.inputs)
    (hl : List.Forall₂ SameLookup a.layers b.layers) (ho : a.outputLayer = b.outputLayer) (hp : PriorFits env a) (hp' : PriorFits env' b) :
    ExRel (fun n n' => SameNetwork n.layers n'.layers ∧ n.output = n'.output) (createNetwork env a) (createNetwork env' b) := by
  unfold createNetwork
  obtain ⟨e, g1, g2⟩ | ⟨i, i', g1, g2, g3⟩ := (createInputs_same hi .nil).cases
  · rw [g1, g2]; exact .error _
  · rw [g1, g2]
    simp only
    rw [ho]
    obtain ⟨e, k1, k2⟩ | ⟨l, l', k1, k2, k3⟩ := (createLayers_same he b.outputLayer hl (ho ▸ hp.layer) hp'.layer g3).cases
    · rw [k1, k2]; exact .error _
    · rw [k1, k2]
      simp only
      rw [findIdx?_names (fun n => decide (ArchVal.str n = b.outputLayer)), findIdx?_names (fun n => decide (ArchVal.str n = b.outputLayer)),
        k3.names]
      cases (l'.map Created.name).findIdx? (fun n => decide (ArchVal.str n = b.outputLayer)) with
      | none => exact .error _
      | some i => exact .ok ⟨k3, rfl⟩

end

end TheanoLM
