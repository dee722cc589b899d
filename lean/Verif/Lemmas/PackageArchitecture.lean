import Verif.Model.PackageArchitecture
import Verif.Model.NetworkCreate
/-!
# Lemmas about the architecture files that come with the program
-/
set_option linter.unusedSectionVars false

namespace TheanoLM

/-! ## The description depends on the numbers in the file only -/

/-- The values of the sizes in a line. -/
def sizesIn (line : Str) : List Str :=
  (pySplit line).filterMap fun f =>
    match splitField f with
    | .ok (n, v) => if n = "size".toList then some v else none
    | .error _ => none

section
variable {p q : Str → Option ℤ}

theorem layerField_congr {d : ArchDict} {name value : Str} (h : name = "size".toList → p value = q value) :
    layerField p d name value = layerField q d name value := by
  unfold layerField
  split
  · rename_i hs
    rw [h hs]
  · rfl

theorem layerFields_congr {fields : List Str}
    (h : ∀ f ∈ fields, ∀ n v, splitField f = .ok (n, v) → n = "size".toList → p v = q v) (d : ArchDict) :
    layerFields p fields d = layerFields q fields d := by
  induction fields generalizing d with
  | nil => rfl
  | cons f fs ih =>
    rw [layerFields, layerFields]
    cases hf : splitField f with
    | error e => rfl
    | ok r =>
      obtain ⟨n, v⟩ := r
      simp only
      rw [layerField_congr (h f List.mem_cons_self n v hf)]
      cases layerField q d n v with
      | error e => rfl
      | ok d' => exact ih (fun g hg => h g (List.mem_cons_of_mem _ hg)) d'

theorem descriptionLines_congr {lines : List Str} (h : ∀ line ∈ lines, ∀ v ∈ sizesIn line, p v = q v) (inputs layers : List ArchDict) :
    descriptionLines p lines inputs layers = descriptionLines q lines inputs layers := by
  induction lines generalizing inputs layers with
  | nil => rfl
  | cons line lines ih =>
    have ih := ih fun l hl => h l (List.mem_cons_of_mem _ hl)
    have h := h line List.mem_cons_self
    rw [descriptionLines, descriptionLines]
    unfold sizesIn at h
    cases hs : pySplit line with
    | nil => exact ih _ _
    | cons first fields =>
      have hl : layerLine p fields = layerLine q fields := by
        unfold layerLine
        rw [layerFields_congr fun f hf n v h1 h2 => h v ?_]
        rw [hs, List.mem_filterMap]
        refine ⟨f, List.mem_cons_of_mem _ hf, ?_⟩
        rw [h1]
        exact if_pos h2
      simp only [hl, ih]

theorem fromDescription_congr {lines : List Str} (h : ∀ line ∈ lines, ∀ v ∈ sizesIn line, p v = q v) :
    Architecture.fromDescription p lines = Architecture.fromDescription q lines := by
  unfold Architecture.fromDescription
  rw [descriptionLines_congr h]

end

/-! ## Layers on one device -/

section
variable {S : Type} [Add S] [Mul S] [Sub S] [Div S] [Zero S] [One S] [Min S]

theorem createLayers_step {env : CreateEnv S} {out : ArchVal} {d : ArchDict} {rest : List ArchDict} {layers : List (Created S)}
    {o : LayerOptions} {c : Created S} (h1 : layerOptions env out layers d = .ok o) (h2 : createLayer env o = .ok c)
    (h3 : layers.any (fun c' => c'.name = c.name) = false) :
    createLayers env out (d :: rest) layers = createLayers env out rest (layers ++ [c]) := by
  rw [createLayers, h1]
  simp only
  rw [h2]
  simp only
  unfold addLayer
  rw [h3]
  rfl

theorem createBasic_none {o : LayerOptions} (hd : o.devices = [none]) (ha : dictGet? o.options "activation".toList = none) (size : Nat)
    {weights : List (Bool × Str × List (List S))} {biases : List (Bool × Str × List S)} {w : ParamDict (List S)} {b : ParamDict S}
    (hw : initParams [none] weights [] = .ok w) (hb : initParams [none] biases [] = .ok b) :
    createBasic o size weights biases = .ok ⟨o.inputs, [none], size, .tanh, w, b⟩ := by
  unfold createBasic activationOption
  rw [ha]
  simp only
  rw [hd, hw]
  simp only
  rw [hb]

theorem initParams_one {α : Type} (split : Bool) (name : Str) (value : List α) :
    initParams [none] [(split, name, value)] [] = .ok [(name, value)] := by
  cases split <;> rfl

theorem createLayer_sized {env : CreateEnv S} {o : LayerOptions} {s : Str} {type : LayerType} {size : Nat}
    (h1 : dictGet? o.options "type".toList = some (.one (.str s))) (h2 : layerType s = some type) (h3 : type ≠ .addition)
    (h4 : basicSize env o = .ok size) : createLayer env o = createSized env type o size := by
  unfold createLayer strOption
  rw [h1]
  simp only
  rw [h2]
  simp only
  rw [if_neg h3, h4]

/-- The parts of a layer that do not depend on the values of the parameters. -/
def OnNoDevice (b : Basic S) (inputs : List Nat) : Prop := b.inputs = inputs ∧ b.devices = [none]

section
variable {env : CreateEnv S} {o : LayerOptions} (hd : o.devices = [none]) (ha : dictGet? o.options "activation".toList = none)
include hd ha

theorem createSized_projection (size : Nat) :
    ∃ b, createSized env .projection o size = .ok ⟨o.name, size, .projection b⟩ ∧ OnNoDevice b o.inputs := by
  unfold createSized createSimple
  simp only
  rw [createBasic_none hd ha size (initParams_one _ _ _) rfl]
  exact ⟨_, rfl, rfl, rfl⟩

theorem createSized_fullyConnected (size : Nat) :
    ∃ b, createSized env .fullyConnected o size = .ok ⟨o.name, size, .fullyConnected b⟩ ∧ OnNoDevice b o.inputs := by
  unfold createSized createSimple
  simp only
  rw [createBasic_none hd ha size (initParams_one _ _ _) (initParams_one _ _ _)]
  exact ⟨_, rfl, rfl, rfl⟩

theorem createSized_softmax (size : Nat) :
    ∃ b, createSized env .softmax o size = .ok ⟨o.name, size, .softmax b env.unkClass⟩ ∧ OnNoDevice b o.inputs := by
  unfold createSized createSimple
  simp only
  rw [createBasic_none hd ha size (initParams_one _ _ _) (initParams_one _ _ _)]
  exact ⟨_, rfl, rfl, rfl⟩

theorem createSized_lstm (hr : dictGet? o.options "reverse_time".toList = none) (size : Nat) :
    ∃ b, createSized env (.recurrent .lstm) o size = .ok ⟨o.name, size, .recurrent .lstm b⟩ ∧ OnNoDevice b o.inputs := by
  unfold createSized createRecurrent reverseTime
  simp only
  rw [hr]
  have hw : ∀ x y : List (List S), initParams [none] [(true, "layer_input/W".toList, x), (false, "step_input/W".toList, y)] [] =
      .ok [("layer_input/W".toList, x), ("step_input/W".toList, y)] := by
    intro x y
    rfl
  rw [createBasic_none hd ha size (hw _ _) (initParams_one _ _ _)]
  exact ⟨_, rfl, rfl, rfl⟩

theorem createSized_dropout {v : Str} {rate : S} (hv : dictGet? o.options "dropout_rate".toList = some (.one (.str v)))
    (hf : env.parseFloat (.str v) = some rate) {size : Nat} (hs : o.inputSizes.sum = size) :
    ∃ b, createSized env .dropout o size = .ok ⟨o.name, size, .dropout b (1 / (1 - min env.rateLimit rate))⟩ ∧ OnNoDevice b o.inputs := by
  unfold createSized createSimple dropoutScale
  simp only
  rw [hv]
  simp only
  rw [hf]
  simp only
  rw [if_neg (not_not.mpr hs), createBasic_none hd ha size rfl rfl]
  exact ⟨_, rfl, rfl, rfl⟩

end

end

/-! ## The two networks -/

/-- A layer of a description that has been read. -/
def packageLayer (inputs : List String) (type name : String) (fields : ArchDict) : ArchDict :=
  [("inputs".toList, .many (inputs.map fun i => .str i.toList)), ("devices".toList, .many []), ("type".toList, .one (.str type.toList)),
    ("name".toList, .one (.str name.toList))] ++ fields

def packageInput : ArchDict := [("type".toList, .one (.str "class".toList)), ("name".toList, .one (.str "class_input".toList))]

def sizeField (n : ℤ) : ArchDict := [("size".toList, .one (.int n))]

def rateField : ArchDict := [("dropout_rate".toList, .one (.str "0.25".toList))]

def lstm300 : Architecture where
  inputs := [packageInput]
  layers := [packageLayer ["class_input"] "projection" "projection_layer" (sizeField 100),
    packageLayer ["projection_layer"] "lstm" "hidden_layer_1" (sizeField 300),
    packageLayer ["hidden_layer_1"] "tanh" "hidden_layer_2" (sizeField 300),
    packageLayer ["hidden_layer_2"] "softmax" "output_layer" []]
  outputLayer := .str "output_layer".toList

def lstm1500 : Architecture where
  inputs := [packageInput]
  layers := [packageLayer ["class_input"] "projection" "projection_layer" (sizeField 500),
    packageLayer ["projection_layer"] "dropout" "dropout_layer_1" rateField,
    packageLayer ["dropout_layer_1"] "lstm" "hidden_layer_1" (sizeField 1500),
    packageLayer ["hidden_layer_1"] "dropout" "dropout_layer_2" rateField,
    packageLayer ["dropout_layer_1", "dropout_layer_2"] "tanh" "hidden_layer_2" (sizeField 1500),
    packageLayer ["hidden_layer_2"] "dropout" "dropout_layer_3" rateField,
    packageLayer ["dropout_layer_3"] "softmax" "output_layer" []]
  outputLayer := .str "output_layer".toList

/-- The numerals in the files. -/
def packageNumeral (s : Str) : Option ℤ :=
  if s = "100".toList then some 100 else if s = "300".toList then some 300 else if s = "500".toList then some 500
  else if s = "1500".toList then some 1500 else none

theorem packageNumeral_eq {p : Str → Option ℤ} (hp : ∀ n : Nat, p (toString n).toList = some (n : ℤ)) :
    ∀ v ∈ ["100".toList, "300".toList, "500".toList, "1500".toList], p v = packageNumeral v := by
  have h1 := hp 100
  have h2 := hp 300
  have h3 := hp 500
  have h4 := hp 1500
  rw [show (toString 100).toList = "100".toList from rfl] at h1
  rw [show (toString 300).toList = "300".toList from rfl] at h2
  rw [show (toString 500).toList = "500".toList from rfl] at h3
  rw [show (toString 1500).toList = "1500".toList from rfl] at h4
  intro v hv
  simp only [List.mem_cons, List.not_mem_nil, or_false] at hv
  rcases hv with rfl | rfl | rfl | rfl
  · rw [h1]; decide +kernel
  · rw [h2]; decide +kernel
  · rw [h3]; decide +kernel
  · rw [h4]; decide +kernel

theorem lstm300_read {p : Str → Option ℤ} (hp : ∀ n : Nat, p (toString n).toList = some (n : ℤ)) :
    Architecture.fromDescription p lstm300Lines = .ok lstm300 := by
  have hs : ∀ line ∈ lstm300Lines, ∀ v ∈ sizesIn line, v ∈ ["100".toList, "300".toList, "500".toList, "1500".toList] := by
    decide +kernel
  rw [fromDescription_congr fun line hl v hv => packageNumeral_eq hp v (hs line hl v hv)]
  decide +kernel

theorem lstm1500_read {p : Str → Option ℤ} (hp : ∀ n : Nat, p (toString n).toList = some (n : ℤ)) :
    Architecture.fromDescription p lstm1500Lines = .ok lstm1500 := by
  have hs : ∀ line ∈ lstm1500Lines, ∀ v ∈ sizesIn line, v ∈ ["100".toList, "300".toList, "500".toList, "1500".toList] := by
    decide +kernel
  rw [fromDescription_congr fun line hl v hv => packageNumeral_eq hp v (hs line hl v hv)]
  decide +kernel

section
variable {S : Type} [Add S] [Mul S] [Sub S] [Div S] [Zero S] [One S] [Min S]

theorem findLayer_names (layers : List (Created S)) (name : Str) :
    findLayer layers name = match (layers.map Created.name).findIdx? (fun n => n = name) with
      | some i => .ok i
      | none => .error .inputError := by
  unfold findLayer
  rw [List.findIdx?_map]
  rfl

theorem any_names (layers : List (Created S)) (name : Str) :
    layers.any (fun c' => c'.name = name) = (layers.map Created.name).any (fun n => n = name) := by
  rw [List.any_map]
  rfl

theorem strValues (inputs : List String) :
    mapE strValue (inputs.map fun i => .str i.toList) = .ok (inputs.map String.toList) := by
  induction inputs with
  | nil => rfl
  | cons i is ih =>
    rw [List.map_cons, mapE, ih]
    rfl

/-- The options of a layer, given the positions of its inputs. -/
theorem packageLayer_options {env : CreateEnv S} (hd : env.defaultDevice = none) {out : Str} {layers : List (Created S)}
    {inputs : List String} {type name : String} {fields : ArchDict} {positions : List Nat}
    (hi : mapE (fun n => match (layers.map Created.name).findIdx? (fun m => m = n) with
      | some i => (.ok i : Except Err Nat)
      | none => .error .inputError) (inputs.map String.toList) = .ok positions) :
    layerOptions env (.str out) layers (packageLayer inputs type name fields) =
      .ok ⟨name.toList, positions, positions.map fun i => (layers[i]?.map Created.size).getD 0, [none],
        if ArchVal.str name.toList = .str out then
          dictSet (packageLayer inputs type name fields) "size".toList (.one (.int env.numClasses))
        else packageLayer inputs type name fields⟩ := by
  have h1 : strOption (packageLayer inputs type name fields) "name".toList = .ok name.toList := rfl
  have h2 : dictGet? (packageLayer inputs type name fields) "inputs".toList = some (.many (inputs.map fun i => .str i.toList)) := rfl
  have h3 : layerDevices env (packageLayer inputs type name fields) = .ok [env.defaultDevice] := rfl
  have h4 : entryStrings (.many (inputs.map fun i => .str i.toList)) = .ok (inputs.map String.toList) := strValues inputs
  have h5 : mapE (findLayer layers) (inputs.map String.toList) = .ok positions := by
    rw [← hi]
    congr 1
    funext n
    exact findLayer_names layers n
  unfold layerOptions
  rw [h1]
  simp only
  rw [h2]
  simp only
  rw [h4]
  simp only
  rw [h5]
  simp only
  rw [h3, hd]

/-- The creation of one layer of a network. -/
theorem package_step {env : CreateEnv S} (hd : env.defaultDevice = none) {out : Str} {layers : List (Created S)}
    {inputs : List String} {type name : String} {fields : ArchDict} {rest : List ArchDict} (positions : List Nat) {c : Created S}
    (hi : mapE (fun n => match (layers.map Created.name).findIdx? (fun m => m = n) with
      | some i => (.ok i : Except Err Nat)
      | none => .error .inputError) (inputs.map String.toList) = .ok positions)
    (hc : createLayer env ⟨name.toList, positions, positions.map fun i => (layers[i]?.map Created.size).getD 0, [none],
        if ArchVal.str name.toList = .str out then
          dictSet (packageLayer inputs type name fields) "size".toList (.one (.int env.numClasses))
        else packageLayer inputs type name fields⟩ = .ok c)
    (hf : (layers.map Created.name).any (fun n => n = c.name) = false) :
    createLayers env (.str out) (packageLayer inputs type name fields :: rest) layers = createLayers env (.str out) rest (layers ++ [c]) :=
  createLayers_step (packageLayer_options hd hi) hc (by rw [any_names, hf])

theorem entrySize_nat (p : Str → Option ℤ) (n : Nat) : entrySize p (.one (.int n)) = .ok n := by
  show (if (n : ℤ) < 0 then (.error .valueError : Except Err Nat) else .ok (n : ℤ).toNat) = .ok n
  rw [if_neg (by omega), Int.toNat_natCast]

theorem lstm300_layers (env : CreateEnv S) (hd : env.defaultDevice = none) :
    ∃ b1 b2 b3 b4, createNetwork env lstm300 = .ok ⟨[⟨"class_input".toList, env.numClasses, .classInput⟩,
        ⟨"projection_layer".toList, 100, .projection b1⟩, ⟨"hidden_layer_1".toList, 300, .recurrent .lstm b2⟩,
        ⟨"hidden_layer_2".toList, 300, .fullyConnected b3⟩, ⟨"output_layer".toList, env.numClasses, .softmax b4 env.unkClass⟩], 4⟩ ∧
      OnNoDevice b1 [0] ∧ OnNoDevice b2 [1] ∧ OnNoDevice b3 [2] ∧ OnNoDevice b4 [3] := by
  have h0 : createInputs env lstm300.inputs [] = .ok [⟨"class_input".toList, env.numClasses, .classInput⟩] := rfl
  obtain ⟨b1, p1, q1⟩ := createSized_projection (env := env) (o := ⟨"projection_layer".toList, [0], [env.numClasses], [none],
    packageLayer ["class_input"] "projection" "projection_layer" (sizeField 100)⟩) rfl rfl 100
  obtain ⟨b2, p2, q2⟩ := createSized_lstm (env := env) (o := ⟨"hidden_layer_1".toList, [1], [100], [none],
    packageLayer ["projection_layer"] "lstm" "hidden_layer_1" (sizeField 300)⟩) rfl rfl rfl 300
  obtain ⟨b3, p3, q3⟩ := createSized_fullyConnected (env := env) (o := ⟨"hidden_layer_2".toList, [2], [300], [none],
    packageLayer ["hidden_layer_1"] "tanh" "hidden_layer_2" (sizeField 300)⟩) rfl rfl 300
  obtain ⟨b4, p4, q4⟩ := createSized_softmax (env := env) (o := ⟨"output_layer".toList, [3], [300], [none],
    packageLayer ["hidden_layer_2"] "softmax" "output_layer" (sizeField env.numClasses)⟩) rfl rfl env.numClasses
  have z : basicSize env ⟨"output_layer".toList, [3], [300], [none],
      packageLayer ["hidden_layer_2"] "softmax" "output_layer" (sizeField env.numClasses)⟩ = .ok env.numClasses :=
    entrySize_nat env.parseInt env.numClasses
  refine ⟨b1, b2, b3, b4, ?_, q1, q2, q3, q4⟩
  unfold createNetwork
  rw [h0]
  simp only
  rw [show lstm300.layers = [packageLayer ["class_input"] "projection" "projection_layer" (sizeField 100),
    packageLayer ["projection_layer"] "lstm" "hidden_layer_1" (sizeField 300),
    packageLayer ["hidden_layer_1"] "tanh" "hidden_layer_2" (sizeField 300),
    packageLayer ["hidden_layer_2"] "softmax" "output_layer" []] from rfl, show lstm300.outputLayer = .str "output_layer".toList from rfl,
    package_step hd [0] rfl ((createLayer_sized rfl rfl (by decide) rfl).trans p1) rfl,
    package_step hd [1] rfl ((createLayer_sized rfl rfl (by decide) rfl).trans p2) rfl,
    package_step hd [2] rfl ((createLayer_sized rfl rfl (by decide) rfl).trans p3) rfl,
    package_step hd [3] rfl ((createLayer_sized rfl rfl (by decide) z).trans p4) rfl]
  rfl

theorem lstm1500_layers (env : CreateEnv S) (hd : env.defaultDevice = none) {rate : S}
    (hf : env.parseFloat (.str "0.25".toList) = some rate) :
    ∃ b1 b2 b3 b4 b5 b6 b7, createNetwork env lstm1500 = .ok ⟨[⟨"class_input".toList, env.numClasses, .classInput⟩,
        ⟨"projection_layer".toList, 500, .projection b1⟩,
        ⟨"dropout_layer_1".toList, 500, .dropout b2 (1 / (1 - min env.rateLimit rate))⟩,
        ⟨"hidden_layer_1".toList, 1500, .recurrent .lstm b3⟩,
        ⟨"dropout_layer_2".toList, 1500, .dropout b4 (1 / (1 - min env.rateLimit rate))⟩,
        ⟨"hidden_layer_2".toList, 1500, .fullyConnected b5⟩,
        ⟨"dropout_layer_3".toList, 1500, .dropout b6 (1 / (1 - min env.rateLimit rate))⟩,
        ⟨"output_layer".toList, env.numClasses, .softmax b7 env.unkClass⟩], 7⟩ ∧
      OnNoDevice b1 [0] ∧ OnNoDevice b2 [1] ∧ OnNoDevice b3 [2] ∧ OnNoDevice b4 [3] ∧ OnNoDevice b5 [2, 4] ∧ OnNoDevice b6 [5] ∧
      OnNoDevice b7 [6] := by
  have h0 : createInputs env lstm1500.inputs [] = .ok [⟨"class_input".toList, env.numClasses, .classInput⟩] := rfl
  obtain ⟨b1, p1, q1⟩ := createSized_projection (env := env) (o := ⟨"projection_layer".toList, [0], [env.numClasses], [none],
    packageLayer ["class_input"] "projection" "projection_layer" (sizeField 500)⟩) rfl rfl 500
  obtain ⟨b2, p2, q2⟩ := createSized_dropout (env := env) (o := ⟨"dropout_layer_1".toList, [1], [500], [none],
    packageLayer ["projection_layer"] "dropout" "dropout_layer_1" rateField⟩) rfl rfl rfl hf (size := 500) rfl
  obtain ⟨b3, p3, q3⟩ := createSized_lstm (env := env) (o := ⟨"hidden_layer_1".toList, [2], [500], [none],
    packageLayer ["dropout_layer_1"] "lstm" "hidden_layer_1" (sizeField 1500)⟩) rfl rfl rfl 1500
  obtain ⟨b4, p4, q4⟩ := createSized_dropout (env := env) (o := ⟨"dropout_layer_2".toList, [3], [1500], [none],
    packageLayer ["hidden_layer_1"] "dropout" "dropout_layer_2" rateField⟩) rfl rfl rfl hf (size := 1500) rfl
  obtain ⟨b5, p5, q5⟩ := createSized_fullyConnected (env := env) (o := ⟨"hidden_layer_2".toList, [2, 4], [500, 1500], [none],
    packageLayer ["dropout_layer_1", "dropout_layer_2"] "tanh" "hidden_layer_2" (sizeField 1500)⟩) rfl rfl 1500
  obtain ⟨b6, p6, q6⟩ := createSized_dropout (env := env) (o := ⟨"dropout_layer_3".toList, [5], [1500], [none],
    packageLayer ["hidden_layer_2"] "dropout" "dropout_layer_3" rateField⟩) rfl rfl rfl hf (size := 1500) rfl
  obtain ⟨b7, p7, q7⟩ := createSized_softmax (env := env) (o := ⟨"output_layer".toList, [6], [1500], [none],
    packageLayer ["dropout_layer_3"] "softmax" "output_layer" (sizeField env.numClasses)⟩) rfl rfl env.numClasses
  have z : basicSize env ⟨"output_layer".toList, [6], [1500], [none],
      packageLayer ["dropout_layer_3"] "softmax" "output_layer" (sizeField env.numClasses)⟩ = .ok env.numClasses :=
    entrySize_nat env.parseInt env.numClasses
  refine ⟨b1, b2, b3, b4, b5, b6, b7, ?_, q1, q2, q3, q4, q5, q6, q7⟩
  unfold createNetwork
  rw [h0]
  simp only
  rw [show lstm1500.layers = [packageLayer ["class_input"] "projection" "projection_layer" (sizeField 500),
    packageLayer ["projection_layer"] "dropout" "dropout_layer_1" rateField,
    packageLayer ["dropout_layer_1"] "lstm" "hidden_layer_1" (sizeField 1500),
    packageLayer ["hidden_layer_1"] "dropout" "dropout_layer_2" rateField,
    packageLayer ["dropout_layer_1", "dropout_layer_2"] "tanh" "hidden_layer_2" (sizeField 1500),
    packageLayer ["hidden_layer_2"] "dropout" "dropout_layer_3" rateField,
    packageLayer ["dropout_layer_3"] "softmax" "output_layer" []] from rfl, show lstm1500.outputLayer = .str "output_layer".toList from rfl,
    package_step hd [0] rfl ((createLayer_sized rfl rfl (by decide) rfl).trans p1) rfl,
    package_step hd [1] rfl ((createLayer_sized rfl rfl (by decide) rfl).trans p2) rfl,
    package_step hd [2] rfl ((createLayer_sized rfl rfl (by decide) rfl).trans p3) rfl,
    package_step hd [3] rfl ((createLayer_sized rfl rfl (by decide) rfl).trans p4) rfl,
    package_step hd [2, 4] rfl ((createLayer_sized rfl rfl (by decide) rfl).trans p5) rfl,
    package_step hd [5] rfl ((createLayer_sized rfl rfl (by decide) rfl).trans p6) rfl,
    package_step hd [6] rfl ((createLayer_sized rfl rfl (by decide) z).trans p7) rfl]
  rfl

end

end TheanoLM
