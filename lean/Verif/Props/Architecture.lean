import Verif.Lemmas.ArchitectureDescription
import Verif.Props.Vocabulary
/-!
# Properties of network architecture descriptions (C50-C52)
-/
namespace TheanoLM
set_option linter.unusedSectionVars false

/-! ## Examples -/

/-- An option of an example: a variable and a string. -/
def exOpt (k v : String) : Str × ArchEntry := (k.toList, .one (.str v.toList))

/-- A small architecture: one input, a projection layer and an output layer that is split to two devices. -/
def exArch : Architecture :=
  ⟨[[exOpt "type" "word", exOpt "name" "words"]],
   [[("inputs".toList, .many [.str "words".toList]), ("devices".toList, .many []), exOpt "type" "projection",
      exOpt "name" "proj", ("size".toList, .one (.int 100))],
    [("inputs".toList, .many [.str "proj".toList]), ("devices".toList, .many [.str "d0".toList, .str "d1".toList]),
      exOpt "type" "softmax", exOpt "name" "out"]],
   .str "out".toList⟩

/-- An architecture with eleven inputs. -/
def exManyInputs : Architecture :=
  ⟨(List.range 11).map fun i => [exOpt "type" "word", ("name".toList, .one (.str (natStr i)))], exArch.layers, exArch.outputLayer⟩

theorem exArch_valid : exArch.Valid := ⟨by decide, by decide, by decide⟩
theorem exManyInputs_valid : exManyInputs.Valid := ⟨by decide, by decide, by decide +kernel⟩

/-! ## C50 -/

/-- C50 (partial: at most ten inputs, and at most ten values in a list, see `C50_violated`).  An architecture that is saved to a
state is restored from it: the same inputs and layers in the same order, with the same options, and the same output layer. -/
theorem C50_partial (a : Architecture) (ha : a.Valid) (hi : a.inputs.length ≤ 10)
    (hl : ∀ d ∈ a.inputs ++ a.layers, ListsAtMost 10 d) :
    ∃ b, Architecture.fromState (some (a.getState none)) = .ok b ∧ SameArch a b := by
  have hs := sorted_numbered_small (a.inputs.map fun d => (⟨scalarsOf d, listsOf d⟩ : H5Dict)) (by simpa using hi)
  rw [List.length_map] at hs
  refine ⟨_, fromState_getState ha _ hs (List.Perm.refl _), ?_, ?_, rfl⟩
  · rw [map_nthDict_range, List.forall₂_map_right_iff, List.forall₂_same]
    intro d hd
    exact readH5Dict_same (ha.keys d (List.mem_append_left _ hd)) (hl d (List.mem_append_left _ hd))
  · rw [List.forall₂_map_right_iff, List.forall₂_same]
    intro d hd
    exact readH5Dict_same (ha.keys d (List.mem_append_right _ hd)) (hl d (List.mem_append_right _ hd))

/-- C50, what holds for any number of inputs and list values: the layers are restored in order and the inputs in some order, with
the same options, only the order of the values of a list may change. -/
theorem C50_order (a : Architecture) (ha : a.Valid) :
    ∃ b inputs, Architecture.fromState (some (a.getState none)) = .ok b ∧
      inputs.Perm b.inputs ∧ List.Forall₂ SameDictValues a.inputs inputs ∧
      List.Forall₂ SameDictValues a.layers b.layers ∧ b.outputLayer = a.outputLayer := by
  obtain ⟨σ, hσ, hs⟩ := sorted_numbered (a.inputs.map fun d => (⟨scalarsOf d, listsOf d⟩ : H5Dict))
  rw [List.length_map] at hσ
  refine ⟨_, (List.range a.inputs.length).map (nthDict (a.inputs.map fun d => ⟨scalarsOf d, listsOf d⟩)),
    fromState_getState ha σ hs hσ, (hσ.map _).symm, ?_, ?_, rfl⟩
  · rw [map_nthDict_range, List.forall₂_map_right_iff, List.forall₂_same]
    intro d hd
    exact readH5Dict_values (ha.keys d (List.mem_append_left _ hd))
  · rw [List.forall₂_map_right_iff, List.forall₂_same]
    intro d hd
    exact readH5Dict_values (ha.keys d (List.mem_append_right _ hd))

/-- C50 does not hold in full: with eleven inputs, the third input after restoring is the one that was saved as the eleventh,
because the inputs are read in the order of their numbers as strings. -/
theorem C50_violated : ∃ a : Architecture, a.Valid ∧
    ∃ b, Architecture.fromState (some (a.getState none)) = .ok b ∧ ¬ SameArch a b := by
  refine ⟨exManyInputs, exManyInputs_valid, ?_⟩
  have h : ∃ b, Architecture.fromState (some (exManyInputs.getState none)) = .ok b ∧
      (∃ d, exManyInputs.inputs[2]? = some d ∧ ∃ e, b.inputs[2]? = some e ∧
        ("name".toList, ArchEntry.one (.str (natStr 2))) ∈ d ∧ ("name".toList, ArchEntry.one (.str (natStr 2))) ∉ e) := by
    refine ⟨_, fromState_getState exManyInputs_valid ([0, 1, 10, 2, 3, 4, 5, 6, 7, 8, 9]) (by decide +kernel)
      (by decide +kernel), ?_⟩
    refine ⟨_, rfl, _, rfl, by decide +kernel, by decide +kernel⟩
  obtain ⟨b, hb, d, hd, e, he, h1, h2⟩ := h
  refine ⟨b, hb, fun hs => ?_⟩
  have hf := hs.inputs
  rw [List.forall₂_iff_get] at hf
  obtain ⟨h3, hd⟩ := List.getElem?_eq_some_iff.mp hd
  obtain ⟨h4, he⟩ := List.getElem?_eq_some_iff.mp he
  have := hf.2 2 h3 h4
  rw [List.get_eq_getElem, List.get_eq_getElem, hd, he] at this
  exact h2 (this.mem_iff.mp h1)

/-- C50: saving an architecture again to the same state, which happens each time that the model is saved, changes nothing. -/
theorem C50_again (a : Architecture) (ha : a.Valid) : a.getState (some (a.getState none)) = a.getState none := by
  have hi : writeH5List none a.inputs = numbered (a.inputs.map fun d => ⟨scalarsOf d, listsOf d⟩) :=
    writeH5List_new fun d hd => ha.keys d (List.mem_append_left _ hd)
  have hl : writeH5List none a.layers = numbered (a.layers.map fun d => ⟨scalarsOf d, listsOf d⟩) :=
    writeH5List_new fun d hd => ha.keys d (List.mem_append_right _ hd)
  unfold Architecture.getState
  simp only [Option.getD_none, Option.getD_some]
  rw [hi, hl, writeH5List_again fun d hd => ha.keys d (List.mem_append_left _ hd),
    writeH5List_again fun d hd => ha.keys d (List.mem_append_right _ hd)]

example : exArch.Valid ∧ exArch.inputs.length ≤ 10 ∧ ∀ d ∈ exArch.inputs ++ exArch.layers, ListsAtMost 10 d := by
  refine ⟨exArch_valid, by decide, ?_⟩
  have : ∀ d ∈ exArch.inputs ++ exArch.layers, ∀ e ∈ d,
      (match e.2 with | .one _ => true | .many vs => decide (vs.length ≤ 10)) = true := by decide
  intro d hd k vs hk
  simpa using this d hd _ hk

/-! ## C51 -/

/-- C51 (partial: the check is one-sided, see `C51_violated`).  An architecture is compatible with the saved state of another one
exactly when its inputs and layers, as many as it has, have the same options as those that were saved, and its output is the
same: a check fails when an input, a layer, or an option of the checked architecture is missing from the state or is
different. -/
theorem C51_partial (a b : Architecture) (hb : b.Valid) :
    a.checkState (some (b.getState none)) = .ok () ↔ SubArch a b := by
  have hi : writeH5List none b.inputs = numbered (b.inputs.map fun d => ⟨scalarsOf d, listsOf d⟩) :=
    writeH5List_new fun d hd => hb.keys d (List.mem_append_left _ hd)
  have hl : writeH5List none b.layers = numbered (b.layers.map fun d => ⟨scalarsOf d, listsOf d⟩) :=
    writeH5List_new fun d hd => hb.keys d (List.mem_append_right _ hd)
  have h1 := checkH5List_iff (fun d hd => hb.keys d (List.mem_append_left _ hd)) a.inputs 0
  have h2 := checkH5List_iff (fun d hd => hb.keys d (List.mem_append_right _ hd)) a.layers 0
  rw [List.drop_zero] at h1 h2
  unfold Architecture.checkState Architecture.getState
  simp only [Option.getD_none]
  rw [hi, hl]
  constructor
  · intro h
    cases c1 : checkH5List (numbered (b.inputs.map fun d => (⟨scalarsOf d, listsOf d⟩ : H5Dict))) a.inputs.zipIdx with
    | error e => rw [c1] at h; cases h
    | ok u =>
      rw [c1] at h
      simp only at h
      cases c2 : checkH5List (numbered (b.layers.map fun d => (⟨scalarsOf d, listsOf d⟩ : H5Dict))) a.layers.zipIdx with
      | error e => rw [c2] at h; cases h
      | ok u' =>
        rw [c2] at h
        simp only at h
        split at h
        · cases h
        · rename_i ho
          exact ⟨h1.mp c1, h2.mp c2, not_not.mp ho⟩
  · rintro ⟨s1, s2, s3⟩
    rw [h1.mpr s1]
    simp only
    rw [h2.mpr s2]
    simp only
    rw [if_neg (not_not.mpr s3)]

theorem SubDict.refl (d : ArchDict) : SubDict d d :=
  fun _ => ⟨fun _ h => h, fun vs h => .inl ⟨vs, h, List.prefix_refl _⟩⟩

/-- C51: an architecture is always compatible with its own saved state. -/
theorem C51_self (a : Architecture) (ha : a.Valid) : a.checkState (some (a.getState none)) = .ok () := by
  rw [C51_partial a a ha]
  exact ⟨⟨_, List.prefix_refl _, List.forall₂_same.mpr fun d _ => .refl d⟩,
    ⟨_, List.prefix_refl _, List.forall₂_same.mpr fun d _ => .refl d⟩, rfl⟩

/-- C51: a state without an architecture is never compatible. -/
theorem C51_missing (a : Architecture) (s : H5Arch) :
    a.checkState none = .error .incompatibleState ∧
    (s.inputs = none → a.checkState (some s) = .error .incompatibleState) ∧
    (s.layers = none → a.checkState (some s) ≠ .ok ()) ∧ (s.outputLayer = none → a.checkState (some s) ≠ .ok ()) := by
  refine ⟨rfl, ?_, ?_, ?_⟩
  · intro h
    simp only [Architecture.checkState, h]
  · intro h hc
    simp only [Architecture.checkState, h] at hc
    split at hc
    · cases hc
    · split at hc <;> cases hc
  · intro h hc
    simp only [Architecture.checkState, h] at hc
    split at hc
    · cases hc
    · split at hc
      · cases hc
      · split at hc
        · cases hc
        · split at hc <;> cases hc

/-- C51: a different number of inputs or layers, a different value of an option, or a different output is detected when the checked
architecture has at least as many inputs and layers and options as the saved one. -/
theorem C51_detects (a b : Architecture) (hb : b.Valid)
    (h : b.inputs.length < a.inputs.length ∨ b.layers.length < a.layers.length ∨ a.outputLayer ≠ b.outputLayer ∨
      (∃ (i : Nat) (d e : ArchDict) (k : Str) (v : ArchVal), a.inputs[i]? = some d ∧ b.inputs[i]? = some e ∧ (k, ArchEntry.one v) ∈ d ∧ (k, ArchEntry.one v) ∉ e) ∨
      (∃ (i : Nat) (d e : ArchDict) (k : Str) (v : ArchVal), a.layers[i]? = some d ∧ b.layers[i]? = some e ∧ (k, ArchEntry.one v) ∈ d ∧ (k, ArchEntry.one v) ∉ e)) :
    ∃ e, a.checkState (some (b.getState none)) = .error e := by
  have key : ¬ SubArch a b := by
    rintro ⟨⟨l, hl, hf⟩, ⟨l', hl', hf'⟩, ho⟩
    rcases h with h | h | h | ⟨i, d, e, k, v, h1, h2, h3, h4⟩ | ⟨i, d, e, k, v, h1, h2, h3, h4⟩
    · have := hf.length_eq; have := hl.length_le; omega
    · have := hf'.length_eq; have := hl'.length_le; omega
    · exact h ho
    · obtain ⟨hi, hd⟩ := List.getElem?_eq_some_iff.mp h1
      rw [List.forall₂_iff_get] at hf
      have hi' : i < l.length := by omega
      have hs := hf.2 i hi hi'
      have he := (prefix_iff_getElem? l b.inputs).mp hl i _ (List.getElem?_eq_getElem hi')
      rw [h2, Option.some.injEq] at he
      rw [List.get_eq_getElem, List.get_eq_getElem, hd, ← he] at hs
      exact h4 ((hs k).1 v h3)
    · obtain ⟨hi, hd⟩ := List.getElem?_eq_some_iff.mp h1
      rw [List.forall₂_iff_get] at hf'
      have hi' : i < l'.length := by omega
      have hs := hf'.2 i hi hi'
      have he := (prefix_iff_getElem? l' b.layers).mp hl' i _ (List.getElem?_eq_getElem hi')
      rw [h2, Option.some.injEq] at he
      rw [List.get_eq_getElem, List.get_eq_getElem, hd, ← he] at hs
      exact h4 ((hs k).1 v h3)
  cases hc : a.checkState (some (b.getState none)) with
  | error e => exact ⟨e, rfl⟩
  | ok u => exact absurd ((C51_partial a b hb).mp hc) key

/-- C51 does not hold in full: layers that are only in the saved architecture are not noticed (neither are its other options, or
further values of its lists). -/
theorem C51_violated : ∃ a b : Architecture, a.Valid ∧ b.Valid ∧ a.layers.length ≠ b.layers.length ∧
    a.checkState (some (b.getState none)) = .ok () :=
  ⟨⟨exArch.inputs, exArch.layers.take 1, exArch.outputLayer⟩, exArch, ⟨by decide, by decide, by decide⟩, exArch_valid,
    by decide, by decide +kernel⟩

example : ∃ e, (⟨exArch.inputs, exArch.layers, .str "proj".toList⟩ : Architecture).checkState
    (some (exArch.getState none)) = .error e := ⟨.incompatibleState, by decide +kernel⟩

/-! ## C52 -/

/-- C52 (partial: when no layer line has a field named `inputs` or `devices`, see `C52_violated`).  An accepted description file
consists of input lines, layer lines, comments and empty lines.  The inputs and layers are described by the lines in the same
order, repeated `input` and `device` fields are collected in order, and the output is the last layer. -/
theorem C52_partial (parseInt : Str → Option ℤ) (lines : List Str) (hn : NoListFields lines) (a : Architecture)
    (h : Architecture.fromDescription parseInt lines = .ok a) :
    Describes parseInt lines a.inputs a.layers ∧ a.inputs ≠ [] ∧
    ∃ last, a.layers.getLast? = some last ∧ ("name".toList, ArchEntry.one a.outputLayer) ∈ last := by
  unfold Architecture.fromDescription at h
  cases hd : descriptionLines parseInt lines [] [] with
  | error e => rw [hd] at h; cases h
  | ok r =>
    obtain ⟨inputs, layers⟩ := r
    obtain ⟨is, ls, h1, h2, h3⟩ := descriptionLines_sound parseInt lines hn [] [] inputs layers hd
    rw [List.nil_append] at h1 h2
    subst h1; subst h2
    rw [hd] at h
    simp only at h
    split at h
    · cases h
    rename_i hi
    split at h
    · cases h
    rename_i hl
    unfold mkArchitecture at h
    rw [if_neg hi] at h
    cases hg : layers.getLast? with
    | none => exact absurd (List.getLast?_eq_none_iff.mp hg) hl
    | some last =>
      rw [hg] at h
      simp only [getKey] at h
      cases hk : dictGet? last "name".toList with
      | none => rw [hk] at h; cases h
      | some v =>
        rw [hk] at h
        cases v with
        | many vs => cases h
        | one v =>
          simp only [Except.ok.injEq] at h
          subst h
          exact ⟨h3, hi, last, hg, dictGet?_mem hk⟩

/-- C52, the other direction: a well-formed description file is accepted, and the architecture has the inputs and layers that it
describes (which determines the dictionaries). -/
theorem C52_accepts_partial (parseInt : Str → Option ℤ) (lines : List Str) (hn : NoListFields lines)
    (inputs layers : List ArchDict) (h : Describes parseInt lines inputs layers) (hi : inputs ≠ []) (hl : layers ≠ []) :
    ∃ a, Architecture.fromDescription parseInt lines = .ok a ∧
      List.Forall₂ SameDict inputs a.inputs ∧ List.Forall₂ SameDict layers a.layers := by
  obtain ⟨is, ls, h1, h2, h3⟩ := descriptionLines_complete parseInt lines hn [] [] inputs layers h
  rw [List.nil_append, List.nil_append] at h1
  have hdesc : Describes parseInt lines is ls := by
    obtain ⟨is', ls', e1, e2, hd⟩ := descriptionLines_sound parseInt lines hn [] [] is ls h1
    rw [List.nil_append] at e1 e2
    rw [e1, e2]; exact hd
  have hi' : is ≠ [] := by rintro rfl; cases h2; exact hi rfl
  have hl' : ls ≠ [] := by rintro rfl; cases h3; exact hl rfl
  have : ∃ last, ls.getLast? = some last := by
    cases hg : ls.getLast? with
    | none => exact absurd (List.getLast?_eq_none_iff.mp hg) hl'
    | some last => exact ⟨last, rfl⟩
  obtain ⟨last, hg⟩ := this
  obtain ⟨ps, hlo⟩ := hdesc.layers_of last (List.mem_of_getLast? hg)
  obtain ⟨s, hs⟩ := hlo.name_get
  refine ⟨⟨is, ls, .str s⟩, ?_, h2, h3⟩
  unfold Architecture.fromDescription
  rw [h1]
  simp only
  rw [if_neg hi', if_neg hl']
  unfold mkArchitecture
  rw [if_neg hi', hg]
  simp only [getKey]
  rw [hs]

/-- C52 does not hold in full: a layer that has no inputs is accepted if it has a field named `inputs`. -/
theorem C52_violated : ∃ lines a, Architecture.fromDescription (fun _ => none) lines = .ok a ∧
    ¬ ∃ inputs layers, Describes (fun _ => none) lines inputs layers := by
  refine ⟨["input type=word name=w".toList, "layer type=softmax name=y inputs=z".toList],
    ⟨[[exOpt "type" "word", exOpt "name" "w"]],
     [[exOpt "inputs" "z", ("devices".toList, .many []), exOpt "type" "softmax", exOpt "name" "y"]], .str "y".toList⟩,
    by decide +kernel, ?_⟩
  rintro ⟨inputs, layers, h⟩
  have hp1 : pySplit "input type=word name=w".toList = ["input".toList, "type=word".toList, "name=w".toList] := by
    decide +kernel
  have hp2 : pySplit "layer type=softmax name=y inputs=z".toList =
      ["layer".toList, "type=softmax".toList, "name=y".toList, "inputs=z".toList] := by decide +kernel
  have h2 : ∀ inputs layers, ¬ Describes (fun _ => none) ["layer type=softmax name=y inputs=z".toList] inputs layers := by
    intro inputs layers h
    cases h with
    | empty h _ => rw [hp2] at h; cases h
    | comment h _ => rw [hp2] at h; simp at h
    | input h _ _ _ => rw [hp2] at h; simp at h
    | layer h hf hl _ =>
      rename_i fields ps d
      rw [hp2] at h
      injection h with _ h
      subst h
      have := forall₂_field_unique hf (qs := [("type".toList, "softmax".toList), ("name".toList, "y".toList),
        ("inputs".toList, "z".toList)]) (by
          refine .cons ?_ (.cons ?_ (.cons ?_ .nil)) <;> exact (splitField_iff _ _).mp (by decide +kernel))
      subst this
      have := hl.input
      revert this
      decide
  cases h with
  | empty h _ => rw [hp1] at h; cases h
  | comment _ h => exact h2 _ _ h
  | input _ _ _ h => exact h2 _ _ h
  | layer _ _ _ h => exact h2 _ _ h

/-- An example of a description, with a comment and an empty line. -/
def exLines : List Str :=
  ["# example".toList, "input type=word name=words".toList, "".toList, "layer type=projection name=proj input=words size=10".toList,
   "layer type=softmax name=out input=proj input=words device=d0 device=d1".toList]

/-- The integers of the example. -/
def exParseInt (s : Str) : Option ℤ := (strNat s).map Int.ofNat

example : NoListFields exLines ∧ ∃ a, Architecture.fromDescription exParseInt exLines = .ok a ∧ a.layers.length = 2 ∧
    Describes exParseInt exLines a.inputs a.layers := by
  have hn : NoListFields exLines := by
    have : ∀ line ∈ exLines, ∀ field ∈ (pySplit line).tail,
        (match splitField field with
        | .ok p => decide (p.1 ≠ "inputs".toList ∧ p.1 ≠ "devices".toList)
        | .error _ => false) = true ∨ (pySplit line).head? = some "#".toList := by decide +kernel
    intro line hl fields hp field hf p hfp
    have h := this line hl field (by rw [hp]; exact hf)
    rw [hp, (splitField_iff _ _).mpr hfp] at h
    rcases h with h | h
    · exact of_decide_eq_true h
    · rw [List.head?_cons] at h
      exact absurd (Option.some.inj h) (by decide)
  have h : ∃ a, Architecture.fromDescription exParseInt exLines = .ok a ∧ a.layers.length = 2 := by decide +kernel
  obtain ⟨a, ha, hl⟩ := h
  exact ⟨hn, a, ha, hl, (C52_partial exParseInt exLines hn a ha).1⟩

end TheanoLM
