import Verif.Model.NetworkCreate
import Verif.Props.Devices
import Verif.Props.LayerSpec
import Verif.Lemmas.LayerEquations
import Verif.Lemmas.NetworkShape
import Mathlib.Data.List.Forall2
/-!
# Lemmas about the creation of layers
-/
namespace TheanoLM
set_option linter.unusedSectionVars false

section
variable {α : Type}

/-- The part of a parameter on the `j`th of `n` devices. -/
def chunkAt (value : List α) (n j : Nat) : List α :=
  deviceChunk value (splitBound (value.length / n) (value.length % n) j, splitBound (value.length / n) (value.length % n) (j + 1))

/-- The parameter is divided to the devices. -/
def HasParam (devices : List (Option Str)) (name : Str) (value : List α) (d : ParamDict α) : Prop :=
  devices ≠ [] ∧ ∀ (j : Nat) (h : j < devices.length), getParam name devices[j] d = .ok (chunkAt value devices.length j)

theorem getParam_mono {name : Str} {device : Option Str} {d d' : ParamDict α} {v : List α} (hd : d <+: d')
    (h : getParam name device d = .ok v) : getParam name device d' = .ok v := by
  obtain ⟨new, rfl⟩ := hd
  unfold getParam at h ⊢
  split at h
  · rename_i w hw
    unfold dictGet? at hw ⊢
    rw [Option.map_eq_some_iff] at hw
    obtain ⟨p, hp, hpw⟩ := hw
    rw [List.find?_append, hp]
    simp only [Option.some_or, Option.map_some, hpw]
    exact h
  · cases h

theorem HasParam.mono {devices : List (Option Str)} {name : Str} {value : List α} {d d' : ParamDict α}
    (h : HasParam devices name value d) (hd : d <+: d') : HasParam devices name value d' :=
  ⟨h.1, fun j hj => getParam_mono hd (h.2 j hj)⟩

theorem addParam_ok {path : Str} {value : List α} {d d' : ParamDict α} (h : addParam path value d = .ok d') :
    d' = d ++ [(path, value)] ∧ dictGet? d path = none ∧ dictGet? d' path = some value := by
  unfold addParam at h
  split at h
  · cases h
  · rename_i hn
    cases h
    have hn' : dictGet? d path = none := by simpa using hn
    refine ⟨rfl, hn', ?_⟩
    rw [dictGet?_append _ _ _ _ ((dictGet?_none _ _).mp hn'), if_pos rfl]

theorem addParts_ok {name : Str} {value : List α} {devices : List (Option Str)} {ranges : List (Nat × Nat)} {d d' : ParamDict α}
    (hl : devices.length = ranges.length) (h : addParts name value (devices.zip ranges) d = .ok d') :
    d <+: d' ∧ (∀ (j : Nat) (hj : j < devices.length), getParam name devices[j] d' = .ok (deviceChunk value (ranges[j]'(hl ▸ hj)))) ∧
      ∀ e ∈ devices, e ≠ none := by
  induction devices generalizing ranges d with
  | nil =>
    simp only [List.zip_nil_left, addParts] at h
    cases h
    exact ⟨List.prefix_refl _, fun j hj => absurd hj (by simp), by simp⟩
  | cons e devices ih =>
    cases ranges with
    | nil => simp at hl
    | cons r ranges =>
      rw [List.zip_cons_cons] at h
      cases e with
      | none => simp [addParts] at h
      | some e =>
        rw [addParts] at h
        split at h
        · cases h
        · rename_i d1 h1
          obtain ⟨e1, _, hg⟩ := addParam_ok h1
          obtain ⟨hp, hj, hn⟩ := ih (by simpa using hl) h
          refine ⟨List.IsPrefix.trans ⟨_, e1.symm⟩ hp, fun j hj' => ?_, by simpa using hn⟩
          cases j with
          | zero =>
            apply getParam_mono hp
            unfold getParam
            rw [List.getElem_cons_zero, hg]
            rfl
          | succ j =>
            have := hj j (by simpa using hj')
            simpa using this

theorem splitPerDevice_ok {n total : Nat} {r : List (Nat × Nat)} (h : splitPerDevice n total = .ok r) : 0 < n ∧ n ≤ total := by
  unfold splitPerDevice at h
  split at h
  · cases h
  · split at h
    · cases h
    · omega

theorem chunkAt_one (value : List α) : chunkAt value 1 0 = value := by
  simp [chunkAt, deviceChunk, splitBound, Nat.mod_one]

theorem chunkAt_flatten (value : List α) {n : Nat} (hn : 0 < n) : ((List.range n).map (chunkAt value n)).flatten = value :=
  chunks_cover value hn

theorem chunkAt_length {β : Type} {v : List α} {w : List β} (h : v.length = w.length) (n j : Nat) :
    (chunkAt v n j).length = (chunkAt w n j).length := by
  simp [chunkAt, deviceChunk, h]

theorem initParam_split {devices : List (Option Str)} {name : Str} {value : List α} {d d' : ParamDict α}
    (h : initParam devices true name value d = .ok d') :
    d <+: d' ∧ HasParam devices name value d' ∧ (devices = [none] ∨ ∀ e ∈ devices, e ≠ none) := by
  unfold initParam at h
  rw [if_neg (by simp)] at h
  split at h
  · rename_i hd
    obtain ⟨e, _, hg⟩ := addParam_ok h
    refine ⟨⟨_, e.symm⟩, ⟨by simp [hd], fun j hj => ?_⟩, Or.inl hd⟩
    subst hd
    have : j = 0 := by simpa using hj
    subst this
    unfold getParam paramPath
    simp only [List.getElem_cons_zero, hg, List.length_singleton]
    rw [chunkAt_one]
  · split at h
    · cases h
    · rename_i ranges hr
      obtain ⟨h0, h1⟩ := splitPerDevice_ok hr
      rw [splitPerDevice_eq h0 h1] at hr
      injection hr with hr
      subst hr
      obtain ⟨hp, hg, hn⟩ := addParts_ok (by simp) h
      refine ⟨hp, ⟨List.length_pos_iff.mp h0, fun j hj => ?_⟩, Or.inr hn⟩
      rw [hg j hj]
      simp [chunkAt]

theorem initParam_whole {devices : List (Option Str)} {name : Str} {value : List α} {d d' : ParamDict α}
    (h : initParam devices false name value d = .ok d') : d <+: d' ∧ getParam name none d' = .ok value := by
  unfold initParam at h
  rw [if_pos rfl] at h
  obtain ⟨e, _, hg⟩ := addParam_ok h
  refine ⟨⟨_, e.symm⟩, ?_⟩
  unfold getParam paramPath
  simp only [hg]

theorem initParams_prefix {devices : List (Option Str)} {ps : List (Bool × Str × List α)} {d d' : ParamDict α}
    (h : initParams devices ps d = .ok d') : d <+: d' := by
  induction ps generalizing d with
  | nil => cases h; exact List.prefix_refl _
  | cons p ps ih =>
    obtain ⟨split, name, value⟩ := p
    rw [initParams] at h
    split at h
    · cases h
    · rename_i d1 h1
      refine List.IsPrefix.trans ?_ (ih h)
      cases split with
      | true => exact (initParam_split h1).1
      | false => exact (initParam_whole h1).1

theorem initParams_mem {devices : List (Option Str)} {ps : List (Bool × Str × List α)} {d d' : ParamDict α}
    (h : initParams devices ps d = .ok d') {name : Str} {value : List α} :
    ((true, name, value) ∈ ps → HasParam devices name value d' ∧ (devices = [none] ∨ ∀ e ∈ devices, e ≠ none)) ∧
      ((false, name, value) ∈ ps → getParam name none d' = .ok value) := by
  induction ps generalizing d with
  | nil => simp
  | cons p ps ih =>
    obtain ⟨split, name1, value1⟩ := p
    rw [initParams] at h
    split at h
    · cases h
    · rename_i d1 h1
      obtain ⟨ih1, ih2⟩ := ih h
      have hp := initParams_prefix h
      constructor
      · intro hm
        rcases List.mem_cons.mp hm with e | hm
        · cases e
          obtain ⟨_, k2, k3⟩ := initParam_split h1
          exact ⟨k2.mono hp, k3⟩
        · exact ih1 hm
      · intro hm
        rcases List.mem_cons.mp hm with e | hm
        · cases e
          exact getParam_mono hp (initParam_whole h1).2
        · exact ih2 hm

theorem forall₂_range {β γ : Type} {R : β → γ → Prop} {l : List β} (g : Nat → γ)
    (h : ∀ (j : Nat) (hj : j < l.length), R l[j] (g j)) : List.Forall₂ R l ((List.range l.length).map g) := by
  rw [List.forall₂_iff_get]
  refine ⟨by simp, fun j hj hj' => ?_⟩
  simpa using h j hj

end

section
variable {S : Type} [Add S] [Mul S] [Sub S] [Div S] [Zero S] [One S]

theorem hasAffine_of_params {b : Basic S} {name : Str} {W : List (List S)} {bias : List S}
    (hw : HasParam b.devices (name ++ "/W".toList) W b.weights) (hb : HasParam b.devices (name ++ "/b".toList) bias b.biases)
    (hl : W.length = bias.length) : HasAffine b name W bias := by
  have h0 : 0 < b.devices.length := List.length_pos_iff.mpr hw.1
  refine ⟨(List.range b.devices.length).map fun j => (chunkAt W b.devices.length j, chunkAt bias b.devices.length j), ?_, ?_, ?_, hw.1⟩
  · exact forall₂_range _ fun j hj => ⟨hw.2 j hj, hb.2 j hj, chunkAt_length hl _ _⟩
  · rw [List.flatMap_def, List.map_map]
    exact (chunkAt_flatten W h0).symm
  · rw [List.flatMap_def, List.map_map]
    exact (chunkAt_flatten bias h0).symm

theorem hasWeights_of_param {b : Basic S} {name : Str} {W : List (List S)}
    (hw : HasParam b.devices (name ++ "/W".toList) W b.weights) : HasWeights b name W := by
  have h0 : 0 < b.devices.length := List.length_pos_iff.mpr hw.1
  exact ⟨(List.range b.devices.length).map (chunkAt W b.devices.length), forall₂_range _ fun j hj => hw.2 j hj,
    (chunkAt_flatten W h0).symm, hw.1⟩

theorem hasProjection_of_param {b : Basic S} {W : List (List S)} (hw : HasParam b.devices "W".toList W b.weights) :
    HasProjection b W := by
  have h0 : 0 < b.devices.length := List.length_pos_iff.mpr hw.1
  exact ⟨(List.range b.devices.length).map (chunkAt W b.devices.length), forall₂_range _ fun j hj => hw.2 j hj,
    (chunkAt_flatten W h0).symm⟩

theorem getParam_of_none {α : Type} {devices : List (Option Str)} {name : Str} {value : List α} {d : ParamDict α}
    (h : HasParam devices name value d) (hd : devices = [none]) : getParam name none d = .ok value := by
  subst hd
  have := h.2 0 (by simp)
  simpa [chunkAt_one] using this

theorem hasFilters_of_params {b : Basic S} {filters : ParamDict (List (List S))} {F : List (List (List S))} {bias : List S}
    (hw : HasParam b.devices "input/W".toList F filters) (hb : HasParam b.devices "input/b".toList bias b.biases)
    (hd : b.devices = [none]) : HasFilters b filters F bias := by
  have h0 : 0 < b.devices.length := List.length_pos_iff.mpr hw.1
  exact ⟨(List.range b.devices.length).map (chunkAt F b.devices.length), forall₂_range _ fun j hj => hw.2 j hj,
    (chunkAt_flatten F h0).symm, hw.1, getParam_of_none hb hd⟩

end

end TheanoLM
