import Verif.Props.NetworkStateSpec
import Verif.Props.Parameters
import Verif.Lemmas.LayerCreate
import Verif.Props.NetworkCreate
import Mathlib.Data.List.Pairwise
/-!
# The paths of the parameters of a created network are distinct, and none of them continues another one
-/
set_option linter.unusedSectionVars false
namespace TheanoLM

/-! ## Components of paths -/

/-- Puts a character in front of the first component. -/
def consFirst (c : Char) : List Str → List Str
  | [] => [[c]]
  | w :: ws => (c :: w) :: ws

/-- The components of a path. -/
def comps : Str → List Str
  | [] => [[]]
  | c :: s => if c = '/' then [] :: comps s else consFirst c (comps s)

theorem comps_ne_nil (s : Str) : comps s ≠ [] := by
  cases s with
  | nil => simp [comps]
  | cons c s =>
    rw [comps]
    split
    · simp
    · cases comps s <;> simp [consFirst]

theorem comps_append (p rest : Str) : comps (p ++ '/' :: rest) = comps p ++ comps rest := by
  induction p with
  | nil => simp [comps]
  | cons c p ih =>
    rw [List.cons_append, comps, comps, ih]
    split
    · rfl
    · cases h : comps p with
      | nil => exact absurd h (comps_ne_nil p)
      | cons w ws => rfl

theorem comps_single {p : Str} (h : '/' ∉ p) : comps p = [p] := by
  induction p with
  | nil => rfl
  | cons c p ih =>
    rw [List.mem_cons, not_or] at h
    rw [comps, if_neg fun e => h.1 e.symm, ih h.2]
    rfl

/-- Neither one continues the other. -/
def Incomp (a b : List Str) : Prop := ¬ a <+: b ∧ ¬ b <+: a

instance (a b : List Str) : Decidable (Incomp a b) := inferInstanceAs (Decidable (_ ∧ _))

theorem Incomp.append {a b : List Str} (h : Incomp a b) (s t : List Str) : Incomp (a ++ s) (b ++ t) := by
  constructor
  · intro hp
    rcases List.prefix_or_prefix_of_prefix ((List.prefix_append a s).trans hp) (List.prefix_append b t) with h' | h'
    · exact h.1 h'
    · exact h.2 h'
  · intro hp
    rcases List.prefix_or_prefix_of_prefix ((List.prefix_append b t).trans hp) (List.prefix_append a s) with h' | h'
    · exact h.2 h'
    · exact h.1 h'

theorem Incomp.left {a b : List Str} (h : Incomp a b) (c : List Str) : Incomp (c ++ a) (c ++ b) :=
  ⟨fun hp => h.1 ((List.prefix_append_right_inj c).mp hp), fun hp => h.2 ((List.prefix_append_right_inj c).mp hp)⟩

theorem incomp_of_ne {a b : Str} (h : a ≠ b) : Incomp [a] [b] := by
  constructor
  · intro hp
    have := hp.eq_of_length rfl
    exact h (by simpa using this)
  · intro hp
    have := hp.eq_of_length rfl
    exact h (by simpa using this.symm)

theorem Incomp.paths {p q : Str} (h : Incomp (comps p) (comps q)) : p ≠ q ∧ ¬ Conflict p q := by
  constructor
  · rintro rfl
    exact h.1 (List.prefix_refl _)
  · rintro ⟨r, rfl | rfl⟩
    · rw [comps_append] at h
      exact h.1 (List.prefix_append _ _)
    · rw [comps_append] at h
      exact h.2 (List.prefix_append _ _)

/-! ## Groups of paths: the parts of a parameter on the devices -/

/-- The paths of a parameter. -/
def groupKeys (g : Str × List (Option Str)) : List Str := g.2.map (paramPath g.1)

structure GoodGroup (g : Str × List (Option Str)) : Prop where
  none : g.2 = [none] ∨ none ∉ g.2
  nodup : g.2.Nodup

theorem groupKeys_comps {g : Str × List (Option Str)} {k : Str} (h : k ∈ groupKeys g) : ∃ s, comps k = comps g.1 ++ s := by
  obtain ⟨d, _, rfl⟩ := List.mem_map.mp h
  cases d with
  | none => exact ⟨[], by simp [paramPath]⟩
  | some d => exact ⟨comps d, by rw [paramPath, comps_append]⟩

theorem groups_incomp {groups : List (Str × List (Option Str))} (hn : groups.Pairwise fun g g' => Incomp (comps g.1) (comps g'.1))
    (hg : ∀ g ∈ groups, GoodGroup g ∧ ∀ d, some d ∈ g.2 → '/' ∉ d) :
    (groups.flatMap groupKeys).Pairwise fun k k' => Incomp (comps k) (comps k') := by
  rw [List.pairwise_flatMap]
  refine ⟨fun g hm => ?_, hn.imp fun h => ?_⟩
  · obtain ⟨⟨h1, h2⟩, h3⟩ := hg g hm
    unfold groupKeys
    rcases h1 with h1 | h1
    · rw [h1]; simp
    · rw [List.pairwise_map]
      refine h2.imp_of_mem fun {d d'} hd hd' hne => ?_
      cases d with
      | none => exact absurd hd h1
      | some d =>
        cases d' with
        | none => exact absurd hd' h1
        | some d' =>
          rw [paramPath, paramPath, comps_append, comps_append, comps_single (h3 d hd), comps_single (h3 d' hd')]
          exact (incomp_of_ne fun e => hne (by rw [e])).left _
  · intro x hx y hy
    obtain ⟨s, hs⟩ := groupKeys_comps hx
    obtain ⟨t, ht⟩ := groupKeys_comps hy
    rw [hs, ht]
    exact h.append s t

section
variable {α : Type}

/-- The devices of a parameter. -/
def groupDevices (devices : List (Option Str)) (split : Bool) : List (Option Str) :=
  if split = false ∨ devices = [none] then [none] else devices

theorem addParam_keys {path : Str} {value : List α} {d d' : ParamDict α} (h : addParam path value d = .ok d') :
    d'.map Prod.fst = d.map Prod.fst ++ [path] ∧ ((d.map Prod.fst).Nodup → (d'.map Prod.fst).Nodup) := by
  obtain ⟨e, hn, _⟩ := addParam_ok h
  rw [dictGet?_none] at hn
  subst e
  refine ⟨by simp, fun hd => ?_⟩
  rw [List.map_append, List.nodup_append]
  refine ⟨hd, by simp, fun a ha b hb e => ?_⟩
  rw [List.map_cons, List.map_nil, List.mem_singleton] at hb
  have hb' : b = path := hb
  exact hn (by rw [← hb', ← e]; exact ha)

theorem addParts_keys {name : Str} {value : List α} {devices : List (Option Str)} {ranges : List (Nat × Nat)} {d d' : ParamDict α}
    (hl : devices.length = ranges.length) (h : addParts name value (devices.zip ranges) d = .ok d') :
    d'.map Prod.fst = d.map Prod.fst ++ devices.map (paramPath name) ∧ ((d.map Prod.fst).Nodup → (d'.map Prod.fst).Nodup) ∧
      none ∉ devices := by
  induction devices generalizing ranges d with
  | nil =>
    simp only [List.zip_nil_left, addParts] at h
    cases h
    exact ⟨by simp, id, by simp⟩
  | cons e devices ih =>
    cases ranges with
    | nil => simp at hl
    | cons r ranges =>
      rw [List.zip_cons_cons] at h
      cases e with
      | none => simp [addParts] at h
      | some e =>
        rw [addParts] at h
        split at h
        · cases h
        · rename_i d1 h1
          obtain ⟨k1, k2⟩ := addParam_keys h1
          obtain ⟨m1, m2, m3⟩ := ih (by simpa using hl) h
          refine ⟨?_, fun hd => m2 (k2 hd), by simpa using m3⟩
          rw [m1, k1]
          simp

theorem initParam_keys {devices : List (Option Str)} {split : Bool} {name : Str} {value : List α} {d d' : ParamDict α}
    (h : initParam devices split name value d = .ok d') :
    d'.map Prod.fst = d.map Prod.fst ++ groupKeys (name, groupDevices devices split) ∧
      ((d.map Prod.fst).Nodup → (d'.map Prod.fst).Nodup) ∧
      (groupDevices devices split = [none] ∨ none ∉ groupDevices devices split) := by
  unfold initParam at h
  unfold groupDevices
  split at h
  · rename_i hs
    rw [if_pos (.inl hs)]
    exact ⟨(addParam_keys h).1, (addParam_keys h).2, .inl rfl⟩
  · rename_i hs
    split at h
    · rename_i hd
      rw [if_pos (.inr hd)]
      exact ⟨(addParam_keys h).1, (addParam_keys h).2, .inl rfl⟩
    · rename_i hd
      rw [if_neg (by rintro (e | e); exacts [hs e, hd e])]
      split at h
      · cases h
      · rename_i ranges hr
        have hl : devices.length = ranges.length := by
          unfold splitPerDevice at hr
          split at hr
          · cases hr
          · split at hr
            · cases hr
            · simp only at hr
              split at hr
              · rename_i hc
                cases hr
                exact hc.1.symm
              · cases hr
        obtain ⟨k1, k2, k3⟩ := addParts_keys hl h
        exact ⟨k1, k2, .inr k3⟩

/-- The groups of the parameters that are created. -/
def initGroups (devices : List (Option Str)) (l : List (Bool × Str × List α)) : List (Str × List (Option Str)) :=
  l.map fun t => (t.2.1, groupDevices devices t.1)

theorem initParams_keys {devices : List (Option Str)} {l : List (Bool × Str × List α)} {d d' : ParamDict α}
    (h : initParams devices l d = .ok d') :
    d'.map Prod.fst = d.map Prod.fst ++ (initGroups devices l).flatMap groupKeys ∧
      ((d.map Prod.fst).Nodup → (d'.map Prod.fst).Nodup) ∧
      ∀ g ∈ initGroups devices l, g.2 = [none] ∨ none ∉ g.2 := by
  induction l generalizing d with
  | nil =>
    rw [initParams] at h
    cases h
    exact ⟨by simp [initGroups], id, by simp [initGroups]⟩
  | cons t l ih =>
    obtain ⟨split, name, value⟩ := t
    rw [initParams] at h
    split at h
    · cases h
    · rename_i d1 h1
      obtain ⟨k1, k2, k3⟩ := initParam_keys h1
      obtain ⟨m1, m2, m3⟩ := ih h
      refine ⟨?_, fun hd => m2 (k2 hd), ?_⟩
      · rw [m1, k1]
        simp [initGroups]
      · intro g hg
        rcases List.mem_cons.mp hg with rfl | hg
        · exact k3
        · exact m3 g hg

theorem initParams_good {devices : List (Option Str)} {l : List (Bool × Str × List α)} {d : ParamDict α}
    (h : initParams devices l [] = .ok d) :
    d.map Prod.fst = (initGroups devices l).flatMap groupKeys ∧
      ∀ g ∈ initGroups devices l, GoodGroup g ∧ ∀ e, some e ∈ g.2 → some e ∈ devices := by
  obtain ⟨h1, h2, h3⟩ := initParams_keys h
  rw [List.map_nil, List.nil_append] at h1
  refine ⟨h1, fun g hg => ⟨⟨h3 g hg, ?_⟩, fun e he => ?_⟩⟩
  · have := h2 (by simp)
    rw [h1, List.nodup_flatMap] at this
    exact (this.1 g hg).of_map
  · obtain ⟨t, _, rfl⟩ := List.mem_map.mp hg
    simp only [groupDevices] at he
    split at he
    · simp at he
    · exact he

end

section
variable {S : Type} [Add S] [Mul S] [Sub S] [Div S] [Zero S] [One S] [Min S]

/-- The path of a parameter in the file. -/
def fullPath (layer key : Str) : Str := "layers/".toList ++ layer ++ '/' :: key

theorem dictParams_keys {α : Type} (enc : List α → Arr S) (layer : Str) (d : ParamDict α) :
    (dictParams enc layer d).map Prod.fst = (d.map Prod.fst).map (fullPath layer) := by
  unfold dictParams fullPath
  rw [List.map_map, List.map_map]
  rfl

/-- The paths of the parameters of a layer: the parts of its parameters on the devices. -/
def PathGroups (devices : List (Option Str)) (keys : List Str) (groups : List (Str × List (Option Str))) : Prop :=
  keys = groups.flatMap groupKeys ∧ (groups.Pairwise fun g g' => Incomp (comps g.1) (comps g'.1)) ∧
    ∀ g ∈ groups, GoodGroup g ∧ ∀ e, some e ∈ g.2 → some e ∈ devices

theorem createBasic_groups {o : LayerOptions} {size : Nat} {w : List (Bool × Str × List (List S))} {b : List (Bool × Str × List S)}
    {r : Basic S} (h : createBasic o size w b = .ok r) :
    r.devices = o.devices ∧ r.weights.map Prod.fst ++ r.biases.map Prod.fst =
      (initGroups o.devices w ++ initGroups o.devices b).flatMap groupKeys ∧
      ∀ g ∈ initGroups o.devices w ++ initGroups o.devices b, GoodGroup g ∧ ∀ e, some e ∈ g.2 → some e ∈ o.devices := by
  unfold createBasic at h
  split at h
  · cases h
  · split at h
    · cases h
    · rename_i wd hw
      split at h
      · cases h
      · rename_i bd hb
        cases h
        obtain ⟨w1, w2⟩ := initParams_good hw
        obtain ⟨b1, b2⟩ := initParams_good hb
        refine ⟨rfl, ?_, fun g hg => ?_⟩
        · show wd.map Prod.fst ++ bd.map Prod.fst = _
          rw [w1, b1, List.flatMap_append]
        · rcases List.mem_append.mp hg with hg | hg
          · exact w2 g hg
          · exact b2 g hg

theorem Basic.params_keys (layer : Str) (b : Basic S) :
    (b.params layer).map Prod.fst = (b.weights.map Prod.fst ++ b.biases.map Prod.fst).map (fullPath layer) := by
  unfold Basic.params
  rw [List.map_append, dictParams_keys, dictParams_keys, List.map_append]

/-- The names of the parameters are incomparable. -/
def NamesOk {α β : Type} (w : List (Bool × Str × List α)) (b : List (Bool × Str × List β)) : Prop :=
  (w.map (fun t => comps t.2.1) ++ b.map fun t => comps t.2.1).Pairwise Incomp

theorem initGroups_names {α β : Type} {w : List (Bool × Str × List α)} {b : List (Bool × Str × List β)} (h : NamesOk w b)
    (devices : List (Option Str)) :
    (initGroups devices w ++ initGroups devices b).Pairwise fun g g' => Incomp (comps g.1) (comps g'.1) := by
  unfold NamesOk at h
  rw [← List.pairwise_map (f := fun g : Str × List (Option Str) => comps g.1) (R := Incomp)]
  unfold initGroups
  rw [List.map_append, List.map_map, List.map_map]
  exact h

/-- The paths of a layer, relative to its name. -/
def LayerPaths (c : Created S) : Prop :=
  ∃ groups : List (Str × List (Option Str)), (groups.Pairwise fun g g' => Incomp (comps g.1) (comps g'.1)) ∧
    (∀ g ∈ groups, GoodGroup g ∧ ∀ e, some e ∈ g.2 → some e ∈ c.layer.devices) ∧
    ∀ name, (c.layer.params name).map Prod.fst = (groups.flatMap groupKeys).map (fullPath name)

theorem createSimple_paths {o : LayerOptions} {size : Nat} {w : List (Bool × Str × List (List S))} {b : List (Bool × Str × List S)}
    {make : Basic S → Layer S} {c : Created S} (h : createSimple o size w b make = .ok c) (hn : NamesOk w b)
    (hd : ∀ x, (make x).devices = x.devices) (hp : ∀ x name, (make x).params name = x.params name) : LayerPaths c := by
  unfold createSimple at h
  split at h
  · cases h
  · rename_i x hx
    cases h
    obtain ⟨h1, h2, h3⟩ := createBasic_groups hx
    refine ⟨_, initGroups_names hn o.devices, ?_, fun name => ?_⟩
    · show ∀ g ∈ _, GoodGroup g ∧ ∀ e, some e ∈ g.2 → some e ∈ (make x).devices
      rw [hd, h1]
      exact h3
    · show ((make x).params name).map Prod.fst = _
      rw [hp, Basic.params_keys, h2]

theorem mem_toDigits_slash (n : Nat) : '/' ∉ (toString n).toList := by
  intro h
  rw [Nat.toString_eq_ofList_toDigits, String.toList_ofList] at h
  have := Nat.isDigit_of_mem_toDigits (by omega) (by omega) h
  simp [Char.isDigit] at this

theorem toString_inj {m n : Nat} (h : (toString m).toList = (toString n).toList) : m = n := by
  rw [Nat.toString_eq_ofList_toDigits, Nat.toString_eq_ofList_toDigits, String.toList_ofList, String.toList_ofList] at h
  rw [← Nat.ofDigitChars_ten_toDigits (n := m), h, Nat.ofDigitChars_ten_toDigits]

theorem additionWeights_names (env : CreateEnv S) (name : Str) (size k : Nat) (sizes : List Nat) :
    ∀ t ∈ additionWeights env name size k sizes, ∃ i, k ≤ i ∧ comps t.2.1 = ["input".toList ++ (toString i).toList, "W".toList] := by
  induction sizes generalizing k with
  | nil => simp [additionWeights]
  | cons s sizes ih =>
    intro t ht
    rw [additionWeights] at ht
    split at ht
    · rcases List.mem_cons.mp ht with rfl | ht
      · refine ⟨k, Nat.le_refl _, ?_⟩
        show comps ("input".toList ++ (toString k).toList ++ '/' :: "W".toList) = _
        rw [comps_append, comps_single, comps_single (by decide)]
        · rfl
        · rw [List.mem_append, not_or]
          exact ⟨by decide, mem_toDigits_slash k⟩
      · obtain ⟨i, hi, h⟩ := ih (k + 1) t ht
        exact ⟨i, by omega, h⟩
    · obtain ⟨i, hi, h⟩ := ih (k + 1) t ht
      exact ⟨i, by omega, h⟩

theorem additionWeights_namesOk (env : CreateEnv S) (name : Str) (size k : Nat) (sizes : List Nat) :
    NamesOk (additionWeights env name size k sizes) ([] : List (Bool × Str × List S)) := by
  unfold NamesOk
  rw [List.map_nil, List.append_nil]
  induction sizes generalizing k with
  | nil => simp [additionWeights]
  | cons s sizes ih =>
    rw [additionWeights]
    split
    · rw [List.map_cons, List.pairwise_cons]
      refine ⟨fun b hb => ?_, ih (k + 1)⟩
      obtain ⟨t, ht, rfl⟩ := List.mem_map.mp hb
      obtain ⟨i, hi, e⟩ := additionWeights_names env name size (k + 1) sizes t ht
      rw [e]
      show Incomp (comps ("input".toList ++ (toString k).toList ++ '/' :: "W".toList)) _
      rw [comps_append, comps_single, comps_single (by decide)]
      · refine (incomp_of_ne fun h => ?_).append _ ["W".toList]
        have := toString_inj (List.append_cancel_left h)
        omega
      · rw [List.mem_append, not_or]
        exact ⟨by decide, mem_toDigits_slash k⟩
    · exact ih (k + 1)

theorem createRecurrent_groups {env : CreateEnv S} {kind : CellKind} {o : LayerOptions} {name : Str} {size : Nat} {r : Basic S}
    (h : createRecurrent env kind o name size = .ok r) :
    r.devices = o.devices ∧ ∃ groups : List (Str × List (Option Str)), (groups.Pairwise fun g g' => Incomp (comps g.1) (comps g'.1)) ∧
      (∀ g ∈ groups, GoodGroup g ∧ ∀ e, some e ∈ g.2 → some e ∈ o.devices) ∧
      r.weights.map Prod.fst ++ r.biases.map Prod.fst = groups.flatMap groupKeys := by
  unfold createRecurrent at h
  obtain ⟨h1, h2, h3⟩ := createBasic_groups h
  refine ⟨h1, _, initGroups_names ?_ o.devices, h3, h2⟩
  show [comps "layer_input/W".toList, comps "step_input/W".toList, comps "layer_input/b".toList].Pairwise Incomp
  decide

/-- The groups of a layer inside another layer. -/
def innerGroups (dir : Str) (groups : List (Str × List (Option Str))) : List (Str × List (Option Str)) :=
  groups.map fun g => (dir ++ '/' :: g.1, g.2)

theorem innerGroups_keys (dir : Str) (groups : List (Str × List (Option Str))) :
    (innerGroups dir groups).flatMap groupKeys = (groups.flatMap groupKeys).map fun k => dir ++ '/' :: k := by
  unfold innerGroups
  rw [List.flatMap_map, List.map_flatMap]
  congr 1
  funext g
  unfold groupKeys
  rw [List.map_map]
  apply List.map_congr_left
  intro d _
  cases d with
  | none => rfl
  | some d => simp [paramPath]

theorem innerGroups_incomp (dir : Str) {groups : List (Str × List (Option Str))}
    (h : groups.Pairwise fun g g' => Incomp (comps g.1) (comps g'.1)) :
    (innerGroups dir groups).Pairwise fun g g' => Incomp (comps g.1) (comps g'.1) := by
  unfold innerGroups
  rw [List.pairwise_map]
  refine h.imp fun {g g'} hg => ?_
  simp only
  rw [comps_append, comps_append]
  exact hg.left _

theorem fullPath_inner (name dir key : Str) : fullPath (name ++ '/' :: dir) key = fullPath name (dir ++ '/' :: key) := by
  unfold fullPath
  generalize "layers/".toList = l
  simp

theorem createSized_paths {env : CreateEnv S} {type : LayerType} {o : LayerOptions} {size : Nat} {c : Created S}
    (h : createSized env type o size = .ok c) : LayerPaths c := by
  cases type with
  | projection =>
    refine createSimple_paths h ?_ (fun _ => rfl) fun _ _ => rfl
    show [comps "W".toList].Pairwise Incomp
    decide
  | fullyConnected =>
    refine createSimple_paths h ?_ (fun _ => rfl) fun _ _ => rfl
    show [comps "input/W".toList, comps "input/b".toList].Pairwise Incomp
    decide
  | addition => exact createSimple_paths h (additionWeights_namesOk ..) (fun _ => rfl) fun _ _ => rfl
  | recurrent kind =>
    simp only [createSized] at h
    split at h
    · cases h
    · split at h
      · cases h
      · rename_i r hr
        cases h
        obtain ⟨h1, groups, h2, h3, h4⟩ := createRecurrent_groups hr
        refine ⟨groups, h2, ?_, fun name => ?_⟩
        · show ∀ g ∈ _, GoodGroup g ∧ ∀ e, some e ∈ g.2 → some e ∈ r.devices
          rw [h1]
          exact h3
        · show (r.params name).map Prod.fst = _
          rw [Basic.params_keys, h4]
  | bidirectional kind =>
    simp only [createSized] at h
    split at h
    · cases h
    · unfold createBidirectional at h
      simp only at h
      split at h
      · cases h
      · rename_i f hf
        split at h
        · cases h
        · rename_i b hb
          cases h
          obtain ⟨f1, fg, f2, f3, f4⟩ := createRecurrent_groups hf
          obtain ⟨b1, bg, b2, b3, b4⟩ := createRecurrent_groups hb
          refine ⟨innerGroups "forward".toList fg ++ innerGroups "backward".toList bg, ?_, ?_, fun name => ?_⟩
          · rw [List.pairwise_append]
            refine ⟨innerGroups_incomp _ f2, innerGroups_incomp _ b2, fun g hg g' hg' => ?_⟩
            obtain ⟨x, _, rfl⟩ := List.mem_map.mp hg
            obtain ⟨y, _, rfl⟩ := List.mem_map.mp hg'
            simp only
            rw [comps_append, comps_append]
            exact Incomp.append (by decide) _ _
          · show ∀ g ∈ _, GoodGroup g ∧ ∀ e, some e ∈ g.2 → some e ∈ f.devices ++ b.devices
            rw [f1, b1]
            intro g hg
            rcases List.mem_append.mp hg with hg | hg
            · obtain ⟨x, hx, rfl⟩ := List.mem_map.mp hg
              exact ⟨⟨(f3 x hx).1.none, (f3 x hx).1.nodup⟩, fun e he => List.mem_append_left _ ((f3 x hx).2 e he)⟩
            · obtain ⟨x, hx, rfl⟩ := List.mem_map.mp hg
              exact ⟨⟨(b3 x hx).1.none, (b3 x hx).1.nodup⟩, fun e he => List.mem_append_left _ ((b3 x hx).2 e he)⟩
          · show (f.params (name ++ '/' :: "forward".toList) ++ b.params (name ++ '/' :: "backward".toList)).map Prod.fst = _
            rw [List.map_append, Basic.params_keys, Basic.params_keys, f4, b4, List.flatMap_append, innerGroups_keys, innerGroups_keys,
              List.map_append, List.map_map, List.map_map]
            congr 1
            · exact List.map_congr_left fun k _ => fullPath_inner ..
            · exact List.map_congr_left fun k _ => fullPath_inner ..
  | highway =>
    simp only [createSized] at h
    split at h
    · cases h
    · refine createSimple_paths h ?_ (fun _ => rfl) fun _ _ => rfl
      show [comps "input/W".toList, comps "input/b".toList].Pairwise Incomp
      decide
  | glu =>
    simp only [createSized, createGlu] at h
    split at h
    · cases h
    · split at h
      · split at h
        · cases h
        · rename_i filterSize _ _ inputSize _ _ filters hf
          unfold createSimple at h
          split at h
          · cases h
          · rename_i x hx
            cases h
            obtain ⟨h1, h2, h3⟩ := createBasic_groups hx
            obtain ⟨g1, g2⟩ := initParams_good hf
            refine ⟨_, initGroups_names (w := [(true, "input/W".toList, randomTensor env o.name "input/W".toList filterSize inputSize (2 * size))])
              (b := [(true, "input/b".toList, List.replicate (size * 2) (0 : S))]) ?_ o.devices, ?_, fun name => ?_⟩
            · show [comps "input/W".toList, comps "input/b".toList].Pairwise Incomp
              decide
            · show ∀ g ∈ _, GoodGroup g ∧ ∀ e, some e ∈ g.2 → some e ∈ x.devices
              rw [h1]
              intro g hg
              rcases List.mem_append.mp hg with hg | hg
              · exact g2 g hg
              · exact h3 g hg
            · show (dictParams encTensor name filters ++ x.params name).map Prod.fst = _
              rw [List.map_append, dictParams_keys, Basic.params_keys, h2, g1]
              conv_rhs => rw [List.flatMap_append, List.map_append]
              rfl
      · cases h
  | dropout =>
    simp only [createSized] at h
    split at h
    · cases h
    · split at h
      · cases h
      · exact createSimple_paths h List.Pairwise.nil (fun _ => rfl) fun _ _ => rfl
  | softmax =>
    refine createSimple_paths h ?_ (fun _ => rfl) fun _ _ => rfl
    show [comps "input/W".toList, comps "input/b".toList].Pairwise Incomp
    decide
  | hsoftmax =>
    simp only [createSized, createHSoftmax] at h
    split at h
    · cases h
    · rename_i level1 level2 hlev
      unfold createSimple at h
      split at h
      · cases h
      · rename_i x hx
        cases h
        obtain ⟨h1, h2, h3⟩ := createBasic_groups hx
        refine ⟨(initGroups o.devices [(true, "input/W".toList, randomMatrix env o.name "input/W".toList o.inputSizes.sum level1)] ++
          initGroups o.devices [(true, "input/b".toList, List.replicate level1 (0 : S))]) ++
          [("level1/W".toList, [o.devices.headD none]), ("level1/b".toList, [o.devices.headD none])], ?_, ?_, fun name => ?_⟩
        · rw [← List.pairwise_map (f := fun g : Str × List (Option Str) => comps g.1) (R := Incomp)]
          show [comps "input/W".toList, comps "input/b".toList, comps "level1/W".toList, comps "level1/b".toList].Pairwise Incomp
          decide
        · show ∀ g ∈ _, GoodGroup g ∧ ∀ e, some e ∈ g.2 → some e ∈ x.devices
          rw [h1]
          intro g hg
          rcases List.mem_append.mp hg with hg | hg
          · exact h3 g hg
          · have : g.2 = [o.devices.headD none] := by
              rcases List.mem_cons.mp hg with rfl | hg
              · rfl
              · rw [List.mem_singleton] at hg
                rw [hg]
            rw [this]
            refine ⟨⟨?_, ?_⟩, fun e he => ?_⟩
            · rw [this]
              cases o.devices.headD none with
              | none => exact .inl rfl
              | some d => exact .inr (by simp)
            · rw [this]; simp
            · rw [List.mem_singleton] at he
              rw [he]
              cases hd : o.devices with
              | nil => rw [hd] at he; cases he
              | cons a l => exact List.mem_cons_self
        · show (x.params name ++ dictParams encLevel name [(levelPath x "level1/W".toList, _)] ++
            dictParams encMatrix name [(levelPath x "level1/b".toList, _)]).map Prod.fst = _
          rw [List.map_append, List.map_append, dictParams_keys, dictParams_keys, Basic.params_keys, h2]
          rw [List.flatMap_append (xs := _ ++ _), List.map_append, List.append_assoc]
          congr 1
          unfold levelPath
          rw [h1]
          rfl

theorem createLayer_paths {env : CreateEnv S} {o : LayerOptions} {c : Created S} (h : createLayer env o = .ok c) : LayerPaths c := by
  unfold createLayer at h
  split at h
  · cases h
  · split at h
    · cases h
    · split at h
      · cases h
      · exact createSized_paths h

theorem createInput_paths {env : CreateEnv S} {d : ArchDict} {c : Created S} (h : createInput env d = .ok c) : LayerPaths c := by
  have key : ∀ name, c.layer.params name = [] := by
    intro name
    unfold createInput at h
    split at h
    · cases h
    · split at h
      · split at h <;> first | cases h; rfl | cases h
      · split at h
        · split at h <;> first | cases h; rfl | cases h
        · cases h
  exact ⟨[], List.Pairwise.nil, by simp, fun name => by rw [key]; rfl⟩

theorem createNetwork_paths {env : CreateEnv S} {a : Architecture} {net : CreatedNetwork S} (h : createNetwork env a = .ok net) :
    (net.layers.map Created.name).Nodup ∧ ∀ c ∈ net.layers, LayerPaths c := by
  obtain ⟨inputs, h1, h2, h3⟩ := createNetwork_cases h
  obtain ⟨_, i2, i3, i4⟩ := createInputs_trace h1
  obtain ⟨l1, l2, l3, l4⟩ := createLayers_trace h2
  simp only [List.length_nil, Nat.zero_add] at i2 i4
  refine ⟨l3 (i3 (by simp)), fun c hc => ?_⟩
  obtain ⟨k, hk⟩ := List.mem_iff_getElem?.mp hc
  have hlt := (List.getElem?_eq_some_iff.mp hk).1
  by_cases hki : k < a.inputs.length
  · obtain ⟨c', hc', hcd⟩ := i4 k _ (List.getElem?_eq_getElem hki)
    obtain ⟨t, ht⟩ := l1
    rw [← ht, List.getElem?_append_left (by omega), hc'] at hk
    cases hk
    exact createInput_paths hcd
  · have hkl : k - inputs.length < a.layers.length := by omega
    obtain ⟨o, c', hc', _, hcd⟩ := l4 (k - inputs.length) _ (List.getElem?_eq_getElem hkl)
    rw [show inputs.length + (k - inputs.length) = k by omega, hk] at hc'
    cases hc'
    exact createLayer_paths hcd

/-- The datasets of a network. -/
def networkParams (layers : List (Created S)) : List (Str × Arr S) := layers.flatMap fun c => c.layer.params c.name

theorem fullPath_comps {name : Str} (h : '/' ∉ name) (key : Str) : comps (fullPath name key) = ["layers".toList, name] ++ comps key := by
  have : fullPath name key = ("layers".toList ++ '/' :: name) ++ '/' :: key := by
    unfold fullPath
    rw [show "layers/".toList = "layers".toList ++ ['/'] by decide]
    generalize "layers".toList = l
    simp
  rw [this, comps_append, comps_append, comps_single h, comps_single (by decide)]
  rfl

theorem networkParams_incomp {layers : List (Created S)} (hn : (layers.map Created.name).Nodup) (hp : ∀ c ∈ layers, LayerPaths c)
    (hs : NoSlash layers) : ((networkParams layers).map Prod.fst).Pairwise fun k k' => Incomp (comps k) (comps k') := by
  unfold networkParams
  rw [List.map_flatMap, List.pairwise_flatMap]
  have hk : ∀ c ∈ layers, ∀ k ∈ (c.layer.params c.name).map Prod.fst, ∃ key, comps k = ["layers".toList, c.name] ++ comps key := by
    intro c hc k hk
    obtain ⟨groups, _, _, h3⟩ := hp c hc
    rw [h3] at hk
    obtain ⟨key, _, rfl⟩ := List.mem_map.mp hk
    exact ⟨key, fullPath_comps (hs c hc).1 key⟩
  refine ⟨fun c hc => ?_, ?_⟩
  · obtain ⟨groups, h1, h2, h3⟩ := hp c hc
    rw [h3, List.pairwise_map]
    refine (groups_incomp h1 fun g hg => ⟨(h2 g hg).1, fun d hd => (hs c hc).2 d ((h2 g hg).2 d hd)⟩).imp fun {k k'} hkk => ?_
    rw [fullPath_comps (hs c hc).1, fullPath_comps (hs c hc).1]
    exact hkk.left _
  · have hn' : layers.Pairwise fun c c' => c.name ≠ c'.name := List.pairwise_map.mp hn
    refine hn'.imp_of_mem fun {c c'} hc hc' hne k hk1 k' hk2 => ?_
    obtain ⟨x, hx⟩ := hk c hc k hk1
    obtain ⟨y, hy⟩ := hk c' hc' k' hk2
    rw [hx, hy]
    exact (Incomp.left (a := [c.name]) (b := [c'.name]) (incomp_of_ne hne) ["layers".toList]).append _ _

end

end TheanoLM
