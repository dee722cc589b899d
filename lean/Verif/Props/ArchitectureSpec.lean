import Verif.Model.Architecture
/-!
# Specification of architecture descriptions and of their states
-/
namespace TheanoLM

/-- The architectures that exist: there are inputs and layers, and the keys of a dictionary are distinct. -/
structure Architecture.Valid (a : Architecture) : Prop where
  inputs : a.inputs ≠ []
  layers : a.layers ≠ []
  keys : ∀ d ∈ a.inputs ++ a.layers, (d.map Prod.fst).Nodup

/-- The same dictionary (the order of the items does not matter). -/
def SameDict (d e : ArchDict) : Prop := d.Perm e

/-- The same inputs and layers in the same order, with the same options, and the same output. -/
structure SameArch (a b : Architecture) : Prop where
  inputs : List.Forall₂ SameDict a.inputs b.inputs
  layers : List.Forall₂ SameDict a.layers b.layers
  output : a.outputLayer = b.outputLayer

/-- No list in the dictionary has more than `n` values. -/
def ListsAtMost (n : Nat) (d : ArchDict) : Prop := ∀ k vs, (k, ArchEntry.many vs) ∈ d → vs.length ≤ n

/-- The same value, or a list of the same values in another order. -/
inductive SameValues : ArchEntry → ArchEntry → Prop
  | one (v : ArchVal) : SameValues (.one v) (.one v)
  | many (vs ws : List ArchVal) : vs.Perm ws → SameValues (.many vs) (.many ws)

/-- The same keys with the same values, when the order of the values of lists does not matter. -/
def SameDictValues (d e : ArchDict) : Prop :=
  ∃ e', e'.Perm e ∧ List.Forall₂ (fun x y => x.1 = y.1 ∧ SameValues x.2 y.2) d e'

/-- The options in `d` are found in `e` with the same values; of the list options, the first values of `e` are found in `d`.
(A layer that has no devices is compatible with a stored layer without a list of devices.) -/
def SubDict (d e : ArchDict) : Prop :=
  ∀ k, (∀ v, (k, ArchEntry.one v) ∈ d → (k, ArchEntry.one v) ∈ e) ∧
    ∀ vs, (k, ArchEntry.many vs) ∈ d → (∃ ws, (k, ArchEntry.many ws) ∈ e ∧ vs <+: ws) ∨
      (k = "devices".toList ∧ vs = [] ∧ ∀ ws, (k, ArchEntry.many ws) ∉ e)

/-- Every input and layer of `a` is included in the corresponding one of `b`. -/
structure SubArch (a b : Architecture) : Prop where
  inputs : ∃ l, l <+: b.inputs ∧ List.Forall₂ SubDict a.inputs l
  layers : ∃ l, l <+: b.layers ∧ List.Forall₂ SubDict a.layers l
  output : a.outputLayer = b.outputLayer

/-! ## Description files -/

/-- A field `variable=value`. -/
def FieldOf (field : Str) (p : Str × Str) : Prop := field = p.1 ++ '=' :: p.2 ∧ '=' ∉ p.1

/-- The value of a variable is the last one given. -/
def LastValue (ps : List (Str × Str)) (variableName value : Str) : Prop :=
  ∃ l r, ps = l ++ (variableName, value) :: r ∧ ∀ p ∈ r, p.1 ≠ variableName

/-- The values of a repeated variable, in order. -/
def valuesOf (ps : List (Str × Str)) (variableName : Str) : List ArchVal :=
  (ps.filter fun p => p.1 = variableName).map fun p => .str p.2

/-- The dictionary `d` of an input line with fields `ps`. -/
structure InputOf (ps : List (Str × Str)) (d : ArchDict) : Prop where
  type : ∃ p ∈ ps, p.1 = "type".toList
  name : ∃ p ∈ ps, p.1 = "name".toList
  keys : (d.map Prod.fst).Nodup
  items : ∀ k v, (k, v) ∈ d ↔ ∃ s, v = .one (.str s) ∧ LastValue ps k s

/-- The dictionary `d` of a layer line with fields `ps`: `input` and `device` may be repeated, and `size` is an integer. -/
structure LayerOf (parseInt : Str → Option ℤ) (ps : List (Str × Str)) (d : ArchDict) : Prop where
  type : ∃ p ∈ ps, p.1 = "type".toList
  name : ∃ p ∈ ps, p.1 = "name".toList
  input : ∃ p ∈ ps, p.1 = "input".toList
  size : ∀ p ∈ ps, p.1 = "size".toList → ∃ i, parseInt p.2 = some i
  keys : (d.map Prod.fst).Nodup
  items : ∀ k v, (k, v) ∈ d ↔
    (k = "inputs".toList ∧ v = .many (valuesOf ps "input".toList)) ∨
    (k = "devices".toList ∧ v = .many (valuesOf ps "device".toList)) ∨
    (k = "size".toList ∧ ∃ s i, LastValue ps k s ∧ parseInt s = some i ∧ v = .one (.int i)) ∨
    (k ∉ ["inputs".toList, "devices".toList, "size".toList, "input".toList, "device".toList] ∧
      ∃ s, LastValue ps k s ∧ v = .one (.str s))

/-- The lines of a description file describe the inputs and the layers. -/
inductive Describes (parseInt : Str → Option ℤ) : List Str → List ArchDict → List ArchDict → Prop
  | nil : Describes parseInt [] [] []
  | empty {line lines inputs layers} : pySplit line = [] → Describes parseInt lines inputs layers →
      Describes parseInt (line :: lines) inputs layers
  | comment {line lines inputs layers w ws} : pySplit line = ('#' :: w) :: ws → Describes parseInt lines inputs layers →
      Describes parseInt (line :: lines) inputs layers
  | input {line lines inputs layers fields ps d} : pySplit line = "input".toList :: fields →
      List.Forall₂ FieldOf fields ps → InputOf ps d → Describes parseInt lines inputs layers →
      Describes parseInt (line :: lines) (d :: inputs) layers
  | layer {line lines inputs layers fields ps d} : pySplit line = "layer".toList :: fields →
      List.Forall₂ FieldOf fields ps → LayerOf parseInt ps d → Describes parseInt lines inputs layers →
      Describes parseInt (line :: lines) inputs (d :: layers)

/-- No layer line has a field whose name is that of one of the collected lists, `inputs` or `devices`. -/
def NoListFields (lines : List Str) : Prop :=
  ∀ line ∈ lines, ∀ fields, pySplit line = "layer".toList :: fields → ∀ field ∈ fields, ∀ p, FieldOf field p →
    p.1 ≠ "inputs".toList ∧ p.1 ≠ "devices".toList

end TheanoLM
