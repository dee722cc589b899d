import Verif.Model.Vocabulary
import Mathlib.Data.List.Sort
import Mathlib.Data.Nat.Digits.Defs
/-!
# Model of theanolm/network/architecture.py

The description of a network is a list of dictionaries for its inputs and a list of dictionaries for its layers.  A value of a
dictionary is a string, an integer (`size`), or a list of strings (`inputs` and `devices` of a layer).  The reference to a state
file is replaced by the content of its `architecture` group; the limits that HDF5 sets on names and values of attributes are not
modelled.
-/
namespace TheanoLM

/-- A scalar value in an architecture description. -/
inductive ArchVal
  | str (s : Str)
  | int (i : ℤ)
  deriving DecidableEq

/-- A value of a dictionary that describes an input or a layer. -/
inductive ArchEntry
  | one (v : ArchVal)
  | many (vs : List ArchVal)
  deriving DecidableEq

/-- A dictionary that describes an input or a layer, in insertion order. -/
abbrev ArchDict := List (Str × ArchEntry)

/-- `Architecture`. -/
structure Architecture where
  inputs : List ArchDict
  layers : List ArchDict
  outputLayer : ArchVal
  deriving DecidableEq

/-- Attributes of a HDF5 group. -/
abbrev H5Attrs := List (Str × ArchVal)

/-- A HDF5 group that contains a dictionary: attributes, and subgroups that contain lists. -/
structure H5Dict where
  attrs : H5Attrs
  groups : List (Str × H5Attrs)
  deriving DecidableEq

/-- The `architecture` group of a state: groups `inputs` and `layers`, and attribute `output_layer`. -/
structure H5Arch where
  inputs : Option (List (Str × H5Dict))
  layers : Option (List (Str × H5Dict))
  outputLayer : Option ArchVal
  deriving DecidableEq

/-- `str(n)` of a non-negative integer. -/
def natStr (n : Nat) : Str :=
  if n = 0 then ['0'] else ((Nat.digits 10 n).reverse).map fun d => Char.ofNat (48 + d)

/-- `int(s)` of a string that consists of decimal digits (which the names of the groups do in states written by the program);
`ValueError` for other strings. -/
def strNat (s : Str) : Option Nat :=
  if s ≠ [] ∧ s.all (fun c => 48 ≤ c.toNat && c.toNat ≤ 57) then
    some (s.foldl (fun n c => 10 * n + (c.toNat - 48)) 0)
  else none

/-- Comparison of strings by `sorted`: lexicographic, by code points. -/
def strLe : Str → Str → Bool
  | [], _ => true
  | _ :: _, [] => false
  | a :: as, b :: bs => a.toNat < b.toNat || (a.toNat == b.toNat && strLe as bs)

/-- `sorted(keys)`. -/
def sortedKeys {β : Type} (d : List (Str × β)) : List Str :=
  (d.map Prod.fst).insertionSort (fun a b => strLe a b = true)

/-- Value of a key that may be missing: `KeyError`. -/
def getKey {β : Type} (d : List (Str × β)) (key : Str) : Except Err β :=
  match dictGet? d key with
  | some x => .ok x
  | none => .error .keyError

/-- architecture.py:18-44 `__init__`.  (The name of a layer is always a scalar.) -/
def mkArchitecture (inputs layers : List ArchDict) (outputLayer : Option ArchVal) : Except Err Architecture :=
  if inputs = [] then .error .valueError                                   -- 34-35
  else
    match layers.getLast? with
    | none => .error .valueError                                           -- 38-39
    | some last =>
      match outputLayer with
      | some o => .ok ⟨inputs, layers, o⟩
      | none =>
        match getKey last "name".toList with                               -- 42
        | .error e => .error e
        | .ok (.one v) => .ok ⟨inputs, layers, v⟩
        | .ok (.many _) => .error .typeError

/-! ## Writing and reading a state -/

/-- architecture.py:284-306 `_write_h5_dict`: one variable. -/
def writeH5Entry (g : H5Dict) (e : Str × ArchEntry) : H5Dict :=
  match e.2 with
  | .many values =>                                                        -- 301-304
    let attrs := values.zipIdx.foldl (fun attrs v => dictSet attrs (natStr v.2) v.1) ((dictGet? g.groups e.1).getD [])
    ⟨g.attrs, dictSet g.groups e.1 attrs⟩
  | .one v => ⟨dictSet g.attrs e.1 v, g.groups⟩                            -- 306

/-- architecture.py:284-306 `_write_h5_dict`. -/
def writeH5Dict (g : H5Dict) (d : ArchDict) : H5Dict := d.foldl writeH5Entry g

/-- architecture.py:205-208, 210-213: a list of dictionaries to a group, which is created if it does not exist. -/
def writeH5List (group : Option (List (Str × H5Dict))) (l : List ArchDict) : List (Str × H5Dict) :=
  l.zipIdx.foldl (fun g x => dictSet g (natStr x.2) (writeH5Dict ((dictGet? g (natStr x.2)).getD ⟨[], []⟩) x.1))
    (group.getD [])

/-- architecture.py:193-215 `get_state`. -/
def Architecture.getState (a : Architecture) (state : Option H5Arch) : H5Arch :=
  let h5Arch := state.getD ⟨none, none, none⟩
  ⟨some (writeH5List h5Arch.inputs a.inputs), some (writeH5List h5Arch.layers a.layers), some a.outputLayer⟩

/-- architecture.py:277-280: the values of a list, in the order of `sorted(h5_values.attrs.keys())`. -/
def readH5Values (attrs : H5Attrs) : List ArchVal :=
  (sortedKeys attrs).filterMap (dictGet? attrs)

/-- architecture.py:260-282 `_read_h5_dict`. -/
def readH5Dict (g : H5Dict) : ArchDict :=
  let result := g.attrs.foldl (fun r x => dictSet r x.1 (.one x.2)) []                        -- 274-275
  g.groups.foldl (fun r x => dictSet r x.1 (.many (readH5Values x.2))) result                 -- 276-281

/-- `int(key)`, see `strNat`. -/
def intKey (k : Str) : Except Err Nat :=
  match strNat k with
  | some n => .ok n
  | none => .error .valueError

/-- architecture.py:45-86 `from_state`. -/
def Architecture.fromState (state : Option H5Arch) : Except Err Architecture :=
  match state with
  | none => .error .incompatibleState                                                         -- 54-56
  | some h5Arch =>
    match h5Arch.inputs with
    | none => .error .incompatibleState                                                       -- 59-62
    | some h5Inputs =>
      match mapE (fun k => (getKey h5Inputs k).map readH5Dict) (sortedKeys h5Inputs) with     -- 64-67
      | .error e => .error e
      | .ok inputs =>
        match h5Arch.layers with
        | none => .error .incompatibleState                                                   -- 69-72
        | some h5Layers =>
          match mapE intKey (h5Layers.map Prod.fst) with                                      -- 75
          | .error e => .error e
          | .ok layerIds =>
            match mapE (fun i => (getKey h5Layers (natStr i)).map readH5Dict)
                (layerIds.insertionSort (· ≤ ·)) with                                         -- 76-78
            | .error e => .error e
            | .ok layers =>
              match h5Arch.outputLayer with
              | none => .error .incompatibleState                                             -- 80-83
              | some o => mkArchitecture inputs layers (some o)                               -- 86

/-! ## Checking a state -/

/-- architecture.py:337-344: the values of a list. -/
def checkH5Values (attrs : H5Attrs) : List (ArchVal × Nat) → Except Err Unit
  | [] => .ok ()
  | (value, i) :: rest =>
    match getKey attrs (natStr i) with
    | .error e => .error e
    | .ok h5Value => if value ≠ h5Value then .error .incompatibleState else checkH5Values attrs rest

/-- architecture.py:326-351 `_check_h5_dict`: one variable. -/
def checkH5Entry (g : H5Dict) (e : Str × ArchEntry) : Except Err Unit :=
  match e.2 with
  | .many values =>
    if e.1 = "devices".toList ∧ dictGet? g.groups e.1 = none ∧ values = [] then .ok ()  -- 329-331
    else if e.1 = "devices".toList ∧ dictGet? g.groups e.1 = none then .error .incompatibleState  -- 332-336
    else
      match getKey g.groups e.1 with                                                          -- 337
      | .error e => .error e
      | .ok attrs => checkH5Values attrs values.zipIdx
  | .one v =>
    match getKey g.attrs e.1 with                                                             -- 346
    | .error e => .error e
    | .ok h5Value => if v ≠ h5Value then .error .incompatibleState else .ok ()

/-- architecture.py:308-351 `_check_h5_dict`. -/
def checkH5Dict (g : H5Dict) : ArchDict → Except Err Unit
  | [] => .ok ()
  | e :: rest =>
    match checkH5Entry g e with
    | .error e => .error e
    | .ok () => checkH5Dict g rest

/-- architecture.py:235-238, 244-247: the dictionaries of a list. -/
def checkH5List (group : List (Str × H5Dict)) : List (ArchDict × Nat) → Except Err Unit
  | [] => .ok ()
  | (d, i) :: rest =>
    match getKey group (natStr i) with
    | .error e => .error e
    | .ok g =>
      match checkH5Dict g d with
      | .error e => .error e
      | .ok () => checkH5List group rest

/-- architecture.py:217-258 `check_state`. -/
def Architecture.checkState (a : Architecture) (state : Option H5Arch) : Except Err Unit :=
  match state with
  | none => .error .incompatibleState
  | some h5Arch =>
    match h5Arch.inputs with
    | none => .error .incompatibleState
    | some h5Inputs =>
      match checkH5List h5Inputs a.inputs.zipIdx with
      | .error e => .error e
      | .ok () =>
        match h5Arch.layers with
        | none => .error .incompatibleState
        | some h5Layers =>
          match checkH5List h5Layers a.layers.zipIdx with
          | .error e => .error e
          | .ok () =>
            match h5Arch.outputLayer with
            | none => .error .incompatibleState
            | some o => if a.outputLayer ≠ o then .error .incompatibleState else .ok ()

/-! ## Description files -/

/-- `field.split('=', 1)`, and `InputError` if there is no equals sign (architecture.py:110-115, 131-136). -/
def splitField : Str → Except Err (Str × Str)
  | [] => .error .inputError
  | c :: cs =>
    if c = '=' then .ok ([], cs)
    else (splitField cs).map fun p => (c :: p.1, p.2)

/-- architecture.py:109-117: the fields of an input. -/
def inputFields : List Str → ArchDict → Except Err ArchDict
  | [], d => .ok d
  | field :: rest, d =>
    match splitField field with
    | .error e => .error e
    | .ok (name, value) => inputFields rest (dictSet d name (.one (.str value)))

/-- `layer_description[key].append(value)`: `AttributeError` if a string has been assigned to the key. -/
def appendValue (d : ArchDict) (key value : Str) : Except Err ArchDict :=
  match dictGet? d key with
  | none => .error .keyError
  | some (.many vs) => .ok (dictSet d key (.many (vs ++ [.str value])))
  | some (.one _) => .error .attributeError

/-- architecture.py:138-145: one field of a layer. -/
def layerField (parseInt : Str → Option ℤ) (d : ArchDict) (name value : Str) : Except Err ArchDict :=
  if name = "size".toList then
    match parseInt value with
    | some i => .ok (dictSet d name (.one (.int i)))
    | none => .error .valueError
  else if name = "input".toList then appendValue d "inputs".toList value
  else if name = "device".toList then appendValue d "devices".toList value
  else .ok (dictSet d name (.one (.str value)))

/-- architecture.py:130-145: the fields of a layer. -/
def layerFields (parseInt : Str → Option ℤ) : List Str → ArchDict → Except Err ArchDict
  | [], d => .ok d
  | field :: rest, d =>
    match splitField field with
    | .error e => .error e
    | .ok (name, value) =>
      match layerField parseInt d name value with
      | .error e => .error e
      | .ok d => layerFields parseInt rest d

/-- Whether a value is false in a condition: an empty string, zero, or an empty list. -/
def ArchEntry.falsy : ArchEntry → Bool
  | .one (.str s) => s.isEmpty
  | .one (.int i) => i == 0
  | .many vs => vs.isEmpty

/-- architecture.py:107-126: an input line. -/
def inputLine (fields : List Str) : Except Err ArchDict :=
  match inputFields fields [] with
  | .error e => .error e
  | .ok d =>
    if dictGet? d "type".toList = none then .error .inputError                                -- 118-121
    else if dictGet? d "name".toList = none then .error .inputError                           -- 122-125
    else .ok d

/-- architecture.py:128-158: a layer line. -/
def layerLine (parseInt : Str → Option ℤ) (fields : List Str) : Except Err ArchDict :=
  match layerFields parseInt fields [("inputs".toList, .many []), ("devices".toList, .many [])] with
  | .error e => .error e
  | .ok d =>
    if dictGet? d "type".toList = none then .error .inputError                                -- 146-149
    else if dictGet? d "name".toList = none then .error .inputError                           -- 150-153
    else
      match getKey d "inputs".toList with                                                     -- 154
      | .error e => .error e
      | .ok v => if v.falsy then .error .inputError else .ok d

/-- architecture.py:103-162: the loop over lines. -/
def descriptionLines (parseInt : Str → Option ℤ) :
    List Str → List ArchDict → List ArchDict → Except Err (List ArchDict × List ArchDict)
  | [], inputs, layers => .ok (inputs, layers)
  | line :: rest, inputs, layers =>
    match pySplit line with
    | [] => descriptionLines parseInt rest inputs layers
    | first :: fields =>
      if first.head? = some '#' then descriptionLines parseInt rest inputs layers             -- 104-105
      else if first = "input".toList then
        match inputLine fields with
        | .error e => .error e
        | .ok d => descriptionLines parseInt rest (inputs ++ [d]) layers
      else if first = "layer".toList then
        match layerLine parseInt fields with
        | .error e => .error e
        | .ok d => descriptionLines parseInt rest inputs (layers ++ [d])
      else .error .inputError                                                                 -- 160-162

/-- architecture.py:89-169 `from_description`. -/
def Architecture.fromDescription (parseInt : Str → Option ℤ) (lines : List Str) : Except Err Architecture :=
  match descriptionLines parseInt lines [] [] with
  | .error e => .error e
  | .ok (inputs, layers) =>
    if inputs = [] then .error .inputError                                                    -- 164-165
    else if layers = [] then .error .inputError                                               -- 166-167
    else mkArchitecture inputs layers none                                                    -- 169

end TheanoLM
