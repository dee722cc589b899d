import Verif.Model.Vocabulary
/-!
# Model of theanolm/backend/parameters.py

A value is an array: its shape and its elements.  An HDF5 file is a list of datasets with their paths; a group exists when there is
a dataset below it.
-/
namespace TheanoLM

/-- An array. -/
structure Arr (α : Type) where
  shape : List Nat
  data : List α
  deriving DecidableEq

section
variable {α : Type}

/-- A `Parameters` object. -/
structure Params (α : Type) where
  vars : List (Str × Arr α)
  totalSize : Nat
  deriving DecidableEq

/-- parameters.py:19-24 -/
def Params.empty : Params α := ⟨[], 0⟩

/-- parameters.py:26-36 `Parameters.__getitem__`, the value of the shared variable. -/
def Params.get (p : Params α) (path : Str) : Except Err (Arr α) :=
  match dictGet? p.vars path with
  | some value => .ok value
  | none => .error .keyError

/-- parameters.py:38-75 `Parameters.add`.  The device and the check of the old GPU back end are not modelled. -/
def Params.add (path : Str) (value : Arr α) (p : Params α) : Except Err (Params α) :=
  if (dictGet? p.vars path).isSome then .error .valueError                                    -- 53-54
  else .ok ⟨dictSet p.vars path value, p.totalSize + value.data.length⟩                       -- 61-75

/-- HDF5: `path` is a group that contains the object `other` (at any depth). -/
def isAncestor (path other : Str) : Bool := (path ++ ['/']).isPrefixOf other

/-- HDF5: there is a group called `path`. -/
def isGroup (file : List (Str × Arr α)) (path : Str) : Bool := file.any fun d => isAncestor path d.1

/-- parameters.py:87-91, one parameter.  Writing to a dataset using `[:]` is possible only if it is not a scalar, and its shape
has to be the shape of the value (broadcasting of values of a different shape is not modelled).  A dataset cannot be created inside
another dataset. -/
def saveParam (file : List (Str × Arr α)) (d : Str × Arr α) : Except Err (List (Str × Arr α)) :=
  match dictGet? file d.1 with
  | some old =>                                                                               -- 88
    if old.shape = [] then .error .typeError
    else if old.shape ≠ d.2.shape then .error .typeError
    else .ok (dictSet file d.1 d.2)                                                           -- 89
  | none =>
    if isGroup file d.1 then .error .typeError                                                -- 88-89
    else if file.any (fun e => isAncestor e.1 d.1) then .error .valueError
    else .ok (file ++ [d])                                                                    -- 91

/-- parameters.py:77-91 `Parameters.get_state`. -/
def saveParams : List (Str × Arr α) → List (Str × Arr α) → Except Err (List (Str × Arr α))
  | [], file => .ok file
  | d :: ds, file =>
    match saveParam file d with
    | .error e => .error e
    | .ok file' => saveParams ds file'

/-- parameters.py:102-107, one parameter.  The new value of a shared variable has to have the same number of dimensions. -/
def restoreParam (file : List (Str × Arr α)) (d : Str × Arr α) : Except Err (Str × Arr α) :=
  match dictGet? file d.1 with
  | none => if isGroup file d.1 then .error .attributeError else .error .incompatibleState    -- 103-106
  | some value => if value.shape.length = d.2.shape.length then .ok (d.1, value) else .error .typeError   -- 106-107

/-- parameters.py:93-111 `Parameters.set_state`. -/
def Params.restore (file : List (Str × Arr α)) (p : Params α) : Except Err (Params α) :=
  match mapE (restoreParam file) p.vars with
  | .error e => .error e
  | .ok vars => .ok ⟨vars, p.totalSize⟩

end

end TheanoLM
