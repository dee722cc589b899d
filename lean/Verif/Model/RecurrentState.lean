import Verif.Model.Vocabulary
/-!
# Model of theanolm/network/recurrentstate.py

A NumPy array of three dimensions has a shape and elements.  The type of the elements is arbitrary.
-/
namespace TheanoLM

/-- A 3-dimensional array: shape `(d0, d1, d2)`, and the elements as nested lists. -/
structure Arr3 (S : Type) where
  d0 : Nat
  d1 : Nat
  d2 : Nat
  data : List (List (List S))
  deriving DecidableEq

section
variable {S : Type}

/-- `numpy.zeros((n0, n1, n2))`. -/
def Arr3.zeros [Zero S] (n0 n1 n2 : Nat) : Arr3 S :=
  ⟨n0, n1, n2, List.replicate n0 (List.replicate n1 (List.replicate n2 0))⟩

/-- Concatenation of the elements of two arrays along the second axis. -/
def append1 (a b : List (List (List S))) : List (List (List S)) := List.zipWith (· ++ ·) a b

/-- `numpy.concatenate(arrays, axis=1)`: `ValueError` if there are no arrays, or if the other dimensions are not the same. -/
def concatenate1 : List (Arr3 S) → Except Err (Arr3 S)
  | [] => .error .valueError
  | a :: rest =>
    if rest.all (fun b => b.d0 == a.d0 && b.d2 == a.d2) then
      .ok ⟨a.d0, a.d1 + (rest.map Arr3.d1).sum, a.d2, rest.foldl (fun x b => append1 x b.data) a.data⟩
    else .error .valueError

/-- `array[:, index:index + 1]`. -/
def Arr3.slice1 (a : Arr3 S) (index : Nat) : Arr3 S :=
  ⟨a.d0, min (index + 1) a.d1 - min index a.d1, a.d2, a.data.map fun m => (m.drop index).take 1⟩

/-- `RecurrentState`. -/
structure RecState (S : Type) where
  sizes : List Nat
  numSequences : Nat
  vars : List (Arr3 S)

/-- recurrentstate.py:115-125: the checks on one state variable. -/
def stateShapeOk (numSequences : Nat) (x : Arr3 S × Nat) : Bool :=
  x.1.d0 == 1 && x.1.d1 == numSequences && x.1.d2 == x.2

/-- recurrentstate.py:104-126 `set`. -/
def RecState.set (st : RecState S) (vars : List (Arr3 S)) : Except Err (RecState S) :=
  if vars.length ≠ st.sizes.length then .error .valueError                                    -- 112-114
  else if (vars.zip st.sizes).all (stateShapeOk st.numSequences) then .ok { st with vars := vars }
  else .error .valueError

/-- recurrentstate.py:90-102 `reset`. -/
def RecState.reset [Zero S] (st : RecState S) : RecState S :=
  { st with vars := st.sizes.map fun size => Arr3.zeros 1 st.numSequences size }

/-- recurrentstate.py:26-48 `__init__`. -/
def mkRecState [Zero S] (sizes : List Nat) (numSequences : Nat) (vars : Option (List (Arr3 S))) : Except Err (RecState S) :=
  match vars with
  | none => .ok (RecState.reset ⟨sizes, numSequences, []⟩)                                    -- 45-46
  | some vars => RecState.set ⟨sizes, numSequences, []⟩ vars                                  -- 48

/-- recurrentstate.py:128-146 `get(index)`. -/
def RecState.getVar (st : RecState S) (index : Nat) : Except Err (Arr3 S) :=
  match st.vars[index]? with
  | some x => .ok x
  | none => .error .indexError

/-- recurrentstate.py:79-86: one state variable of the combined state.  `sizes` are those of the first state. -/
def combineVariable (states : List (RecState S)) (numSequences : Nat) (sizes : List Nat) (index : Nat) :
    Except Err (Arr3 S) :=
  match mapE (fun st => RecState.getVar st index) states with                                 -- 79
  | .error e => .error e
  | .ok arrays =>
    match concatenate1 arrays with                                                            -- 80
    | .error e => .error e
    | .ok a =>
      if a.d0 = 1 ∧ a.d1 = numSequences ∧ some a.d2 = sizes[index]? then .ok a                -- 81-83
      else .error .assertion

/-- recurrentstate.py:50-88 `combine_sequences`. -/
def combineSequences [Zero S] : List (RecState S) → Except Err (RecState S)
  | [] => .error .valueError                                                                  -- 70-71
  | first :: rest =>
    let states := first :: rest
    let numSequences := (states.map RecState.numSequences).sum                                -- 73
    match mapE (combineVariable states numSequences first.sizes) (List.range first.sizes.length) with
    | .error e => .error e
    | .ok vars => mkRecState (vars.map Arr3.d2) numSequences (some vars)                      -- 84, 88

/-- latticedecoder.py:650-653: the state of one token from the output state of a time step. -/
def tokenState [Zero S] (sizes : List Nat) (outputState : List (Arr3 S)) (index : Nat) : Except Err (RecState S) :=
  match mkRecState sizes 1 none with
  | .error e => .error e
  | .ok st => st.set (outputState.map fun a => a.slice1 index)

end

end TheanoLM
