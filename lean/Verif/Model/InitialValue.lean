import Verif.Model.NetworkCreate
/-!
# Model of the initial values of vectors

theanolm/network/weightfunctions.py:76-103 and theanolm/network/basiclayer.py:219-259.
-/
namespace TheanoLM

section
variable {S : Type} [Zero S]

/-- A value, an array, or `None`. -/
inductive InitValue (S : Type)
  | none
  | scalar (x : S)
  | array (xs : List S)
  deriving DecidableEq

/-- The argument `value` of `matrix_from_value`: one value, or a list or tuple of them. -/
inductive InitArg (S : Type)
  | one (v : InitValue S)
  | many (vs : List (InitValue S))

/-- weightfunctions.py:92: the values of the parts. -/
def InitArg.values : InitArg S → List (InitValue S)
  | .one v => [v]
  | .many vs => vs

/-- weightfunctions.py:97: `isinstance(value, numpy.ndarray)`.  It is the argument that is tested, not the value of the part. -/
def InitArg.isArray : InitArg S → Option (List S)
  | .one (.array xs) => some xs
  | _ => Option.none

/-- `numpy.ndarray.fill`.  An array of one element is used as its element; other arrays cannot be converted to a number. -/
def fillVector (size : Nat) : InitValue S → Except Err (List S)
  | .none => .error .typeError
  | .scalar x => .ok (List.replicate size x)
  | .array [x] => .ok (List.replicate size x)
  | .array _ => .error .valueError

/-- weightfunctions.py:95-101: one part. -/
def initPart (size : Nat) (arg : InitArg S) (v : InitValue S) : Except Err (List S) :=
  match v with
  | .none => .ok (List.replicate size 0)                                        -- 95-96
  | v =>
    match arg.isArray with
    | some xs => .ok xs                                                         -- 97-98
    | Option.none => fillVector size v                                          -- 99-101

/-- weightfunctions.py:93-103: the parts, concatenated. -/
def initParts (size : Nat) (arg : InitArg S) : List (InitValue S) → Except Err (List S)
  | [] => .ok []
  | v :: vs =>
    match initPart size arg v with
    | .error e => .error e
    | .ok part =>
      match initParts size arg vs with
      | .error e => .error e
      | .ok rest => .ok (part ++ rest)

/-- weightfunctions.py:76-103 `matrix_from_value`, when `shape` is an integer.  `numpy.concatenate` needs at least one array. -/
def matrixFromValue (size : Nat) (arg : InitArg S) : Except Err (List S) :=
  if arg.values.isEmpty then .error .valueError else initParts size arg arg.values

/-- basiclayer.py:219-259 `_init_bias`, when `shape` is an integer.  `matrix_from_value` is called twice in some cases, with the same
arguments. -/
def initBias (devices : List (Option Str)) (split : Bool) (name : Str) (size : Nat) (arg : InitArg S) (d : ParamDict S) :
    Except Err (ParamDict S) :=
  match matrixFromValue size arg with
  | .error e => .error e
  | .ok bias => initParam devices split name bias d

end

end TheanoLM
