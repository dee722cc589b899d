import Verif.Model.Basic
import Mathlib.Algebra.BigOperators.Group.Finset.Basic
/-!
# Model of theanolm/backend/operations.py:11-133 (`conv2d` and `conv1d`)

A tensor is its shape and a function from indices to elements; only the elements within the shape mean something.  The operation
`tensor.nnet.conv2d` of Theano is modelled from its documentation: `nnetConv2d` below.
-/
namespace TheanoLM

/-- A 4-dimensional tensor. -/
structure Tensor4 (S : Type) where
  n0 : Nat
  n1 : Nat
  n2 : Nat
  n3 : Nat
  get : Nat → Nat → Nat → Nat → S

/-- A 3-dimensional tensor. -/
structure Tensor3 (S : Type) where
  n0 : Nat
  n1 : Nat
  n2 : Nat
  get : Nat → Nat → Nat → S

section
variable {S : Type}

/-- `dimshuffle(0, 3, 1, 2)` (operations.py:46). -/
def Tensor4.shuffle0312 (t : Tensor4 S) : Tensor4 S := ⟨t.n0, t.n3, t.n1, t.n2, fun a b c d => t.get a c d b⟩

/-- `dimshuffle(3, 2, 0, 1)` (operations.py:49). -/
def Tensor4.shuffle3201 (t : Tensor4 S) : Tensor4 S := ⟨t.n3, t.n2, t.n0, t.n1, fun a b c d => t.get c d b a⟩

/-- `dimshuffle(0, 2, 3, 1)` (operations.py:84). -/
def Tensor4.shuffle0231 (t : Tensor4 S) : Tensor4 S := ⟨t.n0, t.n2, t.n3, t.n1, fun a b c d => t.get a d b c⟩

/-- `dimshuffle(0, 1, 'x', 2)` (operations.py:122). -/
def Tensor3.shuffle01x2 (t : Tensor3 S) : Tensor4 S := ⟨t.n0, t.n1, 1, t.n2, fun a b _ d => t.get a b d⟩

/-- `dimshuffle(0, 'x', 1, 2)` (operations.py:125). -/
def Tensor3.shuffle0x12 (t : Tensor3 S) : Tensor4 S := ⟨t.n0, 1, t.n1, t.n2, fun a _ c d => t.get a c d⟩

/-- `[:, :, :rows, :]` (operations.py:78). -/
def Tensor4.sliceRows (t : Tensor4 S) (rows : Nat) : Tensor4 S := { t with n2 := min t.n2 rows }

/-- `[:, :, :, :columns]` (operations.py:80). -/
def Tensor4.sliceColumns (t : Tensor4 S) (columns : Nat) : Tensor4 S := { t with n3 := min t.n3 columns }

/-- The element in the given place of the elements in row-major order. -/
def Tensor4.flat (t : Tensor4 S) (i : Nat) : S :=
  t.get (i / (t.n1 * t.n2 * t.n3)) (i / (t.n2 * t.n3) % t.n1) (i / t.n3 % t.n2) (i % t.n3)

/-- `reshape([n0, n1, n2])`: fails if the number of elements would change. -/
def Tensor4.reshape3 (t : Tensor4 S) (n0 n1 n2 : Nat) : Except Err (Tensor3 S) :=
  if n0 * n1 * n2 = t.n0 * t.n1 * t.n2 * t.n3 then .ok ⟨n0, n1, n2, fun a b c => t.flat ((a * n1 + b) * n2 + c)⟩
  else .error .valueError

/-- The `border_mode` argument of `tensor.nnet.conv2d`. -/
inductive BorderMode
  | half
  | valid
  | full

/-- Number of zeros that are added to both ends of a dimension, when the filter has the given size. -/
def BorderMode.pad : BorderMode → Nat → Int
  | .half, k => (k : Int) / 2
  | .valid, _ => 0
  | .full, k => (k : Int) - 1

/-- Size of a dimension of the output of `tensor.nnet.conv2d`. -/
def BorderMode.outSize (m : BorderMode) (n k stride : Nat) : Int :=
  ((n : Int) + 2 * m.pad k - k) / stride + 1

variable [Semiring S]

/-- An element of the padded input. -/
def paddedGet (t : Tensor4 S) (sample feature : Nat) (row column : Int) : S :=
  if 0 ≤ row ∧ row < t.n2 ∧ 0 ≤ column ∧ column < t.n3 then t.get sample feature row.toNat column.toNat else 0

/-- `tensor.nnet.conv2d` of Theano with `filter_flip=False`: input of shape (samples, features, rows, columns) and filters of shape
(output features, input features, rows, columns).  Fails if the numbers of features do not match or the output would have a negative
size.  `filter_shape` only helps in selecting an implementation, so lines 59-64 are not modelled. -/
def nnetConv2d (input filters : Tensor4 S) (m : BorderMode) (strides : Nat × Nat) : Except Err (Tensor4 S) :=
  if input.n1 ≠ filters.n1 then .error .valueError
  else
    let rows := m.outSize input.n2 filters.n2 strides.1
    let columns := m.outSize input.n3 filters.n3 strides.2
    if rows < 0 ∨ columns < 0 then .error .valueError
    else .ok ⟨input.n0, filters.n0, rows.toNat, columns.toNat, fun a o i j =>
      ∑ p ∈ Finset.range filters.n2, ∑ q ∈ Finset.range filters.n3, ∑ f ∈ Finset.range filters.n1,
        paddedGet input a f ((i * strides.1 + p : Nat) - m.pad filters.n2) ((j * strides.2 + q : Nat) - m.pad filters.n3) *
          filters.get o f p q⟩

/-- operations.py:11-84 `conv2d`. -/
def conv2d (input filters : Tensor4 S) (strides : Nat × Nat) (padding : Str) : Except Err (Tensor4 S) :=
  let input := input.shuffle0312                                                               -- 46
  let filters := filters.shuffle3201                                                           -- 49
  let borderMode : Except Err BorderMode :=                                                    -- 51-58
    if padding = "same".toList then .ok .half
    else if padding = "valid".toList then .ok .valid
    else if padding = "full".toList then .ok .full
    else .error .valueError
  match borderMode with
  | .error e => .error e
  | .ok m =>
    match nnetConv2d input filters m strides with                                              -- 66-72
    | .error e => .error e
    | .ok result =>
      let result :=
        if padding = "same".toList then                                                        -- 74
          let rowsEnd := (input.n2 + strides.1 - 1) / strides.1                                -- 77-78
          let result := result.sliceRows rowsEnd
          let columnsEnd := (input.n3 + strides.2 - 1) / strides.2                             -- 79-80
          result.sliceColumns columnsEnd
        else result
      .ok result.shuffle0231                                                                   -- 84

/-- operations.py:86-133 `conv1d`. -/
def conv1d (input filters : Tensor3 S) (stride : Nat) (padding : Str) : Except Err (Tensor3 S) :=
  match conv2d input.shuffle01x2 filters.shuffle0x12 (stride, 1) padding with                  -- 122-129
  | .error e => .error e
  | .ok output => output.reshape3 output.n0 output.n1 output.n3                                -- 133

end

end TheanoLM
