import Verif.Model.Basic
import Verif.Model.Flt
/-!
# Model of theanolm/backend/probfunctions.py and theanolm/backend/classdistribution.py

Numbers are elements of an ordered field.  Rounding is not modelled, but underflow is: which exponentials are rounded to zero in
floating point arithmetic is a parameter.  In decimal arithmetic exponentials are not rounded to zero (the smallest exponent is less
than -10¹⁷).
-/
namespace TheanoLM

/-- The functions of NumPy and the decimal library; `underflow x` if the exponential of `x` is rounded to zero by NumPy. -/
structure ProbFun (S : Type) where
  exp : S → S
  ln : S → S
  underflow : S → Bool

section
variable {S : Type} [Field S] [LinearOrder S]

/-- `numpy.exp(numpy.float64(x))` of a finite number. -/
def ProbFun.exp64 (F : ProbFun S) (x : S) : S := if F.underflow x then 0 else F.exp x

/-- Multiplication by a finite number: zero times infinity is nan. -/
def Flt.scale (w : S) : Flt S → Flt S
  | .nan => .nan
  | .negInf => if w = 0 then .nan else if 0 < w then .negInf else .posInf
  | .posInf => if w = 0 then .nan else if 0 < w then .posInf else .negInf
  | .fin x => .fin (w * x)

/-- `numpy.log`: nan for negative numbers. -/
def Flt.log (F : ProbFun S) : Flt S → Flt S
  | .nan => .nan
  | .negInf => .nan
  | .posInf => .posInf
  | .fin x => if 0 < x then .fin (F.ln x) else if x = 0 then .negInf else .nan

/-- `Decimal.ln`: raises an exception for negative numbers. -/
def decimalLn (F : ProbFun S) : Flt S → Except Err (Flt S)
  | .nan => .ok .nan
  | .negInf => .error .numberError
  | .posInf => .ok .posInf
  | .fin x => if 0 < x then .ok (.fin (F.ln x)) else if x = 0 then .ok .negInf else .error .numberError

/-- Sum of decimal numbers: raises an exception if they are infinities of different sign. -/
def decimalAdd : Flt S → Flt S → Except Err (Flt S)
  | .negInf, .posInf => .error .numberError
  | .posInf, .negInf => .error .numberError
  | x, y => .ok (x.add y)

/-- probfunctions.py:14-56 `interpolate_linear`.  The conversion of the result to `logprob_type` is not modelled. -/
def interpolateLinear (F : ProbFun S) (logprob1 logprob2 : Flt S) (weight1 : S) : Except Err (Flt S) :=
  let prob1 := Flt.exp F.exp64 logprob1                                                       -- 35
  let prob2 := Flt.exp F.exp64 logprob2                                                       -- 36
  if prob1.isPos ∧ prob2.isPos then                                                           -- 37
    let weight2 := 1 - weight1
    .ok (Flt.log F ((prob1.scale weight1).add (prob2.scale weight2)))                         -- 38-41
  else
    let weight2 := 1 - weight1                                                                -- 46-47
    let prob := if weight1 ≠ 0 then (Flt.exp F.exp logprob1).scale weight1 else .fin 0        -- 51-53
    match (if weight2 ≠ 0 then decimalAdd prob ((Flt.exp F.exp logprob2).scale weight2) else .ok prob) with   -- 54-55
    | .error e => .error e
    | .ok prob => decimalLn F prob                                                            -- 56

/-- probfunctions.py:58-89 `interpolate_loglinear`. -/
def interpolateLoglinearFlt (logprob1 logprob2 : Flt S) (prior1 prior2 : S) : Except Err (Flt S) :=
  let result : Flt S := .fin 0
  let result := if prior1 ≠ 0 then result.add (logprob1.scale prior1) else result             -- 84-85
  let result := if prior2 ≠ 0 then result.add (logprob2.scale prior2) else result             -- 86-87
  if result = .nan then .error .assertion else .ok result                                     -- 88-89

end

/-! ## Noise distributions -/

section
variable {S : Type} [Field S] [LinearOrder S] [FloorSemiring S]

/-- classdistribution.py:71-87 `UniformDistribution.sample`, one sample: `u` is the random number, from zero to `support`
(exclusive), and the conversion to an integer truncates. -/
def uniformSample (u : S) : Nat := ⌊u⌋₊

/-- classdistribution.py:89-103 `UniformDistribution.probs`. -/
def uniformProb (support : Nat) (_classId : Nat) : S := 1 / support

/-- classdistribution.py:120-121. -/
def logSupport (F : ProbFun S) (support : Nat) : S := F.ln (support + 1)

/-- classdistribution.py:123-141 `LogUniformDistribution.sample`, one sample: `u` is the random number, from zero to the logarithm of
`support + 1` (exclusive). -/
def logUniformSample (F : ProbFun S) (u : S) : Nat := ⌊F.exp u - 1⌋₊

/-- classdistribution.py:143-161 `LogUniformDistribution.probs`. -/
def logUniformProb (F : ProbFun S) (support : Nat) (classId : Nat) : S :=
  F.ln ((classId + 2) / (classId + 1)) / logSupport F support

/-- classdistribution.py:178-208 `MultinomialDistribution.sample`, one sample: `x` is the number that Theano returns, which can be
any number according to a comment, and `n` is the number of classes. -/
def multinomialSample (n : Nat) (x : Int) : Int := x % n                                      -- 207

/-- classdistribution.py:210-224 `MultinomialDistribution.probs`, for one class. -/
def multinomialProb (probs : List S) (classId : Nat) : Except Err S :=
  match probs[classId]? with
  | some p => .ok p
  | none => .error .indexError

end

end TheanoLM
