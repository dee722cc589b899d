import Verif.Model.SamplingTensors

/-!
# Specification: what the sampling-based costs are to compute in one position of a mini-batch
-/

namespace TheanoLM

section
variable {S : Type} [Field S]

/-- The unnormalized log probability of class `c` at time step `t` of sequence `s`: the inner product of the input vector and the
weights of the class, plus the bias of the class. -/
def tensorScore (numFeatures : Nat) (weight bias x : Tensor S) (t s c : Nat) : S :=
  ((List.range numFeatures).map fun d => x.at' [t, s, d] * weight.at' [d, c]).sum + bias.at' [c]

/-- The noise class number `k` of sequence `s` at time step `t`, in a mini-batch of `n` sequences: every position has a row of its
own, or every time step has a part of one row, or all positions have the same row. -/
def noiseClassAt (sharing : Option Str) (numTimeSteps n numSamples : Nat) (draw : Nat → Nat → Tensor Nat) (t s k : Nat) : Nat :=
  match sharing with
  | none => (draw (numTimeSteps * n) numSamples).at' [t * n + s, k]
  | some sharing =>
    if sharing = "seq".toList then (draw 1 (numTimeSteps * numSamples)).at' [0, t * numSamples + k]
    else (draw 1 numSamples).at' [0, k]

/-- Indices that are in the shape of a tensor. -/
def InShape (shape idx : List Nat) : Prop := List.Forall₂ (fun i d => i < d) idx shape

/-- The parameters of a softmax layer, its input for `T` time steps of `N` sequences, the target classes, and the generator of noise
classes; there are `D` features and `C` classes. -/
structure SamplingInput (T N D C : Nat) (weight bias x : Tensor S) (targets : Tensor Nat) (draw : Nat → Nat → Tensor Nat) : Prop where
  weightShape : weight.shape = [D, C]
  biasShape : bias.shape = [C]
  xShape : x.shape = [T, N, D]
  targetsShape : targets.shape = [T, N]
  targetIn : ∀ t < T, ∀ s < N, targets.at' [t, s] < C
  drawShape : ∀ m n, (draw m n).shape = [m, n]
  noiseIn : ∀ m n, ∀ i < m, ∀ k < n, (draw m n).at' [i, k] < C

end

end TheanoLM
