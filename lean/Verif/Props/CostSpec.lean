import Verif.Props.LayerSpec
import Verif.Props.Interpolation
import Verif.Model.Cost
import Mathlib.Algebra.BigOperators.Ring.Finset
/-!
# Specification of the costs of mini-batches
-/
namespace TheanoLM

/-- The matrix with the given elements: `T` time steps of `B` sequences. -/
def matrix {α : Type} (T B : Nat) (f : Nat → Nat → α) : List (List α) :=
  (List.range T).map fun t => (List.range B).map (f t)

/-- The target in this position is taken into account: it is inside the mask and it is not the excluded word. -/
def Counted (exclude : Option Nat) (mask : Nat → Nat → Bool) (word : Nat → Nat → Nat) (t s : Nat) : Prop :=
  mask t s = true ∧ exclude ≠ some (word t s)

instance (exclude : Option Nat) (mask : Nat → Nat → Bool) (word : Nat → Nat → Nat) (t s : Nat) :
    Decidable (Counted exclude mask word t s) := by unfold Counted; infer_instance

/-- The positions of a mini-batch that are taken into account. -/
def countedPositions (exclude : Option Nat) (mask : Nat → Nat → Bool) (word : Nat → Nat → Nat) (T B : Nat) : Finset (Nat × Nat) :=
  (Finset.range T ×ˢ Finset.range B).filter fun p => Counted exclude mask word p.1 p.2

open Finset in
/-- The penalty for large parameters. -/
def penalty {S : Type} [Field S] [LinearOrder S] (l1Weight l2Weight : Option S) (params : List S) : S :=
  l1Weight.getD 0 * (params.map fun v => |v|).sum + l2Weight.getD 0 * (params.map fun v => v * v).sum

/-- The probability, according to the noise-contrastive estimation article, that a word was not drawn from the noise distribution: `p`
is its (unnormalized) probability and `q` its probability in the noise distribution. -/
noncomputable def notNoise (p q : ℝ) : ℝ := p / (p + q)

/-- The share of each of the (unnormalized) probabilities `p`, when they are weighted by the inverses of the probabilities `q` in the
noise distribution. -/
noncomputable def share (classes : List (NoiseClass ℝ)) (c : NoiseClass ℝ) : ℝ :=
  Real.exp c.logprob / c.prior / (classes.map fun d => Real.exp d.logprob / d.prior).sum

/-- The noise classes in a position of a mini-batch: `k` of them are drawn for each position, for each time step, or for the
mini-batch. -/
def NoiseAt (sharing : Option Str) (T B k : Nat) (draw : Nat → Nat → List (List Nat)) (t s : Nat) (sample : List Nat) : Prop :=
  sample.length = k ∧ ∀ i < k, sample[i]? =
    match sharing with
    | none => posAt (draw (T * B) k) (t * B + s) i
    | some sharing => if sharing = "seq".toList then posAt (draw 1 (T * k)) 0 (t * k + i) else posAt (draw 1 k) 0 i

end TheanoLM
