import Verif.Model.TextSampler
import Mathlib.MeasureTheory.Constructions.Pi
import Mathlib.MeasureTheory.Measure.Lebesgue.Basic
/-!
# Specifications for the distribution of generated text
-/
namespace TheanoLM
open MeasureTheory

/-- A random number from the uniform distribution between zero and one. -/
noncomputable def uniform01 : Measure ℝ := volume.restrict (Set.Ico 0 1)

/-- `pick` uses a uniform random number to draw from a finite distribution: outcome number `i` has the probability number `i`. -/
structure DrawsFrom (pick : List ℝ → ℝ → Nat) : Prop where
  lt : ∀ (p : List ℝ) (u : ℝ), p ≠ [] → pick p u < p.length
  law : ∀ p : List ℝ, (∀ x ∈ p, 0 ≤ x) → p.sum = 1 → ∀ (i : Nat) (x : ℝ), p[i]? = some x →
    uniform01 {u | pick p u = i} = ENNReal.ofReal x

/-- Independent uniform random numbers for `T` time steps and `n` sequences: one for the class and one for the word. -/
noncomputable def uniformNumbers (T n : Nat) : Measure (Fin T × Fin n × Bool → ℝ) := Measure.pi fun _ => uniform01

/-- The random number for the class (`false`) or the word (`true`). -/
def numberAt {T n : Nat} (ω : Fin T × Fin n × Bool → ℝ) (t s : Nat) (b : Bool) : ℝ :=
  if h : t < T ∧ s < n then ω (⟨t, h.1⟩, ⟨s, h.2⟩, b) else 0

/-- The outcomes that the random numbers give. -/
noncomputable def drawsOf (pick : List ℝ → ℝ → Nat) {T n : Nat} (ω : Fin T × Fin n × Bool → ℝ) : Draws ℝ where
  cls t s p := pick p (numberAt ω t s false)
  word t s c := pick (c.probs.map fun x => ((x.2 : ℚ) : ℝ)) (numberAt ω t s true)

end TheanoLM
