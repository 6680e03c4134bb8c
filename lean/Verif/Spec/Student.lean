import Mathlib.Probability.Distributions.Gaussian.Real
import Mathlib.MeasureTheory.Constructions.Pi
/-
Student's and Fisher's distributions, defined from independent standard normal variables. Nothing here refers to the model of the code.
-/
namespace Spreg
open MeasureTheory ProbabilityTheory

/-- Independent standard normal variables. -/
noncomputable def stdNormals (κ : Type) [Fintype κ] : Measure (κ → ℝ) := Measure.pi fun _ => gaussianReal 0 1

/-- Student's distribution with `d` degrees of freedom: a standard normal over the root of the mean of `d` squared ones. -/
noncomputable def studentLaw (d : ℕ) : Measure ℝ :=
  (stdNormals (Option (Fin d))).map fun z => z none / Real.sqrt ((∑ i, z (some i) ^ 2) / d)

/-- Fisher's distribution: the mean of `d1` squared standard normals over the mean of `d2` others. -/
noncomputable def fisherLaw (d1 d2 : ℕ) : Measure ℝ :=
  (stdNormals (Fin d1 ⊕ Fin d2)).map fun z => ((∑ i, z (.inl i) ^ 2) / d1) / ((∑ i, z (.inr i) ^ 2) / d2)

end Spreg
