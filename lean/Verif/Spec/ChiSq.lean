import Verif.Spec.Student
/-
The chi-squared distribution and the p-value taken from it. Nothing here refers to the model of the code.
-/
namespace Spreg
open MeasureTheory ProbabilityTheory

/-- The chi-squared distribution with `d` degrees of freedom: the sum of `d` squared independent standard normals. -/
noncomputable def chiSqLaw (d : ℕ) : Measure ℝ := (stdNormals (Fin d)).map fun z => ∑ i, z i ^ 2

/-- `chi2.sf(w, d)`: the probability of a value above `w`. -/
noncomputable def pChi (d : ℕ) (w : ℝ) : ℝ := (chiSqLaw d).real (Set.Ioi w)

end Spreg
