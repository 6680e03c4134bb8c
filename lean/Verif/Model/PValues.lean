import Verif.Spec.Student
/-
The p-values of OLS diagnostics. scipy's survival functions `t.sf` and `f.sf` are modelled as the upper tails of Student's and Fisher's
distributions, themselves defined in `Verif.Spec.Student` from independent standard normals.
-/
namespace Spreg.Diag
open MeasureTheory Spreg

/-- The two-sided p-value of a t statistic, diagnostics.py:189: `stats.t.sf(abs(t), n - k) * 2`. -/
noncomputable def pT (d : ℕ) (t : ℝ) : ℝ := (studentLaw d).real (Set.Ioi |t|) * 2

/-- The p-value of an F statistic, diagnostics.py:115: `stats.f.sf(fStat, r, n - k)`. -/
noncomputable def pF (d1 d2 : ℕ) (f : ℝ) : ℝ := (fisherLaw d1 d2).real (Set.Ioi f)

end Spreg.Diag
