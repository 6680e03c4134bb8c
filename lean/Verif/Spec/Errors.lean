import Mathlib.Probability.Moments.Covariance
import Mathlib.Probability.Independence.Basic
import Mathlib.Data.Matrix.Mul
/-
Specification of random errors. Nothing here refers to the model of the code.
-/
namespace Spreg
open MeasureTheory ProbabilityTheory

/-- Random errors `e i` with mean zero, variance `s2 i` and no correlation between different observations. -/
structure Errors {Ω n : Type} [MeasurableSpace Ω] [DecidableEq n] (P : Measure Ω) (e : Ω → n → ℝ) (s2 : n → ℝ) : Prop where
  prob : IsProbabilityMeasure P
  sq : ∀ i, MemLp (fun ω => e ω i) 2 P
  mean : ∀ i, ∫ ω, e ω i ∂P = 0
  cov : ∀ i j, ∫ ω, e ω i * e ω j ∂P = if i = j then s2 i else 0

/-- Random effects of the units, `mu i`, and errors `nu (t, i)` of unit `i` in period `t`: all have mean zero and are uncorrelated. -/
structure RandomEffects {Ω τ n : Type} [MeasurableSpace Ω] [DecidableEq τ] [DecidableEq n] (P : Measure Ω) (mu : Ω → n → ℝ)
    (nu : Ω → τ × n → ℝ) (smu snu : ℝ) : Prop where
  effect : Errors P mu fun _ => smu
  error : Errors P nu fun _ => snu
  cross : ∀ i a, ∫ ω, mu ω i * nu ω a ∂P = 0

/-- Errors whose distribution does not change under rotations and reflections, such as independent normal errors with mean zero and
equal variances (`normal_spherical`). -/
structure Spherical {Ω n : Type} [MeasurableSpace Ω] [Fintype n] [DecidableEq n] (P : Measure Ω) (e : Ω → n → ℝ) : Prop where
  prob : IsProbabilityMeasure P
  meas : Measurable e
  rot : ∀ O : Matrix n n ℝ, O.transpose * O = 1 → P.map (fun ω => O.mulVec (e ω)) = P.map e

end Spreg
