import Verif.Model.DGP
import Mathlib.Probability.Distributions.Gaussian.Multivariate
import Mathlib.Probability.Distributions.Cauchy
/-
Model of the random draws of dgp.py. A generator call is represented by the distribution of what it returns: the distributions that
NumPy documents for `Generator.normal`, `laplace`, `lognormal`, `standard_cauchy`, `uniform` and `multivariate_normal`. Pseudo-random
numbers are idealised as independent draws.
-/
namespace Spreg.DGPRandom
open Matrix MeasureTheory ProbabilityTheory Spreg

/-- `rng.normal(loc, scale)`: normal with standard deviation `scale`. -/
noncomputable def npNormal (loc scale : ℝ) : Measure ℝ := gaussianReal loc (scale ^ 2).toNNReal

/-- `rng.laplace(loc, scale)`: density `exp(-|x - loc| / scale) / (2 scale)`; the value `loc` for `scale = 0`. -/
noncomputable def npLaplace (loc scale : ℝ) : Measure ℝ :=
  if scale = 0 then Measure.dirac loc
  else volume.withDensity fun x => ENNReal.ofReal (Real.exp (-|x - loc| / scale) / (2 * scale))

/-- `rng.standard_cauchy()`. -/
noncomputable def npCauchy : Measure ℝ := cauchyMeasure 0 1

/-- `rng.lognormal(mean, sigma)`: exponential of a normal draw. -/
noncomputable def npLognormal (mean sigma : ℝ) : Measure ℝ := (npNormal mean sigma).map Real.exp

/-- `rng.uniform(low, high)`: uniform on `[low, high)`; the value `low` when they are equal. -/
noncomputable def npUniform (low high : ℝ) : Measure ℝ :=
  if low = high then Measure.dirac low else (ENNReal.ofReal (high - low))⁻¹ • volume.restrict (Set.Ico low high)

/-- `math.sqrt`. -/
noncomputable def msqrt (v : ℝ) : Py ℝ := if v < 0 then .error .valueError else .ok (Real.sqrt v)

/-- The distribution of one entry of `make_error`, dgp.py:72-89; `none` (printed warning) for an unknown name. -/
noncomputable def errorLaw (mu varu : ℝ) (method : String) : Py (Option (Measure ℝ)) := do
  if method = "normal" then
    let sdu ← msqrt varu
    return some (npNormal mu sdu)
  else if method = "laplace" then
    let sdu ← msqrt (varu / 2)
    return some (npLaplace mu sdu)
  else if method = "cauchy" then return some npCauchy
  else if method = "lognormal" then
    let sdu ← msqrt varu
    return some (npLognormal mu sdu)
  else return none

/-- `make_error(rng, n, mu, varu, method)`, dgp.py:38-89: `size=n` draws. -/
noncomputable def makeError (n : ℕ) (mu varu : ℝ) (method : String) : Py (Option (Measure (Fin n → ℝ))) := do
  let l ← errorLaw mu varu method
  return l.map fun P => Measure.pi fun _ => P

/-- The distribution of one entry of column `i` in the loop of `make_x`, dgp.py:138-147: the mean is not used for the uniform. -/
noncomputable def colLaw (mu varu : ℝ) (method : String) : Py (Measure ℝ) := do
  if method = "uniform" then
    let sdu ← msqrt (12 * varu)
    return npUniform 0 sdu
  else
    let sdu ← msqrt varu
    return npNormal mu sdu

/-- `make_x(rng, n, mu, varu, cor, method)`, dgp.py:129-161, for `method` "uniform" or "normal": the distribution of the array of `n`
rows; `none` when the two lists do not have the same length. The rows are independent and so are the columns. -/
noncomputable def makeX (n : ℕ) (mu varu : List ℝ) (method : String) : Py (Option (Measure (Fin n → Fin mu.length → ℝ))) := do
  if mu.length = varu.length then
    let cols ← (mu.zip varu).mapM fun c => colLaw c.1 c.2 method
    return some (Measure.pi fun _ => Measure.pi fun j => cols.getD j (Measure.dirac 0))
  else return none

/-- The covariance matrix `mcov` of `make_x(method='bivnormal')`, dgp.py:153-154. -/
noncomputable def biCov (v0 v1 cor : ℝ) : Py (Matrix (Fin 2) (Fin 2) ℝ) := do
  let s ← msqrt (v0 * v1)
  return !![v0, cor * s; cor * s, v1]

/-- `make_x(rng, n, mu, varu, cor, method='bivnormal')`, dgp.py:148-156: `none` unless both lists have two entries. Each row is a draw of
`rng.multivariate_normal(mu, mcov)`. -/
noncomputable def makeXBiv (n : ℕ) (mu varu : List ℝ) (cor : ℝ) : Py (Option (Measure (Fin n → EuclideanSpace ℝ (Fin 2)))) := do
  match mu, varu with
  | [m0, m1], [v0, v1] =>
    let S ← biCov v0 v1 cor
    return some (Measure.pi fun _ => multivariateGaussian (WithLp.toLp 2 ![m0, m1]) S)
  | _, _ => return none

end Spreg.DGPRandom
