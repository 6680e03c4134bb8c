import Verif.Model.GMIter
import Mathlib.Analysis.SpecialFunctions.Pow.Real
/-
Model of `BaseGM_Endog_Error` (the estimator of `GM_Endog_Error` and `GM_Combo`) and of `optim_moments` for two moment
equations up to the call of the optimiser.
-/
namespace Spreg.GM
open Matrix Spreg.Lin

variable {n k l : Type} [Fintype n] [Fintype k] [Fintype l]

/-- `BaseGM_Endog_Error.__init__`, error_sp.py:415-441, from regressors `z` and instruments `h` (the first stage sets
`tsls.h`, the second stage uses the same `h` for the filtered regressors). `opt` is `optim_moments`. -/
noncomputable def gmEndogError [DecidableEq k] [DecidableEq l] (opt : Moments (Fin 3) (Fin 3) → Py ℝ) (W : Matrix n n ℝ)
    (z : Matrix n k ℝ) (h : Matrix n l ℝ) (y : n → ℝ) : Py (GMErrorFit n k) := do
  let t ← tslsE z h y
  let lam ← opt (momentsGM W t.u)
  let t2 ← tslsE (spFilterM W lam z) h (spFilter W lam y)
  let predy := z *ᵥ t2.betas
  let u := y - predy
  return { betas := t2.betas, lam := lam, predy := predy, u := u, eFiltered := u - (lam • W) *ᵥ u,
           sig2 := (t2.u ⬝ᵥ t2.u) / N n, vm := ((t2.u ⬝ᵥ t2.u) / N n) • t2.varb }

/-- `numpy.linalg.cholesky` of a 2 by 2 matrix: the lower triangular factor; LinAlgError if a pivot is not positive. Only
the lower triangle is read. -/
noncomputable def chol2 (A : Matrix (Fin 2) (Fin 2) ℝ) : Py (Matrix (Fin 2) (Fin 2) ℝ) :=
  let a := Real.sqrt (A 0 0)
  let b := A 1 0 / a
  if A 0 0 ≤ 0 ∨ A 1 1 - b ^ 2 ≤ 0 then .error .linAlgError
  else .ok !![a, 0; b, Real.sqrt (A 1 1 - b ^ 2)]

/-- `np.min` of both moment arrays, utils.py:363. -/
noncomputable def momScale (M : Moments (Fin 2) (Fin 2)) : ℝ :=
  min (min (min (M.G 0 0) (M.G 0 1)) (min (M.G 1 0) (M.G 1 1))) (min (M.g 0) (M.g 1))

open Classical in
/-- `optim_moments(moments, vcX, hard_bound=hb)` for two equations, utils.py:357-395: weighting, rescaling, then
`fmin_l_bfgs_b` on the objective of the rescaled moments, which is the parameter `fmin`. A scale of zero (division by zero: NumPy
gives `nan`, on which the optimiser ends with an unspecified value) is passed to `fmin` as it is, with `x / 0 = 0`. -/
noncomputable def optimMoments (fmin : Moments (Fin 2) (Fin 2) → ℝ) (hb : Bool) (M : Moments (Fin 2) (Fin 2))
    (vcX : Option (Matrix (Fin 2) (Fin 2) ℝ)) : Py ℝ := do
  let Mw ← match vcX with
    | none => .ok M
    | some V =>
      if V = 0 then .ok M                                     -- `vcX.any()`
      else do
        let Vi ← invE V
        let L ← chol2 Vi
        .ok (weight M Lᵀ)
  let lam := fmin (rescale Mw (momScale Mw))
  if hb ∧ 99 / 100 ≤ |lam| then .error .exception else .ok lam

end Spreg.GM
