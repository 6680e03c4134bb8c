import Verif.Model.ML
import Verif.Model.Impacts
/-
Model of `BaseML_Lag.__init__` and `BaseML_Error.__init__` as a whole, from the pieces of `Model/ML.lean` and
`Model/Impacts.lean`. The optimiser is not modelled: `rho`, `lam` are its result and `jac` the Jacobian term there.
-/
namespace Spreg.ML
open Matrix Spreg Spreg.Lin Spreg.Impacts

variable {n k : Type} [Fintype n] [Fintype k] [DecidableEq n] [DecidableEq k]

/-- A singular matrix: LinAlgError. -/
def orLinAlg {α : Type} (o : Option α) : Py α :=
  match o with
  | some a => .ok a
  | none => .error .linAlgError

/-- The objective that `minimize_scalar` minimises, ml_lag.py:700-742, as a function of `rho`. -/
noncomputable def lagObj (p : LagPre n k) (jac : ℝ → ℝ) (rho : ℝ) : ℝ := lagCLoglik p rho (jac rho)

/-- What `BaseML_Lag` reports: fit, reduced-form predictions `predy_e`, covariance matrix `vm1`. -/
structure LagAll (n k : Type) where
  fit : LagFit n k
  predyE : n → ℝ
  vm1 : Matrix (k ⊕ (Unit ⊕ Unit)) (k ⊕ (Unit ⊕ Unit)) ℝ

/-- `vm1` of `BaseML_Lag`, ml_lag.py:287-316, for reduced-form predictions `predyE`. -/
noncomputable def lagVm1 (x : Matrix n k ℝ) (W : Matrix n n ℝ) (rho sig2 : ℝ) (predyE : n → ℝ) :
    Option (Matrix (k ⊕ (Unit ⊕ Unit)) (k ⊕ (Unit ⊕ Unit)) ℝ) :=
  (traces W rho).bind fun t => inv? (lagInfo x (W *ᵥ predyE) sig2 t)

/-- `BaseML_Lag.__init__`, ml_lag.py:195-316. -/
noncomputable def mlLag (y : n → ℝ) (x : Matrix n k ℝ) (W : Matrix n n ℝ) (rho jac epsilon : ℝ) : Py (LagAll n k) := do
  let p ← orLinAlg (lagPre y x W)
  let f := lagFit p y rho jac
  let predyE ← inverseProd W (x *ᵥ f.b) rho false .powerExp epsilon none
  let vm1 ← orLinAlg (lagVm1 x W rho f.sig2 predyE)
  return { fit := f, predyE := predyE, vm1 := vm1 }

/-- The objective of `BaseML_Error`, ml_error.py:545-635, as a function of `lam`; `none` for a singular matrix. -/
noncomputable def errObj (y : n → ℝ) (x : Matrix n k ℝ) (W : Matrix n n ℝ) (jac : ℝ → ℝ) (lam : ℝ) : Option ℝ :=
  let ys := y - lam • (W *ᵥ y)
  let xs := x - lam • (W * x)
  (inv? (xsᵀ * xs)).map fun xsxsi => (Fintype.card n : ℝ) / 2 * Real.log (errSig2 xsxsi xs ys) - jac lam

/-- `vm` of `BaseML_Error`, ml_error.py:256-281. -/
noncomputable def mlErrVm (W : Matrix n n ℝ) (f : ErrFit n k) : Option (Matrix (k ⊕ Unit) (k ⊕ Unit) ℝ) :=
  (traces W f.lam).bind fun t => errVm (Fintype.card n) f.sig2 f.xsxsi t

end Spreg.ML
