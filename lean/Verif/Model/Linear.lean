import Mathlib.LinearAlgebra.Matrix.NonsingularInverse
import Mathlib.LinearAlgebra.Matrix.DotProduct
import Mathlib.Data.Matrix.ColumnRowPartitioned
import Mathlib.Data.Real.Basic
/-
Model of the linear estimators: ols.py, twosls.py, robust.py, parts of utils.py.

Vectors (`n × 1` arrays) are functions `n → ℝ`; observations are indexed by an arbitrary finite type `n`,
regressors by `k`. Arithmetic is exact. `la.inv` is `inv?`: `none` stands for `LinAlgError`.
-/
namespace Spreg.Lin
open Matrix

variable {n k l m : Type} [Fintype n] [Fintype k] [Fintype l] [Fintype m]

open Classical in
/-- `numpy.linalg.inv`: raises `LinAlgError` (here `none`) on a singular matrix. -/
noncomputable def inv? {n : Type} [Fintype n] [DecidableEq n] (A : Matrix n n ℝ) :
    Option (Matrix n n ℝ) :=
  if IsUnit A.det then some A⁻¹ else none

/-- The attributes set by `BaseOLS.__init__`, ols.py:103-118. -/
structure OLSFit (n k : Type) where
  xtx : Matrix k k ℝ
  xtxi : Matrix k k ℝ
  betas : k → ℝ
  predy : n → ℝ
  u : n → ℝ

/-- ols.py:104-118 given the (pseudo)inverse of `x'x`. -/
def olsWith (x : Matrix n k ℝ) (y : n → ℝ) (xtxi : Matrix k k ℝ) : OLSFit n k :=
  let xty := xᵀ *ᵥ y
  let betas := xtxi *ᵥ xty
  let predy := x *ᵥ betas
  { xtx := xᵀ * x, xtxi := xtxi, betas := betas, predy := predy, u := y - predy }

/-- `BaseOLS(y, x)` with `pinv=False`, ols.py:102-118. -/
noncomputable def ols [DecidableEq k] (x : Matrix n k ℝ) (y : n → ℝ) : Option (OLSFit n k) :=
  (inv? (xᵀ * x)).map (olsWith x y)

/-- `utu`, utils.py:108-117. -/
def utu (u : n → ℝ) : ℝ := ∑ i, u i ^ 2

/-- `sig2n`, utils.py:129-138. -/
noncomputable def sig2n (u : n → ℝ) : ℝ := utu u / Fintype.card n

/-- `sig2n_k`, utils.py:150-159, with `k` regressors; the model is only used for `k < n`
(NumPy returns inf/nan for `k = n`). -/
noncomputable def sig2nk (u : n → ℝ) (k : ℕ) : ℝ := utu u / ((Fintype.card n : ℝ) - k)

/-- `vm` of a non-robust regression, utils.py:171-180: `sig2 * xtxi`. -/
noncomputable def vmClassic (sig2 : ℝ) (xtxi : Matrix k k ℝ) : Matrix k k ℝ := sig2 • xtxi

/-- `P` is a pseudo-inverse as far as `BaseWLS` needs it: one of the Penrose equations that
`numpy.linalg.pinv` satisfies in exact arithmetic. -/
def IsGInv (A P : Matrix k k ℝ) : Prop := A * P * A = A

/-- Fit of `BaseWLS`, ols.py:575-586: OLS (with a pseudo-inverse `P` of the weighted cross product) on
data multiplied rowwise by `sqrt(w)`, then `predy` and `u` recomputed on the original data. `wsqrt` is
`np.sqrt(w)`. The first component is the inner (weighted) fit, whose `utu` stays cached. -/
def wls (x : Matrix n k ℝ) (y wsqrt : n → ℝ) (P : Matrix k k ℝ) : OLSFit n k × OLSFit n k :=
  let xw : Matrix n k ℝ := Matrix.of fun i j => x i j * wsqrt i
  let yw : n → ℝ := fun i => y i * wsqrt i
  let inner := olsWith xw yw P
  let predy := x *ᵥ inner.betas
  (inner, { inner with predy := predy, u := y - predy })

/-! ### Two-stage least squares -/

/-- Attributes of `BaseTSLS`. -/
structure TSLSFit (n k l : Type) where
  betas : k → ℝ
  predy : n → ℝ
  u : n → ℝ
  hthi : Matrix l l ℝ
  varb : Matrix k k ℝ
  zthhthi : Matrix k l ℝ

/-- Core of `BaseTSLS.__init__`, twosls.py:159-193, from regressors `z` and instruments `h`. Both failing
inversions re-raise a bare `Exception`, here `none`. -/
noncomputable def tslsZH [DecidableEq k] [DecidableEq l] (z : Matrix n k ℝ) (h : Matrix n l ℝ) (y : n → ℝ) :
    Option (TSLSFit n k l) :=
  (inv? (hᵀ * h)).bind fun hthi =>
    let zth := zᵀ * h
    let hty := hᵀ *ᵥ y
    let f1 := zth * hthi
    let f2 := f1 * zthᵀ
    (inv? f2).map fun varb =>
      let f3 := varb * f1
      let betas := f3 *ᵥ hty
      let predy := z *ᵥ betas
      { betas := betas, predy := predy, u := y - predy, hthi := hthi, varb := varb, zthhthi := f1 }

variable {kx ke kq : Type} [Fintype kx] [Fintype ke] [Fintype kq]

/-- `BaseTSLS(y, x, yend, q)`, twosls.py:149-152: `z = [x, yend]`, `h = [x, q]`. -/
noncomputable def tsls [DecidableEq kx] [DecidableEq ke] [DecidableEq kq]
    (x : Matrix n kx ℝ) (yend : Matrix n ke ℝ) (q : Matrix n kq ℝ) (y : n → ℝ) :
    Option (TSLSFit n (kx ⊕ ke) (kx ⊕ kq)) :=
  tslsZH (fromCols x yend) (fromCols x q) y

/-! ### Robust variance -/

/-- `spbroadcast(x, u)`, sputils.py:124-159: row `i` of `x` times `u_i`. -/
def broadcast (x : Matrix n k ℝ) (u : n → ℝ) : Matrix n k ℝ := Matrix.of fun i j => x i j * u i

/-- `psi0` without kernel, robust.py:112-114. `dof` is `some k` when `sig2n_k` is set. -/
noncomputable def psi0White (x : Matrix n k ℝ) (u : n → ℝ) (dof : Option ℕ) : Matrix k k ℝ :=
  let xu := broadcast x u
  match dof with
  | none => xuᵀ * xu
  | some kk => ((1.0 * (Fintype.card n : ℝ)) / ((Fintype.card n : ℝ) - kk)) • (xuᵀ * xu)

/-- `psi0` with kernel weights `gwk`, robust.py:108-110. -/
def psi0HAC (x : Matrix n k ℝ) (u : n → ℝ) (gwk : Matrix n n ℝ) : Matrix k k ℝ :=
  let xu := broadcast x u
  xuᵀ * (gwk * xu)

/-- Final sandwich of the OLS branch, robust.py:119. -/
def sandwichOLS (xtxi psi0 : Matrix k k ℝ) : Matrix k k ℝ := xtxi * (psi0 * xtxi)

/-- Final sandwich of the 2SLS branch, robust.py:115-117. -/
def sandwichTSLS (varb : Matrix k k ℝ) (zthhthi : Matrix k l ℝ) (psi0 : Matrix l l ℝ) :
    Matrix k k ℝ :=
  let psi1 := varb * zthhthi
  psi1 * (psi0 * psi1ᵀ)

end Spreg.Lin
