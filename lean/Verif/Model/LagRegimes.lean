import Verif.Model.RegimesMat
/-
Model of the spatial lag model with `regime_lag_sep=True` and `regime_err_sep=False`, twosls_sp_regimes.py `GM_Lag_Regimes`,
and of `GM_Lag` for the same data.
-/
namespace Spreg.LagReg
open Matrix Spreg Spreg.Lin Spreg.RegimesMat

variable {n kx ke kq ρ : Type} [Fintype n] [Fintype kx] [Fintype ke] [Fintype kq] [DecidableEq n]

/-- Columns of the lagged variables in `set_endog`, utils.py:689-692: `x`, and `q` with `lag_q`. -/
abbrev LagCol (kx kq : Type) (lagQ : Bool) := kx ⊕ {_c : kq // lagQ = true}

instance (kx kq : Type) [DecidableEq kx] [DecidableEq kq] (lagQ : Bool) : DecidableEq (LagCol kx kq lagQ) :=
  inferInstanceAs (DecidableEq (_ ⊕ _))

/-- `lag_vars`, utils.py:685-692. -/
def lagVars (x : Matrix n kx ℝ) (q : Matrix n kq ℝ) (lagQ : Bool) : Matrix n (LagCol kx kq lagQ) ℝ :=
  fromCols x (q.submatrix id Subtype.val)

/-- `get_lags(w, lag_vars, w_lags)`, utils.py:493-505 (see also `Lags.getLags`): `[W v, W^2 v, ...]`. -/
def lags {c : Type} (W : Matrix n n ℝ) (v : Matrix n c ℝ) (L : ℕ) : Matrix n (c × Fin L) ℝ :=
  Matrix.of fun i p => (W ^ (p.2.1 + 1) * v) i p.1

/-- Regressors of a spatial lag model: constant, `x`, `yend` and `W y`; utils.py:680-707, twosls.py:149. -/
def lagZ (W : Matrix n n ℝ) (x : Matrix n kx ℝ) (yend : Matrix n ke ℝ) (y : n → ℝ) :
    Matrix n ((Unit ⊕ kx) ⊕ (ke ⊕ Unit)) ℝ :=
  fromCols (fromCols (Matrix.of fun _ _ => 1) x) (fromCols yend (Matrix.of fun i _ => (W *ᵥ y) i))

/-- Instruments of a spatial lag model: constant, `x`, `q` and the lags; utils.py:680-707, twosls.py:152. -/
def lagH (W : Matrix n n ℝ) (x : Matrix n kx ℝ) (q : Matrix n kq ℝ) (L : ℕ) (lagQ : Bool) :
    Matrix n ((Unit ⊕ kx) ⊕ (kq ⊕ LagCol kx kq lagQ × Fin L)) ℝ :=
  fromCols (fromCols (Matrix.of fun _ _ => 1) x) (fromCols q (lags W (lagVars x q lagQ) L))

variable [DecidableEq kx] [DecidableEq ke] [DecidableEq kq]

/-- `BaseGM_Lag` without `slx_lags`, twosls_sp.py:187-198. -/
noncomputable def gmLag (W : Matrix n n ℝ) (x : Matrix n kx ℝ) (yend : Matrix n ke ℝ) (q : Matrix n kq ℝ) (y : n → ℝ)
    (L : ℕ) (lagQ : Bool) :
    Option (TSLSFit n ((Unit ⊕ kx) ⊕ (ke ⊕ Unit)) ((Unit ⊕ kx) ⊕ (kq ⊕ LagCol kx kq lagQ × Fin L))) :=
  tslsZH (lagZ W x yend y) (lagH W x q L lagQ) y

/-- `GM_Lag_Regimes.__init__` with `regime_lag_sep=True`, `regime_err_sep=False` and everything varying by regimes,
twosls_sp_regimes.py:550-629 and twosls_regimes.py:413-444: `W` is the matrix of `w_regimes_union`; regressors and
instruments are framed by regimes. The columns are indexed by `(variable, regime)` instead of a number. -/
noncomputable def gmLagRegimes [Fintype ρ] [DecidableEq ρ] (g : n → ρ) (W : Matrix n n ℝ) (x : Matrix n kx ℝ)
    (yend : Matrix n ke ℝ) (q : Matrix n kq ℝ) (y : n → ℝ) (L : ℕ) (lagQ : Bool) :
    Option (TSLSFit n (((Unit ⊕ kx) ⊕ (ke ⊕ Unit)) × ρ) (((Unit ⊕ kx) ⊕ (kq ⊕ LagCol kx kq lagQ × Fin L)) × ρ)) :=
  tslsZH (expand (lagZ W x yend y) g) (expand (lagH W x q L lagQ) g) y

/-- The weights of one regime: `w_i[r].sparse`. -/
def subW (g : n → ρ) (W : Matrix n n ℝ) (r : ρ) : Matrix {i // g i = r} {i // g i = r} ℝ :=
  Matrix.of fun i j => W i.1 j.1

end Spreg.LagReg
