import Verif.Model.Chow
import Verif.Model.Diagnostics
/-
`OLS_Regimes` estimated jointly with one error variance, and its Chow tests.
-/
namespace Spreg.OLSChow
open Matrix Spreg Spreg.Lin

variable {n : Type} [Fintype n] [DecidableEq n]

/-- `OLS_Regimes(..., regime_err_sep=False)`, ols_regimes.py:497-529, up to `self.chow = REGI.Chow(self)`: `BaseOLS` on the design `x` (the one
of `Regimes_Frame`, with `kr` coefficients in each of `nr` regimes and then `kf` common ones; names of columns and warnings are not modelled),
its variance matrix with `n - k` (`sig2n_k=True`, no `robust`), and `_chow_run` (regimes.py:96-119) with `kryd = 0`. -/
noncomputable def olsChow (kr kf nr : ℕ) {nv : ℕ} (x : Matrix n (Fin nv) ℝ) (y : n → ℝ) : Py Chow.ChowRes :=
  match ols x y with
  | none => .error .linAlgError
  | some f => Chow.chowRun kr kf 0 nr (List.ofFn f.betas) (vmClassic (sig2nk f.u nv) f.xtxi)

end Spreg.OLSChow
