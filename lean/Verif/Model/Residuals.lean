import Verif.Model.Cache
import Verif.Model.OptGMM
/-
Model of what the constructors do with the lazily computed residual statistics of `Verif.Model.Cache`.
-/
namespace Spreg.Cache
open Matrix Spreg.Lin
variable {n k : Type} [Fintype n]

/-- The end of `BaseOLS.__init__`, ols.py:114-128, and of `BaseTSLS.__init__`, twosls.py:186-203: `b` holds the attributes set before;
`self.sig2` is a first read of `sig2n_k` or `sig2n`; a robust variance is assigned. (BaseTSLS assigns it before the read, which makes
no difference to the results; for it `xtxi` stands for `varb`, twosls.py:211-219.) -/
noncomputable def initReg (b : Base n k) (s : Bool) (robust : Option (Matrix k k ℝ)) : Obj n k :=
  let key : Key := if s then .sig2n_k else .sig2n
  let v : ℝ := if s then (get (fresh b) .sig2n_k).1 else (get (fresh b) .sig2n).1
  let o := (get (fresh b) key).2
  let o := { o with base := { o.base with sig2 := v } }
  match robust with
  | some vm => o.put .vm vm
  | none => o

/-- `RegressionProps_basic(reg, betas=..., vm=vm)`, utils.py:791-815: new residuals, `sig2` from them (or the given one), new variance. -/
noncomputable def propsBasic (o : Obj n k) (u : n → ℝ) (sig2 : Option ℝ) (vm : Matrix k k ℝ) : Obj n k :=
  let s2 := match sig2 with | some s => s | none => (∑ i, u i ^ 2) / o.base.nobs
  Obj.put { o with base := { o.base with u := u, sig2 := s2 } } .vm vm

/-- `OLS_Regimes` with groupwise heteroskedasticity, ols_regimes.py:506-512: least squares (`b`), then the coefficients of the weighted
data with residuals `u` and variance `vm`. -/
noncomputable def groupwise (b : Base n k) (s : Bool) (u : n → ℝ) (vm : Matrix k k ℝ) : Obj n k :=
  propsBasic (initReg b s none) u none vm

/-- Two-stage least squares, then `_optimal_weight`, twosls_regimes.py:443-453, 719: `sig2=False`, which is 0 in arithmetic. -/
noncomputable def optimal (b : Base n k) (s : Bool) (f : OptGMM.Fit n k) : Obj n k :=
  propsBasic (initReg b s (some f.vm)) f.u (some (f.sig2.getD 0)) f.vm

/-- The classes with one equation per regime set `u`, `n`, `k` and read nothing: ols_regimes.py:611-680, twosls_regimes.py:547-620,
twosls_sp_regimes.py:770-850, ml_lag_regimes.py:550-600, error_sp_regimes.py:438-480. -/
def assembled (b : Base n k) : Obj n k := fresh b

end Spreg.Cache
