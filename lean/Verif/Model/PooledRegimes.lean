import Verif.Model.Chow
import Verif.Model.GMIter
import Mathlib.Data.Matrix.ColumnRowPartitioned
import Mathlib.Logic.Equiv.Fin.Basic
/-
Model of the one-equation branch of OLS_Regimes and of TSLS_Regimes as a whole: from labels and columns to results.
-/
namespace Spreg.Pooled
open Matrix Spreg Spreg.Lin Spreg.Regimes Spreg.RegimesMat Spreg.Chow

/-- The argument `robust` of `OLS_Regimes`; `hac` comes with the kernel weights. -/
inductive Robust (n : Type)
  | none'
  | white
  | hac (gwk : Matrix n n ℝ)

/-- Attributes of a regression. -/
structure Est (n k : Type) where
  betas : k → ℝ
  vm : Matrix k k ℝ
  u : n → ℝ
  predy : n → ℝ
  sig2 : ℝ

section
variable {n k l L : Type} [Fintype n] [Fintype k] [Fintype l] [DecidableEq k] [DecidableEq l] [DecidableEq L]

/-- `sig2`, ols.py:120-123, with `k` coefficients. -/
noncomputable def s2 (sig2nk : Bool) (kk : ℕ) (u : n → ℝ) : ℝ := if sig2nk then Lin.sig2nk u kk else sig2n u

/-- `vm` of `BaseOLS`, ols.py:125-126, utils.py:171-180, robust.py:101-119. -/
noncomputable def vmOLS (rob : Robust n) (sig2nk : Bool) (Z : Matrix n k ℝ) (o : OLSFit n k) : Matrix k k ℝ :=
  match rob with
  | .none' => s2 sig2nk (Fintype.card k) o.u • o.xtxi
  | .white => sandwichOLS o.xtxi (psi0White Z o.u (if sig2nk then some (Fintype.card k) else none))
  | .hac gwk => sandwichOLS o.xtxi (psi0HAC Z o.u gwk)

/-- ols_regimes.py:506-518: `BaseOLS` on the expanded design and, with `regime_err_sep=True` and no robust option, the second
regression with every observation divided by the standard deviation of its regime. `RegressionProps_basic`, utils.py:791-815,
gets no `sig2n_k`, so `sig2` is then `u'u/n`. A regime without residual variance (a division by zero in NumPy) is outside the
model. -/
noncomputable def olsStep (g : n → L) (Z : Matrix n k ℝ) (y : n → ℝ) (rob : Robust n) (sig2nk errSep : Bool) :
    Py (Est n k) := do
  let o ← GM.olsE Z y
  match rob, errSep with
  | .none', true =>
    let yx := groupWeighted Z y o.u g sig2nk (Fintype.card k)
    let o2 ← GM.olsE yx.2 yx.1
    let predy := Z *ᵥ o2.betas
    return ⟨o2.betas, s2 sig2nk (Fintype.card k) o2.u • o2.xtxi, y - predy, predy, sig2n (y - predy)⟩
  | _, _ => return ⟨o.betas, vmOLS rob sig2nk Z o, o.u, o.predy, s2 sig2nk (Fintype.card k) o.u⟩

/-- `BaseTSLS` on the expanded regressors and instruments, twosls_regimes.py:444-446, twosls.py:144-210, for `robust=None` and
`robust="white"`. -/
noncomputable def tslsStep (Z : Matrix n k ℝ) (H : Matrix n l ℝ) (y : n → ℝ) (white sig2nk : Bool) : Py (Est n k) := do
  let f ← GM.tslsE Z H y
  let vm := if white then
      sandwichTSLS f.varb f.zthhthi (psi0White H f.u (if sig2nk then some (Fintype.card k) else none))
    else s2 sig2nk (Fintype.card k) f.u • f.varb
  return ⟨f.betas, vm, f.u, f.predy, s2 sig2nk (Fintype.card k) f.u⟩

end

/-- A list of columns as a matrix. -/
def mat (n nv : ℕ) (cols : List (List ℝ)) : Matrix (Fin n) (Fin nv) ℝ := Matrix.of fun i c => (cols.getD c []).getD i 0

/-- Attributes of the object: the regimes in the order of the output, the list of coefficients and their covariances by position. -/
structure Result (n : ℕ) (L : Type) where
  rs : List L
  betas : List ℝ
  vm : ℕ → ℕ → ℝ
  u : Fin n → ℝ
  predy : Fin n → ℝ
  sig2 : ℝ
  chow : ChowRes

/-- The result from the estimates and the Chow tests, regimes.py:82-93 (`kryd` is 0 for OLS). -/
noncomputable def finish {n nv : ℕ} {L : Type} (rs : List L) (kr kf kryd nr : ℕ) (est : Est (Fin n) (Fin nv)) :
    Py (Result n L) := do
  let c ← chowRun kr kf kryd nr (List.ofFn est.betas) est.vm
  return ⟨rs, List.ofFn est.betas, fun a b => if h : a < nv ∧ b < nv then est.vm ⟨a, h.1⟩ ⟨b, h.2⟩ else 0, est.u, est.predy,
    est.sig2, c⟩

/-- ols_regimes.py:496-535 with the list of `nr` regimes, `kr` varying and `kf` other columns: `Regimes_Frame` (regimes.py:219-273), the regression, the Chow tests. -/
noncomputable def olsWith {n : ℕ} {L : Type} [DecidableEq L] (kr kf nr : ℕ) (rs : List L) (lab : Fin n → L)
    (cols : List (List ℝ)) (mask : List Bool) (y : Fin n → ℝ) (rob : Robust (Fin n)) (sig2nk errSep : Bool) :
    Py (Result n L) := do
  let est ← olsStep lab (mat n (kr * nr + kf) (regimeXsetup cols (List.ofFn lab) mask rs)) y rob sig2nk errSep
  finish rs kr kf 0 nr est

/-- `OLS_Regimes` when the coefficients are estimated in one equation, ols_regimes.py:463-535: the set of regimes
(regimes.py:693-701), `check_regimes` (user_output.py:817-840) and the estimation. `cols` are the columns with the constant first,
`mask` says which vary over regimes (`constant_regi` and `cols2regi`). -/
noncomputable def olsPooled {n : ℕ} {L : Type} [DecidableEq L] (le : L → L → Prop) [DecidableRel le] (lab : Fin n → L)
    (cols : List (List ℝ)) (mask : List Bool) (y : Fin n → ℝ) (rob : Robust (Fin n)) (sig2nk errSep : Bool) :
    Py (Result n L) := do
  let rs ← regimesSet le (List.ofFn lab)
  if rs.length < 2 then .error .exception
  else if n < cols.length * rs.length then .error .exception
  else olsWith (select mask true cols).length (select mask false cols).length rs.length rs lab cols mask y rob sig2nk errSep

/-- `TSLS_Regimes` in one equation, twosls_regimes.py:385-446, up to the Chow tests: the exogenous columns (constant first) and the
endogenous ones expanded according to their masks, the additional instruments all expanded, then two-stage least squares. The
coefficients are kept in two groups, as in the output. `a`, `b`, `c` are the numbers of columns of the three designs. -/
noncomputable def tslsWith {n : ℕ} {L : Type} [DecidableEq L] (a b c : ℕ) (rs : List L) (lab : Fin n → L)
    (xcols ycols qcols : List (List ℝ)) (maskx masky : List Bool) (y : Fin n → ℝ) (white sig2nk : Bool) :
    Py (Est (Fin n) (Fin a ⊕ Fin b)) :=
  let X := mat n a (regimeXsetup xcols (List.ofFn lab) maskx rs)
  let Y := mat n b (regimeXsetup ycols (List.ofFn lab) masky rs)
  let Q := mat n c (regimeXsetup qcols (List.ofFn lab) (List.replicate qcols.length true) rs)
  tslsStep (fromCols X Y) (fromCols X Q) y white sig2nk

/-- The Chow tests of `TSLS_Regimes` when every coefficient varies (with fixed ones see C63): `kryd` endogenous variables. -/
noncomputable def tslsChow {n a b : ℕ} (krx kryd nr : ℕ) (est : Est (Fin n) (Fin a ⊕ Fin b)) : Py ChowRes :=
  chowRun (krx + kryd) 0 kryd nr (List.ofFn fun c => est.betas (finSumFinEquiv.symm c))
    (est.vm.submatrix finSumFinEquiv.symm finSumFinEquiv.symm)

end Spreg.Pooled
