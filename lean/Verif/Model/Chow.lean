import Verif.Model.Regimes
import Verif.Model.RegimesMat
import Verif.Model.SUR
/-
Model of the Chow tests of regimes.py as they are run, of their use by ThreeSLS and SURlagIV, and of the Wald tests of
diagnostics_sur.py and sur_error.py.
-/
namespace Spreg.Chow
open Matrix Spreg Spreg.Lin Spreg.Regimes Spreg.RegimesMat

/-- `brange`, regimes.py:102-104. -/
def brange (kr nr : ℕ) : List ℕ := (List.range nr).flatMap fun i => List.range' (i * (kr + 1)) kr

/-- `betas[brange, :]`, regimes.py:105: an index outside the array raises IndexError. -/
def takeRows {V : Type} (betas : List V) (idx : List ℕ) : Py (List V) :=
  idx.mapM fun i => match betas[i]? with
    | some v => .ok v
    | none => .error .indexError

/-- regimes.py:97-105: `kf` and `betas` after the adjustment made when the covariance matrix (of size `nv`) does not cover every
coefficient. A negative `kf` makes `np.zeros` raise ValueError (line 380). -/
def adjust {V : Type} (kr kf nr : ℕ) (betas : List V) (nv : ℕ) : Py (ℕ × List V) :=
  if betas.length ≠ nv then
    if kf > 0 then
      if kf + nv < betas.length then .error .valueError
      else .ok (kf + nv - betas.length, betas.take nv)
    else (takeRows betas (brange kr nr)).map fun b => (kf, b)
  else .ok (kf, betas)

/-- `buildR1var(vari, kr, kf, kryd, nr)`, regimes.py:339-380, as a matrix with `nv = kr*nr + kf` columns. -/
def rMat (v kr kryd nr nv : ℕ) : Matrix (Fin (nr - 1)) (Fin nv) ℝ :=
  Matrix.of fun i c => ((buildR1var v kr kryd nr i c : ℤ) : ℝ)

/-- `wald_test` or LinAlgError. -/
noncomputable def waldE {m k : Type} [Fintype m] [Fintype k] [DecidableEq m] (b : k → ℝ) (r : Matrix m k ℝ) (vm : Matrix k k ℝ) : Py ℝ :=
  match waldTest b r 0 vm with
  | some w => .ok w
  | none => .error .linAlgError

/-- A list as a vector. -/
def vec (l : List ℝ) (nv : ℕ) : Fin nv → ℝ := fun c => l.getD c 0

/-- Joint and single statistics. -/
structure ChowRes where
  joint : ℝ
  regi : List ℝ

/-- `_chow_run(kr, kf, kryd, nr, betas, vm)`, regimes.py:96-119, without p-values. Matrices that do not fit raise ValueError, and
so does stacking no matrix (`kr = 0`). -/
noncomputable def chowRun (kr kf kryd nr : ℕ) (betas : List ℝ) {nv : ℕ} (vm : Matrix (Fin nv) (Fin nv) ℝ) : Py ChowRes := do
  let (kf, betas) ← adjust kr kf nr betas nv
  if kr = 0 then .error .valueError
  else if kr * nr + kf ≠ nv ∨ betas.length ≠ nv then .error .valueError
  else
    let b := vec betas nv
    let regi ← (List.range kr).mapM fun v => waldE b (rMat v kr kryd nr nv) vm
    let rGlobal : Matrix (Fin kr × Fin (nr - 1)) (Fin nv) ℝ := Matrix.of fun p c => rMat p.1 kr kryd nr nv p.2 c
    let joint ← waldE b rGlobal vm
    .ok { joint := joint, regi := regi }

/-- `chow_regimes[r]` of `ThreeSLS`, sur.py:935-948, for an equation with `kx` exogenous variables (with the constant) and `ky`
endogenous ones: `len(cols2regi_dic[r]) = kx + ky`, `kryd` is passed as 0. `SUR`, `SURerrorGM` and `SURerrorML` (sur.py:538-545,
sur_error.py:398-405, 889-896) are the case `ky = 0`; `SURlagIV` with `regime_lag_sep=True` and no other endogenous variable
(sur_lag.py:456-468) is the case `ky = 1`. -/
noncomputable def chowThreeSLS (kx ky nr : ℕ) (betas : List ℝ) {nv : ℕ} (vm : Matrix (Fin nv) (Fin nv) ℝ) : Py ChowRes :=
  chowRun (kx + ky) 0 0 nr betas vm

/-- The columns of an equation of `ThreeSLS` with regimes: `bigZ[r] = sphstack(bigX[r], bigyend[r])`, sur.py:616-617, where both
have been expanded by `Regimes_Frame`, sur.py:889-914. -/
def threeSLSColumns {L V : Type} [DecidableEq L] [Zero V] (xcols ycols : List (List V)) (regimes rs : List L) : List (List V) :=
  x2xspCols xcols regimes rs ++ x2xspCols ycols regimes rs

/-- `sur_chow(n_eq, bigK, bSUR, varb)`, diagnostics_sur.py:268-308; `kr` is `bigK[0][0]`, `bb` the stacked coefficients. -/
noncomputable def surChow (neq kr : ℕ) (bb : List ℝ) {nv : ℕ} (varb : Matrix (Fin nv) (Fin nv) ℝ) : Py (List ℝ) :=
  if kr * neq ≠ nv ∨ bb.length ≠ nv then .error .valueError
  else (List.range kr).mapM fun i => waldE (vec bb nv) (rMat i kr 0 neq nv) varb

/-- `R` of `sur_joinrho`, diagnostics_sur.py:335-341: entry `(i, kc)` is 1 where `kc = bigK[0] + .. + bigK[i] - 1`. (Where `bigK[0]`
is 0 `kc` is -1, the last column in Python; every equation has coefficients here.) -/
def joinR (bigK : List ℕ) (nv : ℕ) : Matrix (Fin bigK.length) (Fin nv) ℝ :=
  Matrix.of fun i c => if c.1 + 1 = (bigK.take (i + 1)).sum then 1 else 0

/-- `sur_joinrho(n_eq, bigK, bSUR, varb)`, diagnostics_sur.py:311-343, without the p-value. -/
noncomputable def surJoinrho (bigK : List ℕ) (bb : List ℝ) {nv : ℕ} (varb : Matrix (Fin nv) (Fin nv) ℝ) : Py ℝ :=
  if bb.length ≠ nv then .error .valueError
  else if nv < bigK.sum then .error .indexError
  else waldE (vec bb nv) (joinR bigK nv) varb

/-- `lamtest` of SURerrorGM/ML, sur_error.py:857-860: `buildR(kr=1, kf=0, nr=n_eq)` is `buildR1var(0, 1, 0, 0, n_eq)`. -/
noncomputable def lamTest {neq : ℕ} (lam : Fin neq → ℝ) (vlam : Matrix (Fin neq) (Fin neq) ℝ) : Py ℝ :=
  waldE lam (rMat 0 1 0 neq neq) vlam

/-- `joinlam`, sur_error.py:861-866. -/
noncomputable def joinLam {neq : ℕ} (lam : Fin neq → ℝ) (vlam : Matrix (Fin neq) (Fin neq) ℝ) : Py ℝ :=
  waldE lam (1 : Matrix (Fin neq) (Fin neq) ℝ) vlam

end Spreg.Chow
