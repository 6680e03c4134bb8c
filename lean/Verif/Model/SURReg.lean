import Verif.Model.Chow
import Verif.Model.Checks
/-
Model of the constructors of `SUR`, `SURerrorGM` and `SURerrorML` with regimes (sur.py:430-555, sur_error.py:330-416, 778-906): the
names and designs of the equations, the dictionary `bigX` of the caller, the estimation by `BaseSUR`, the Chow tests within equations and
their table. The dictionaries have the keys `0, ..., ne - 1` and are functions on `Fin ne`.
-/
namespace Spreg.SURReg
open Matrix Spreg Spreg.Lin Spreg.Regimes

variable {L : Type} [DecidableEq L] {ne : ℕ}

/-- A value of `bigX`: a NumPy array, or a SciPy csr matrix (`sparse`), by columns. -/
structure Arr where
  sparse : Bool
  cols : List (List ℝ)

/-- The generic names of the regressors of an equation, sur.py:449-453 (`off = 0`) and sur_error.py:345-349, 793-797 (`off = 1`). -/
def genericX (off k r : ℕ) : List String :=
  ("Constant_" ++ toString (r + off)) ::
    (List.range (k - 1)).map fun i => "var_" ++ toString (i + 1) ++ "_" ++ toString (r + off)

/-- `name_bigX`, sur.py:446-453. -/
def namesX (off : ℕ) (nameX : Option (Fin ne → List String)) (X : Fin ne → Arr) (r : Fin ne) : List String :=
  match nameX with
  | some f => f r
  | none => genericX off (X r).cols.length r

/-- `Regimes_Frame.__init__` (regimes.py:219-273) with `constant_regi=None` and every column varying: `x.flatten()` in `x2xsp` (line 634)
does not exist for a csr matrix; line 242 catches the `AttributeError` once and the second attempt raises it again. One name per column. -/
def frame (str : L → String) (regimes rs : List L) (x : Arr) (nm : List String) : Py (Arr × List String) :=
  if x.sparse then .error .attributeError
  else
    let c2 := List.replicate x.cols.length true
    .ok (⟨true, regimeXsetup x.cols regimes c2 rs⟩, (setNameXRegimes str nm c2 rs (List.replicate x.cols.length VType.x)).1)

/-- One pass of the loop over equations, sur.py:464-476 (`check_cols2regi` accepts "all"); `nobs` is `bigy[0].shape[0]`. -/
noncomputable def step (str : L → String) (nobs : ℕ) (regimes rs : List L) (X : Fin ne → Arr) (nm : Fin ne → List String) (r : Fin ne) :
    Py (Arr × List String) := do
  let _ ← Chk.checkRegimes rs.length nobs (X r).cols.length
  frame str regimes rs (X r) (nm r)

/-- What the estimation receives, and the attributes used by the tests and tables. -/
structure Design (ne : ℕ) where
  X : Fin ne → Arr
  nameX : Fin ne → List String
  /-- `name_x_r` -/
  nameXr : Fin ne → List String
  /-- `self.kr`: set anew by `Regimes_Frame` for every equation, regimes.py:255 -/
  kr : ℕ
  nr : ℕ

/-- sur.py:455-478. Without regimes the dictionaries are used as they are. -/
noncomputable def stage (le : L → L → Prop) [DecidableRel le] (str : L → String) (nobs off : ℕ) (regimes : Option (List L))
    (X : Fin ne → Arr) (nameX : Option (Fin ne → List String)) : Py (Design ne) :=
  let nm := namesX off nameX X
  match regimes with
  | none => .ok ⟨X, nm, nm, 0, 0⟩
  | some regs => do
    let rs ← regimesSet le regs
    let l ← (List.finRange ne).mapM (step str nobs regs rs X nm)
    .ok { X := fun r => (l.getD r (X r, [])).1
          nameX := fun r => (l.getD r (X r, [])).2
          nameXr := nm
          kr := match (List.finRange ne).getLast? with
            | some r => (X r).cols.length
            | none => 0
          nr := rs.length }

/-- The caller's dictionary `bigX` when the constructor returns or raises, sur.py:469 (`bigX[r], ... = ...`): the equations before the first
error hold the expanded matrices. -/
noncomputable def after (le : L → L → Prop) [DecidableRel le] (str : L → String) (nobs off : ℕ) (regimes : Option (List L))
    (X : Fin ne → Arr) (nameX : Option (Fin ne → List String)) : Fin ne → Arr :=
  match regimes with
  | none => X
  | some regs =>
    match regimesSet le regs with
    | .error _ => X
    | .ok rs => fun r =>
      match step str nobs regs rs X (namesX off nameX X) r with
      | .ok p => if ∀ s < r, (step str nobs regs rs X (namesX off nameX X) s).isOk = true then p.1 else X r
      | .error _ => X r

/-- The array with the columns of `a`, for `N` observations. -/
def mat (N : ℕ) (a : Arr) : Matrix (Fin N) (Fin a.cols.length) ℝ := Matrix.of fun i j => a.cols[j].getD i 0

/-- `BaseSUR.__init__(self, bigy=bigy, bigX=bigX, ...)`, sur.py:482-490. -/
noncomputable def fit {N : ℕ} (y : Fin ne → Fin N → ℝ) (X : Fin ne → Arr) (iter : Bool) (maxiter : ℕ) (eps : ℝ) :
    Option (SUR.Fit (Fin N) (Fin ne) fun r => Fin (X r).cols.length) :=
  SUR.baseSUR (fun r => mat N (X r)) y iter maxiter eps

/-- `self.chow_regimes[r]`, sur.py:536-546: `kx` columns before the expansion; the block of `varb` that belongs to the equation. -/
noncomputable def chowEq {K : Fin ne → ℕ} (kx nr : ℕ) (e : SUR.Est (Fin ne) fun r => Fin (K r)) (r : Fin ne) : Py Chow.ChowRes :=
  Chow.chowRun kx 0 0 nr (List.ofFn (e.b r)) (e.varb.submatrix (fun j : Fin (K r) => (⟨r, j⟩ : SUR.Stk fun r => Fin (K r))) fun j => ⟨r, j⟩)

/-- The degrees of freedom with which `wald_test` computes the p-value of the joint test, regimes.py:305: the rows of `r_global`,
regimes.py:111-117, for an equation with `kx` columns. -/
def jointDf (kx nr : ℕ) : ℕ := (List.replicate kx (nr - 1)).sum

/-- One row, summary_output.py:1580-1585. -/
def chowRow (names : List String) (df : ℕ) (regi : List ℝ) (i : ℕ) : Py (String × ℕ × ℝ) :=
  match names[i]?, regi[i]? with
  | some s, some v => .ok (s, df, v)
  | _, _ => .error .indexError

/-- `summary_chow(reg, sur=i)`, summary_output.py:1556-1595, with `cols2regi = "all"` and `constant_regi = "many"`: rows of name, printed
degrees of freedom and statistic. `argsort` is `np.argsort` of strings. -/
def chowTable (argsort : List String → List ℕ) (nameXr : List String) (nr kr : ℕ) (res : Chow.ChowRes) : Py (List (String × ℕ × ℝ)) := do
  let namesChow := "CONSTANT" :: nameXr.tail
  let indices := 0 :: (argsort nameXr.tail).map (· + 1)
  let rows ← indices.mapM (chowRow namesChow (nr - 1) res.regi)
  .ok (rows ++ [("Global test", kr * (nr - 1), res.joint)])

end Spreg.SURReg
