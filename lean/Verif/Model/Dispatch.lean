import Verif.Model.Regimes
/-
Model of the decisions the regimes classes take on their options: which coefficients vary, whether the error variance and the spatial
lag are estimated by regime, which weights are used, which warnings are issued, which calls raise.
Numbers are not modelled here (they are in `Verif.Model.Regimes*`, `LagRegimes`, `GMRegimes`).
-/
namespace Spreg.Dispatch
open Spreg Spreg.Regimes

/-- `robust`, lower case (ols_regimes.py:424). -/
inductive Robust where
  | none | white | hac | ogmm
  deriving DecidableEq, Repr

/-- The options. `many`: `constant_regi == "many"` (else "one"). `kx` counts the columns of x without the constant, with the spatially
lagged ones; `kend` the endogenous ones given by the user; `slx` is `slx_lags`. -/
structure Opts where
  errSep : Bool
  lagSep : Bool
  many : Bool
  c2r : Cols2Regi
  kx : Nat
  kend : Nat
  slx : Nat
  robust : Robust

/-- The warnings about options. -/
inductive Warn where
  /-- "regime_err_sep set to True when regime_lag_sep=True." -/
  | errOn
  /-- "... regime_err_sep has been set to False" / "The error by regimes has been disabled" -/
  | errOff
  /-- "All coefficients must vary ..., so setting cols2regi = 'all'." -/
  | colsAll
  /-- "WX is computed using the complete W, i.e. not trimmed by regimes." -/
  | wxFull
  deriving DecidableEq, Repr

/-- Weights: the user's, or those with the links between regimes removed. -/
inductive Wt where
  | full | trimmed
  deriving DecidableEq, Repr

/-- A spatial lag of the dependent variable: whether its coefficient varies by regime, the weights of the `Wy` among the regressors,
and those in the reduced form of `predy_e` (none if it is not computed). -/
structure Lag where
  byRegime : Bool
  est : Wt
  att : Option Wt
  deriving DecidableEq, Repr

/-- What is estimated. `errBy`: the error variance is estimated by regime (separate equations, or weighting by groups). `vary`: for
the constant, the columns of x and the user's endogenous variables, whether there is one coefficient per regime. -/
structure Done where
  errBy : Bool
  vary : List Bool
  lag : Option Lag
  warns : List Warn
  deriving DecidableEq, Repr

/-- `constant_regi`. -/
def Opts.const (o : Opts) : ConstRegi := if o.many then .many else .one

/-- `set(l) == set([True])`. -/
def allTrue (l : List Bool) : Bool := l ≠ [] ∧ ∀ b ∈ l, b = true

/-- The warning on lagged regressors: ols_regimes.py:448-451, twosls_regimes.py:363-366, error_sp_regimes.py:308-311,
error_sp_het_regimes.py:350-353, error_sp_hom_regimes.py:362-365, ml_lag_regimes.py:349-353, ml_error_regimes.py:325-328. -/
def wxWarn (o : Opts) : List Warn := if o.slx > 0 then [.wxFull] else []

/-- The HAC clause: ols_regimes.py:424-430, twosls_regimes.py:350-356, twosls_sp_regimes.py:493-499. -/
def hacClause (robust : Robust) (errSep : Bool) : Bool × List Warn :=
  if robust = .hac ∧ errSep then (false, [.errOff]) else (errSep, [])

/-- `OLS_Regimes.__init__`, ols_regimes.py:420-538; the weighting by groups is lines 512-528. -/
def olsRegimes (o : Opts) : Py Done := do
  let (errSep, w0) := hacClause o.robust o.errSep
  let cols ← checkCols2regi o.const o.c2r o.kx false
  if errSep ∧ allTrue cols ∧ o.many then
    pure ⟨true, true :: List.replicate o.kx true, none, w0 ++ wxWarn o⟩
  else
    let weighted := errSep && decide (o.robust = .none)
    pure ⟨weighted, o.many :: cols, none, w0 ++ wxWarn o⟩

/-- `TSLS_Regimes.__init__`, twosls_regimes.py:346-452, with endogenous variables `kend` and flags `c2r` for x and them. -/
def tslsRegimes (o : Opts) : Py Done := do
  let (errSep, w0) := hacClause o.robust o.errSep
  let cols ← checkCols2regi o.const o.c2r (o.kx + o.kend) false
  if errSep ∧ allTrue cols ∧ o.many then
    pure ⟨true, true :: List.replicate (o.kx + o.kend) true, none, w0 ++ wxWarn o⟩
  else pure ⟨false, o.many :: cols, none, w0 ++ wxWarn o⟩

/-- `GM_Error_Regimes`, error_sp_regimes.py:300-383; `GM_Error_Het_Regimes`, error_sp_het_regimes.py:331-455; `GM_Error_Hom_Regimes`,
error_sp_hom_regimes.py:343-470; `ML_Error_Regimes`, ml_error_regimes.py:307-397. `regime_lag_sep` is documented as ignored. -/
def errorRegimes (o : Opts) : Py Done := do
  let cols ← checkCols2regi o.const o.c2r o.kx true
  if o.errSep then
    if allTrue cols then pure ⟨true, List.replicate (1 + o.kx) true, none, wxWarn o⟩ else .error .exception
  else pure ⟨false, cols, none, wxWarn o⟩

/-- `GM_Endog_Error_Regimes`, error_sp_regimes.py:823-959; `..._Het_...`, error_sp_het_regimes.py:940-1131; `..._Hom_...`,
error_sp_hom_regimes.py:955-1148. No warning on the lagged regressors. -/
def endogErrorRegimes (o : Opts) : Py Done := do
  let cols ← checkCols2regi o.const o.c2r (o.kx + o.kend) true
  if o.errSep then
    if allTrue cols then pure ⟨true, List.replicate (1 + (o.kx + o.kend)) true, none, []⟩ else .error .exception
  else pure ⟨false, cols, none, []⟩

/-- `ML_Lag_Regimes.__init__`, ml_lag_regimes.py:339-470; `regime_err_sep` is not an argument. Separate equations (`regime_lag_sep`)
give each regime its own variance. -/
def mlLagRegimes (o : Opts) : Py Done := do
  let cols ← checkCols2regi o.const o.c2r o.kx false
  if o.lagSep then
    if ¬ (allTrue cols ∧ o.many) then .error .exception
    else pure ⟨true, true :: List.replicate o.kx true, some ⟨true, .trimmed, some .trimmed⟩, wxWarn o⟩
  else pure ⟨false, o.many :: cols, some ⟨false, .full, some .full⟩, wxWarn o⟩

/-- The clauses on `regime_lag_sep` and `regime_err_sep`: twosls_sp_regimes.py:487-492, error_sp_regimes.py:1498-1503,
error_sp_het_regimes.py:1717-1722, error_sp_hom_regimes.py:1717-1722. -/
def sepClause (lagSep errSep : Bool) : Bool × List Warn :=
  let p := if lagSep ∧ ¬ errSep then (true, [Warn.errOn]) else (errSep, [])
  let q := if p.1 ∧ ¬ lagSep then (false, [Warn.errOff]) else (p.1, [])
  (q.1, p.2 ++ q.2)

/-- `GM_Lag_Regimes.__init__`, twosls_sp_regimes.py:481-664 and `GM_Lag_Regimes_Multi`, `_work` (666-881, 949-985). The test of lines
537-543 on HAC cannot succeed (`regime_err_sep` is already False) and is left out. `set_endog` is called with the full weights at
line 515 if `slx_lags > 0`, otherwise with the trimmed ones (`w_r` or the union, lines 960 and 607-610). A flag list that leaves
`check_cols2regi` one entry too long makes `TSLS_Regimes` raise (Exception) or the filling of `betas` (ValueError, 819-825). -/
def gmLagRegimes (o : Opts) : Py Done := do
  let (e2, w1) := sepClause o.lagSep o.errSep
  let (e3, w3) := hacClause o.robust e2
  let warns := w1 ++ w3 ++ wxWarn o
  let cols ← (if o.slx > 0 then
      match o.c2r with
      | .all => do return (← checkCols2regi o.const o.c2r (o.kx + (o.kend + 1)) false).dropLast
      | .list _ => checkCols2regi o.const o.c2r (o.kx + (o.kend + 1)) false
    else checkCols2regi o.const o.c2r (o.kx + o.kend) false : Py (List Bool))
  let cols := cols ++ [o.lagSep]
  let est := if o.lagSep ∧ o.slx = 0 then Wt.trimmed else .full
  if e3 ∧ allTrue cols ∧ o.many then
    if cols.length ≠ o.kx + o.kend + 1 then .error .valueError
    else pure ⟨true, true :: List.replicate (o.kx + o.kend) true, some ⟨true, est, some .trimmed⟩, warns⟩
  else do
    let t ← tslsRegimes { o with errSep := e3, c2r := .list cols, kend := o.kend + 1, slx := 0 }
    pure ⟨t.errBy, t.vary.dropLast, some ⟨t.vary.getLast?.getD false, est, some (if o.lagSep then .trimmed else .full)⟩,
      warns ++ t.warns⟩

/-- `any(col != True for col in cols2regi)`: the letters of "all" are not True. -/
def someNot : Cols2Regi → Bool
  | .all => true
  | .list l => decide (∃ b ∈ l, b = false)

/-- `GM_Combo_Regimes`, error_sp_regimes.py:1498-1592; `GM_Combo_Het_Regimes`, error_sp_het_regimes.py:1717-1817;
`GM_Combo_Hom_Regimes`, error_sp_hom_regimes.py:1717-1817. With `slx_lags > 0`, `set_endog` gets the full weights
(line 1522) and `add_lag` is False, so that no reduced form is computed in the separate equations (2015-2027). -/
def gmComboRegimes (o : Opts) : Py Done := do
  let (e2, w1) := sepClause o.lagSep o.errSep
  let (c2r, w3) := if e2 ∧ someNot o.c2r then (Cols2Regi.all, [Warn.colsAll]) else (o.c2r, [])
  let cols ← checkCols2regi o.const c2r (o.kx + o.kend) false
  let est := if o.lagSep ∧ o.slx = 0 then Wt.trimmed else .full
  if o.lagSep then do
    let c := if o.slx = 0 then cols else cols ++ [true]
    let ke := if o.slx = 0 then o.kend else o.kend + 1
    let t ← endogErrorRegimes { o with errSep := e2, c2r := .list c, kend := ke }
    pure ⟨t.errBy, if o.slx = 0 then t.vary else t.vary.dropLast,
      some ⟨true, est, if o.slx = 0 then some .trimmed else none⟩, w1 ++ w3 ++ t.warns⟩
  else do
    let t ← endogErrorRegimes { o with errSep := e2, c2r := .list (cols ++ [false]), kend := o.kend + 1 }
    pure ⟨t.errBy, t.vary.dropLast, some ⟨t.vary.getLast?.getD false, est, some .full⟩, w1 ++ w3 ++ t.warns⟩

end Spreg.Dispatch
