import Verif.Model.Endog
import Verif.Model.Checks
/-
Model of what the endogenous regimes classes do with their arguments before and after the search: OLS_Endog_Regimes
(ols_regimes.py:1044-1089), TSLS_Endog_Regimes (twosls_regimes.py:1062-1105), GM_Lag_Endog_Regimes
(twosls_sp_regimes.py:1313-1356), with `check_regi_args` (user_output.py:841-865) and the checks of `x` in the constructor of
the final model.

* The search (`Skater_reg().fit`, and `optim_k` if the number of clusters is chosen by the class) is a parameter: a function of the
  quorum and of the columns, which may raise.
* `x` is numeric and given by its columns; `oneDim` says that it was passed one-dimensional. Endogenous variables,
  instruments, weights and the options of the final model (`**kwargs`) are left out.
* Warnings are kept as a list of their contents, not as one text (`set_warn`, utils.py:780-788, appends).
-/
namespace Spreg.EndogArgs
open Spreg Spreg.Chk

/-- The three classes. -/
inductive Cls where
  | ols | tsls | lag
  deriving DecidableEq

/-- The value of `err_flag` in the call of `check_regi_args`: ols_regimes.py:1053, twosls_regimes.py:1072 (default `True`),
twosls_sp_regimes.py:1324 (`False`); also the default of the argument `regime_err_sep` (lines 1047, 1064, 1315). -/
def errFlag : Cls → Bool
  | .ols => true
  | .tsls => true
  | .lag => false

/-- Contents of the attribute `warning`. -/
inductive Warn where
  /-- constant columns were removed, user_output.py:929, 933-938 -/
  | const (w : CWarn)
  /-- "Only the following values are accepted for this method: ...", user_output.py:864 -/
  | regi (errSep : Bool)
  deriving DecidableEq

/-- `check_regi_args`, user_output.py:841-865. `cols2regi = none` is the default `'all'`. -/
def checkRegiArgs (constantRegi : String) (cols2regi : Option (List Bool)) (regimeErrSep errFlag : Bool) : Option Warn :=
  if constantRegi ≠ "many" ∨ cols2regi ≠ none ∨ regimeErrSep ≠ errFlag then some (.regi errFlag) else none

/-- The default quorum: ols_regimes.py:1058-1059 and twosls_regimes.py:1078-1079 count the columns of `x_constant`,
twosls_sp_regimes.py:1329-1330 those of `x` (`x.shape[1]`). -/
def quorumArg (c : Cls) (kept given : ℕ) (oneDim : Bool) (quorum : ℤ) : Py ℕ :=
  match c with
  | .ols => .ok (Endog.quorumOf kept quorum)
  | .tsls => .ok (Endog.quorumOf kept quorum)
  | .lag => if quorum < 0 ∧ oneDim then .error .indexError else .ok (Endog.quorumOf given quorum)

/-- An exception raised during the search. -/
inductive SearchExc where
  /-- `check_arrays` in a regression of the search: "one or more input arrays have more columns than rows" -/
  | tooManyColumns
  | other (e : PyErr)

/-- The search and its guard, ols_regimes.py:1061-1083, twosls_regimes.py:1081-1101, twosls_sp_regimes.py:1332-1352. With `n_clusters`
the exceptions of the search are caught: one message is turned into a ValueError, the others are printed, and then
`self._trace = sk_reg_results._trace` fails because `sk_reg_results` is not bound. -/
def runSearch {σ : Type} (n : ℕ) (nClusters q : ℕ) (search : ℕ → Except SearchExc σ) : Py σ :=
  if nClusters = 0 then
    if q = 0 then .error .zeroDivision else
    if Endog.nOpt n q < 2 then .error .valueError else
    match search q with
    | .ok s => .ok s
    | .error .tooManyColumns => .error .exception
    | .error (.other e) => .error e
  else
    match search q with
    | .ok s => .ok s
    | .error .tooManyColumns => .error .valueError
    | .error (.other _) => .error .unboundLocal

/-- What the final model is estimated with. -/
structure Fit (σ : Type) where
  search : σ
  quorum : ℕ
  cols : List Col
  names : List String
  warnings : List Warn
  constantRegi : String
  cols2regi : Option (List Bool)
  regimeErrSep : Bool

/-- The columns handed to the final model: ols_regimes.py:1088 and twosls_regimes.py:1104 pass `x_constant`,
twosls_sp_regimes.py:1355 passes `x`. The names are in all cases those returned by the first `check_constant`. -/
def finalX (c : Cls) (x kept : List Col) : List Col :=
  match c with
  | .ols => kept
  | .tsls => kept
  | .lag => x

/-- The constructors. The final model checks its regressors again: ols_regimes.py:439-441, twosls_regimes.py:358-360,
twosls_sp_regimes.py:505-507. -/
noncomputable def endogFit {σ : Type} (c : Cls) (n : ℕ) (x : List Col) (oneDim : Bool) (names : Option (List String)) (constantRegi : String)
    (cols2regi : Option (List Bool)) (regimeErrSep : Bool) (quorum : ℤ) (nClusters : ℕ) (search : ℕ → List Col → Except SearchExc σ) : Py (Fit σ) := do
  let c1 ← checkConstant n x names true
  let w2 := checkRegiArgs constantRegi cols2regi regimeErrSep (errFlag c)
  let q ← quorumArg c c1.1.length x.length oneDim quorum
  let s ← runSearch n nClusters q fun q => search q c1.1
  let c2 ← checkConstant n (finalX c x c1.1) c1.2.1 true
  pure { search := s, quorum := q, cols := c2.1, names := setNameX c2.2.1 c2.1.length true,
         warnings := (c1.2.2.map Warn.const).toList ++ w2.toList ++ (c2.2.2.map Warn.const).toList,
         constantRegi := "many", cols2regi := none, regimeErrSep := errFlag c }

end Spreg.EndogArgs
