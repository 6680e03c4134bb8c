import Verif.Model.Basic
/-
Model of the calls between the user classes: Python's binding of keyword arguments, the hand-over of a call to the class with
regimes when the argument `regimes` is given, and the choice of the estimation class by `GMM_Error` and `GMM_Error_Regimes`.
The tables of parameters and of forwarded arguments are transcribed from the code (by a script over the syntax tree).
A positional argument is the keyword argument of the parameter at its position.
-/
namespace Spreg.Calls
open Spreg

/-- A value of an argument: given by the caller, or the default expression of the parameter. -/
inductive Val (V : Type) where
  | given (v : V)
  | dflt (code : String)
  deriving DecidableEq

/-- A signature: parameters in order with the source text of their default (`none`: required), and whether there is `**kwargs`. -/
structure Sig where
  params : List (String × Option String)
  kwargs : Bool

def Sig.names (s : Sig) : List String := s.params.map (·.1)

/-- The default of a parameter. -/
def Sig.dflt? {V : Type} (s : Sig) (p : String) : Option (Val V) := (s.params.lookup p).join.map .dflt

/-- The local variables of a called function: its parameters and `kwargs`. -/
structure Bound (V : Type) where
  val : String → Option (Val V)
  extra : List (String × Val V)

/-- Python's binding of keyword arguments (language reference, "Calls"): a repeated keyword, an unknown keyword without `**kwargs`
and a missing required argument raise TypeError. -/
def bind {V : Type} (s : Sig) (args : List (String × Val V)) : Py (Bound V) :=
  if ¬ (args.map (·.1)).Nodup then .error .typeError
  else if s.kwargs = false ∧ ∃ a ∈ args, a.1 ∉ s.names then .error .typeError
  else if ∃ p ∈ s.params, p.2 = none ∧ p.1 ∉ args.map (·.1) then .error .typeError
  else .ok {
    val := fun p => if p ∈ s.names then (args.lookup p).or (s.dflt? p) else none
    extra := args.filter fun a => decide (a.1 ∉ s.names) }

/-- A call `target(p=p, .., **kwargs)` made in a function with local variables `b`: `fwd` are the names passed on. -/
def passOn {V : Type} (b : Bound V) (fwd : List String) (kw : Bool) (target : Sig) : Py (Bound V) :=
  bind target (fwd.filterMap (fun p => (b.val p).map fun v => (p, v)) ++ if kw then b.extra else [])

/-- `C(.., regimes=r)` with `r` not None: `self.__class__ = C_Regimes; self.__init__(..., **kwargs)`. -/
def withRegimes {V : Type} (own : Sig) (fwd : List String) (target : Sig) (args : List (String × Val V)) : Py (Bound V) := do
  let b ← bind own args
  passOn b fwd true target

/-- One branch of `GMM_Error`: the class, its parameters, the arguments passed on, and whether `**kwargs` is. -/
structure Branch where
  cls : String
  target : Sig
  fwd : List String
  kw : Bool

/-- Parameters of `OLS.__init__`, ols.py:441-465. -/
def sigOLS : Sig where
  params := [
    ("y", none), ("x", none), ("w", some "None"), ("robust", some "None"), ("gwk", some "None"), ("slx_lags", some "0"),
    ("slx_vars", some "'All'"), ("regimes", some "None"), ("sig2n_k", some "True"), ("nonspat_diag", some "True"),
    ("spat_diag", some "False"), ("moran", some "False"), ("white_test", some "False"), ("vif", some "False"),
    ("vm", some "False"), ("name_y", some "None"), ("name_x", some "None"), ("name_w", some "None"), ("name_gwk", some "None"),
    ("name_ds", some "None"), ("latex", some "False")]
  kwargs := true

/-- Parameters of `OLS_Regimes.__init__`, ols_regimes.py:390-418. -/
def sigOLSRegimes : Sig where
  params := [
    ("y", none), ("x", none), ("regimes", none), ("w", some "None"), ("robust", some "None"), ("gwk", some "None"),
    ("slx_lags", some "0"), ("slx_vars", some "'all'"), ("sig2n_k", some "True"), ("nonspat_diag", some "True"),
    ("spat_diag", some "False"), ("moran", some "False"), ("white_test", some "False"), ("vm", some "False"),
    ("constant_regi", some "'many'"), ("cols2regi", some "'all'"), ("regime_err_sep", some "True"), ("cores", some "False"),
    ("name_y", some "None"), ("name_x", some "None"), ("name_regimes", some "None"), ("name_w", some "None"),
    ("name_gwk", some "None"), ("name_ds", some "None"), ("latex", some "False")]
  kwargs := true

/-- Parameters of `TSLS.__init__`, twosls.py:456-481. -/
def sigTSLS : Sig where
  params := [
    ("y", none), ("x", none), ("yend", none), ("q", none), ("w", some "None"), ("robust", some "None"), ("gwk", some "None"),
    ("slx_lags", some "0"), ("slx_vars", some "'All'"), ("sig2n_k", some "False"), ("spat_diag", some "False"),
    ("nonspat_diag", some "True"), ("regimes", some "None"), ("vm", some "False"), ("name_y", some "None"),
    ("name_x", some "None"), ("name_yend", some "None"), ("name_q", some "None"), ("name_w", some "None"),
    ("name_gwk", some "None"), ("name_ds", some "None"), ("latex", some "False")]
  kwargs := true

/-- Parameters of `TSLS_Regimes.__init__`, twosls_regimes.py:314-343. -/
def sigTSLSRegimes : Sig where
  params := [
    ("y", none), ("x", none), ("yend", none), ("q", none), ("regimes", none), ("w", some "None"), ("robust", some "None"),
    ("gwk", some "None"), ("slx_lags", some "0"), ("slx_vars", some "'all'"), ("sig2n_k", some "True"),
    ("spat_diag", some "False"), ("vm", some "False"), ("constant_regi", some "'many'"), ("cols2regi", some "'all'"),
    ("regime_err_sep", some "False"), ("name_y", some "None"), ("name_x", some "None"), ("cores", some "False"),
    ("name_yend", some "None"), ("name_q", some "None"), ("name_regimes", some "None"), ("name_w", some "None"),
    ("name_gwk", some "None"), ("name_ds", some "None"), ("summ", some "True"), ("latex", some "False")]
  kwargs := false

/-- Parameters of `GM_Lag.__init__`, twosls_sp.py:510-538. -/
def sigGMLag : Sig where
  params := [
    ("y", none), ("x", none), ("yend", some "None"), ("q", some "None"), ("w", some "None"), ("w_lags", some "1"),
    ("lag_q", some "True"), ("slx_lags", some "0"), ("slx_vars", some "'All'"), ("regimes", some "None"),
    ("robust", some "None"), ("gwk", some "None"), ("sig2n_k", some "False"), ("spat_diag", some "True"),
    ("spat_impacts", some "'simple'"), ("vm", some "False"), ("name_y", some "None"), ("name_x", some "None"),
    ("name_yend", some "None"), ("name_q", some "None"), ("name_w", some "None"), ("name_gwk", some "None"),
    ("name_ds", some "None"), ("latex", some "False"), ("hard_bound", some "False")]
  kwargs := true

/-- Parameters of `GM_Lag_Regimes.__init__`, twosls_sp_regimes.py:450-483. -/
def sigGMLagRegimes : Sig where
  params := [
    ("y", none), ("x", none), ("regimes", none), ("yend", some "None"), ("q", some "None"), ("w", some "None"),
    ("w_lags", some "1"), ("slx_lags", some "0"), ("slx_vars", some "'all'"), ("lag_q", some "True"), ("robust", some "'white'"),
    ("gwk", some "None"), ("sig2n_k", some "False"), ("spat_diag", some "True"), ("spat_impacts", some "'simple'"),
    ("constant_regi", some "'many'"), ("cols2regi", some "'all'"), ("regime_lag_sep", some "False"),
    ("regime_err_sep", some "False"), ("cores", some "False"), ("vm", some "False"), ("name_y", some "None"),
    ("name_x", some "None"), ("name_yend", some "None"), ("name_q", some "None"), ("name_regimes", some "None"),
    ("name_w", some "None"), ("name_gwk", some "None"), ("name_ds", some "None"), ("latex", some "False"),
    ("hard_bound", some "False")]
  kwargs := false

/-- Parameters of `ML_Lag.__init__`, ml_lag.py:600-619. -/
def sigMLLag : Sig where
  params := [
    ("y", none), ("x", none), ("w", none), ("slx_lags", some "0"), ("slx_vars", some "'All'"), ("regimes", some "None"),
    ("method", some "'full'"), ("epsilon", some "1e-07"), ("spat_impacts", some "'simple'"), ("vm", some "False"),
    ("spat_diag", some "True"), ("name_y", some "None"), ("name_x", some "None"), ("name_w", some "None"),
    ("name_ds", some "None"), ("latex", some "False")]
  kwargs := true

/-- Parameters of `ML_Lag_Regimes.__init__`, ml_lag_regimes.py:314-337. -/
def sigMLLagRegimes : Sig where
  params := [
    ("y", none), ("x", none), ("regimes", none), ("w", some "None"), ("constant_regi", some "'many'"),
    ("cols2regi", some "'all'"), ("method", some "'full'"), ("epsilon", some "1e-07"), ("slx_lags", some "0"),
    ("slx_vars", some "'all'"), ("regime_lag_sep", some "False"), ("cores", some "False"), ("spat_diag", some "True"),
    ("spat_impacts", some "'simple'"), ("vm", some "False"), ("name_y", some "None"), ("name_x", some "None"),
    ("name_w", some "None"), ("name_ds", some "None"), ("name_regimes", some "None"), ("latex", some "False")]
  kwargs := false

/-- Parameters of `ML_Error.__init__`, ml_error.py:475-492. -/
def sigMLError : Sig where
  params := [
    ("y", none), ("x", none), ("w", none), ("slx_lags", some "0"), ("slx_vars", some "'All'"), ("regimes", some "None"),
    ("method", some "'full'"), ("epsilon", some "1e-07"), ("vm", some "False"), ("name_y", some "None"), ("name_x", some "None"),
    ("name_w", some "None"), ("name_ds", some "None"), ("latex", some "False")]
  kwargs := true

/-- Parameters of `ML_Error_Regimes.__init__`, ml_error_regimes.py:283-305. -/
def sigMLErrorRegimes : Sig where
  params := [
    ("y", none), ("x", none), ("regimes", none), ("w", some "None"), ("slx_lags", some "0"), ("slx_vars", some "'all'"),
    ("constant_regi", some "'many'"), ("cols2regi", some "'all'"), ("method", some "'full'"), ("epsilon", some "1e-07"),
    ("regime_err_sep", some "False"), ("regime_lag_sep", some "False"), ("cores", some "False"), ("vm", some "False"),
    ("name_y", some "None"), ("name_x", some "None"), ("name_w", some "None"), ("name_ds", some "None"),
    ("name_regimes", some "None"), ("latex", some "False")]
  kwargs := false

/-- Parameters of `GMM_Error.__init__`, error_sp.py:1320-1322. -/
def sigGMMError : Sig where
  params := [
    ("y", none), ("x", none), ("w", none), ("yend", some "None"), ("q", some "None"), ("regimes", some "None"),
    ("estimator", some "'het'"), ("add_wy", some "False"), ("slx_lags", some "0"), ("slx_vars", some "'All'"),
    ("vm", some "False"), ("name_y", some "None"), ("name_x", some "None"), ("name_w", some "None"), ("name_yend", some "None"),
    ("name_q", some "None"), ("name_ds", some "None"), ("latex", some "False"), ("hard_bound", some "False"),
    ("spat_diag", some "False")]
  kwargs := true

/-- Parameters of `GMM_Error_Regimes.__init__`, error_sp_regimes.py:1908-1911. -/
def sigGMMErrorRegimes : Sig where
  params := [
    ("y", none), ("x", none), ("regimes", none), ("w", none), ("yend", some "None"), ("q", some "None"),
    ("estimator", some "'het'"), ("constant_regi", some "'many'"), ("cols2regi", some "'all'"), ("regime_err_sep", some "False"),
    ("regime_lag_sep", some "False"), ("add_wy", some "False"), ("slx_lags", some "0"), ("vm", some "False"),
    ("name_y", some "None"), ("name_x", some "None"), ("name_w", some "None"), ("name_regimes", some "None"),
    ("name_yend", some "None"), ("name_q", some "None"), ("name_ds", some "None"), ("latex", some "False")]
  kwargs := true

/-- Parameters of `GM_Error_Het.__init__`, error_sp_het.py:356-373. -/
def sigGMErrorHet : Sig where
  params := [
    ("y", none), ("x", none), ("w", none), ("slx_lags", some "0"), ("slx_vars", some "'All'"), ("max_iter", some "1"),
    ("epsilon", some "1e-05"), ("step1c", some "False"), ("vm", some "False"), ("name_y", some "None"), ("name_x", some "None"),
    ("name_w", some "None"), ("name_ds", some "None"), ("latex", some "False"), ("hard_bound", some "False")]
  kwargs := false

/-- Parameters of `GM_Error_Het_Regimes.__init__`, error_sp_het_regimes.py:306-330. -/
def sigGMErrorHetRegimes : Sig where
  params := [
    ("y", none), ("x", none), ("regimes", none), ("w", none), ("max_iter", some "1"), ("epsilon", some "1e-05"),
    ("step1c", some "False"), ("constant_regi", some "'many'"), ("cols2regi", some "'all'"), ("regime_err_sep", some "False"),
    ("regime_lag_sep", some "False"), ("slx_lags", some "0"), ("slx_vars", some "'all'"), ("cores", some "False"),
    ("vm", some "False"), ("name_y", some "None"), ("name_x", some "None"), ("name_w", some "None"), ("name_ds", some "None"),
    ("name_regimes", some "None"), ("latex", some "False"), ("hard_bound", some "False")]
  kwargs := false

/-- Parameters of `GM_Endog_Error_Het.__init__`, error_sp_het.py:884-906. -/
def sigGMEndogErrorHet : Sig where
  params := [
    ("y", none), ("x", none), ("yend", none), ("q", none), ("w", none), ("slx_lags", some "0"), ("slx_vars", some "'All'"),
    ("max_iter", some "1"), ("epsilon", some "1e-05"), ("step1c", some "False"), ("inv_method", some "'power_exp'"),
    ("vm", some "False"), ("name_y", some "None"), ("name_x", some "None"), ("name_yend", some "None"), ("name_q", some "None"),
    ("name_w", some "None"), ("name_ds", some "None"), ("latex", some "False"), ("hard_bound", some "False")]
  kwargs := false

/-- Parameters of `GM_Endog_Error_Het_Regimes.__init__`, error_sp_het_regimes.py:913-943. -/
def sigGMEndogErrorHetRegimes : Sig where
  params := [
    ("y", none), ("x", none), ("yend", none), ("q", none), ("regimes", none), ("w", none), ("max_iter", some "1"),
    ("epsilon", some "1e-05"), ("step1c", some "False"), ("constant_regi", some "'many'"), ("cols2regi", some "'all'"),
    ("regime_err_sep", some "False"), ("regime_lag_sep", some "False"), ("slx_lags", some "0"),
    ("inv_method", some "'power_exp'"), ("cores", some "False"), ("vm", some "False"), ("name_y", some "None"),
    ("name_x", some "None"), ("name_yend", some "None"), ("name_q", some "None"), ("name_w", some "None"),
    ("name_ds", some "None"), ("name_regimes", some "None"), ("summ", some "True"), ("add_lag", some "False"),
    ("latex", some "False"), ("hard_bound", some "False")]
  kwargs := false

/-- Parameters of `GM_Combo_Het.__init__`, error_sp_het.py:1395-1419. -/
def sigGMComboHet : Sig where
  params := [
    ("y", none), ("x", none), ("yend", some "None"), ("q", some "None"), ("w", some "None"), ("w_lags", some "1"),
    ("slx_lags", some "0"), ("slx_vars", some "'All'"), ("lag_q", some "True"), ("max_iter", some "1"),
    ("epsilon", some "1e-05"), ("step1c", some "False"), ("inv_method", some "'power_exp'"), ("vm", some "False"),
    ("name_y", some "None"), ("name_x", some "None"), ("name_yend", some "None"), ("name_q", some "None"),
    ("name_w", some "None"), ("name_ds", some "None"), ("latex", some "False"), ("hard_bound", some "False")]
  kwargs := false

/-- Parameters of `GM_Combo_Het_Regimes.__init__`, error_sp_het_regimes.py:1686-1716. -/
def sigGMComboHetRegimes : Sig where
  params := [
    ("y", none), ("x", none), ("regimes", none), ("yend", some "None"), ("q", some "None"), ("w", some "None"),
    ("slx_lags", some "0"), ("w_lags", some "1"), ("lag_q", some "True"), ("max_iter", some "1"), ("epsilon", some "1e-05"),
    ("step1c", some "False"), ("cores", some "False"), ("inv_method", some "'power_exp'"), ("constant_regi", some "'many'"),
    ("cols2regi", some "'all'"), ("regime_err_sep", some "False"), ("regime_lag_sep", some "False"), ("vm", some "False"),
    ("name_y", some "None"), ("name_x", some "None"), ("name_yend", some "None"), ("name_q", some "None"),
    ("name_w", some "None"), ("name_ds", some "None"), ("name_regimes", some "None"), ("latex", some "False"),
    ("hard_bound", some "False")]
  kwargs := false

/-- Parameters of `GM_Error_Hom.__init__`, error_sp_hom.py:352-369. -/
def sigGMErrorHom : Sig where
  params := [
    ("y", none), ("x", none), ("w", none), ("slx_lags", some "0"), ("slx_vars", some "'All'"), ("max_iter", some "1"),
    ("epsilon", some "1e-05"), ("A1", some "'hom_sc'"), ("vm", some "False"), ("name_y", some "None"), ("name_x", some "None"),
    ("name_w", some "None"), ("name_ds", some "None"), ("latex", some "False"), ("hard_bound", some "False")]
  kwargs := false

/-- Parameters of `GM_Error_Hom_Regimes.__init__`, error_sp_hom_regimes.py:317-341. -/
def sigGMErrorHomRegimes : Sig where
  params := [
    ("y", none), ("x", none), ("regimes", none), ("w", none), ("max_iter", some "1"), ("epsilon", some "1e-05"),
    ("A1", some "'het'"), ("cores", some "False"), ("constant_regi", some "'many'"), ("cols2regi", some "'all'"),
    ("regime_err_sep", some "False"), ("regime_lag_sep", some "False"), ("slx_lags", some "0"), ("slx_vars", some "'all'"),
    ("vm", some "False"), ("name_y", some "None"), ("name_x", some "None"), ("name_w", some "None"), ("name_ds", some "None"),
    ("name_regimes", some "None"), ("latex", some "False"), ("hard_bound", some "False")]
  kwargs := false

/-- Parameters of `GM_Endog_Error_Hom.__init__`, error_sp_hom.py:832-853. -/
def sigGMEndogErrorHom : Sig where
  params := [
    ("y", none), ("x", none), ("yend", none), ("q", none), ("w", none), ("slx_lags", some "0"), ("slx_vars", some "'All'"),
    ("max_iter", some "1"), ("epsilon", some "1e-05"), ("A1", some "'hom_sc'"), ("vm", some "False"), ("name_y", some "None"),
    ("name_x", some "None"), ("name_yend", some "None"), ("name_q", some "None"), ("name_w", some "None"),
    ("name_ds", some "None"), ("latex", some "False"), ("hard_bound", some "False")]
  kwargs := false

/-- Parameters of `GM_Endog_Error_Hom_Regimes.__init__`, error_sp_hom_regimes.py:931-960. -/
def sigGMEndogErrorHomRegimes : Sig where
  params := [
    ("y", none), ("x", none), ("yend", none), ("q", none), ("regimes", none), ("w", none), ("constant_regi", some "'many'"),
    ("cols2regi", some "'all'"), ("regime_err_sep", some "False"), ("regime_lag_sep", some "False"), ("slx_lags", some "0"),
    ("max_iter", some "1"), ("epsilon", some "1e-05"), ("A1", some "'het'"), ("cores", some "False"), ("vm", some "False"),
    ("name_y", some "None"), ("name_x", some "None"), ("name_yend", some "None"), ("name_q", some "None"),
    ("name_w", some "None"), ("name_ds", some "None"), ("name_regimes", some "None"), ("summ", some "True"),
    ("add_lag", some "False"), ("latex", some "False"), ("hard_bound", some "False")]
  kwargs := false

/-- Parameters of `GM_Combo_Hom.__init__`, error_sp_hom.py:1344-1367. -/
def sigGMComboHom : Sig where
  params := [
    ("y", none), ("x", none), ("yend", some "None"), ("q", some "None"), ("w", some "None"), ("w_lags", some "1"),
    ("slx_lags", some "0"), ("slx_vars", some "'All'"), ("lag_q", some "True"), ("max_iter", some "1"),
    ("epsilon", some "1e-05"), ("A1", some "'hom_sc'"), ("vm", some "False"), ("name_y", some "None"), ("name_x", some "None"),
    ("name_yend", some "None"), ("name_q", some "None"), ("name_w", some "None"), ("name_ds", some "None"),
    ("latex", some "False"), ("hard_bound", some "False")]
  kwargs := false

/-- Parameters of `GM_Combo_Hom_Regimes.__init__`, error_sp_hom_regimes.py:1686-1715. -/
def sigGMComboHomRegimes : Sig where
  params := [
    ("y", none), ("x", none), ("regimes", none), ("yend", some "None"), ("q", some "None"), ("w", some "None"),
    ("slx_lags", some "0"), ("w_lags", some "1"), ("lag_q", some "True"), ("cores", some "False"), ("max_iter", some "1"),
    ("epsilon", some "1e-05"), ("A1", some "'het'"), ("constant_regi", some "'many'"), ("cols2regi", some "'all'"),
    ("regime_err_sep", some "False"), ("regime_lag_sep", some "False"), ("vm", some "False"), ("name_y", some "None"),
    ("name_x", some "None"), ("name_yend", some "None"), ("name_q", some "None"), ("name_w", some "None"),
    ("name_ds", some "None"), ("name_regimes", some "None"), ("latex", some "False"), ("hard_bound", some "False")]
  kwargs := false

/-- Parameters of `GM_Error.__init__`, error_sp.py:296-298. -/
def sigGMError : Sig where
  params := [
    ("y", none), ("x", none), ("w", none), ("slx_lags", some "0"), ("slx_vars", some "'All'"), ("vm", some "False"),
    ("name_y", some "None"), ("name_x", some "None"), ("name_w", some "None"), ("name_ds", some "None"), ("latex", some "False"),
    ("hard_bound", some "False")]
  kwargs := false

/-- Parameters of `GM_Error_Regimes.__init__`, error_sp_regimes.py:278-298. -/
def sigGMErrorRegimes : Sig where
  params := [
    ("y", none), ("x", none), ("regimes", none), ("w", none), ("vm", some "False"), ("name_y", some "None"),
    ("name_x", some "None"), ("name_w", some "None"), ("constant_regi", some "'many'"), ("cols2regi", some "'all'"),
    ("regime_err_sep", some "False"), ("regime_lag_sep", some "False"), ("slx_lags", some "0"), ("slx_vars", some "'all'"),
    ("cores", some "False"), ("name_ds", some "None"), ("name_regimes", some "None"), ("latex", some "False")]
  kwargs := false

/-- Parameters of `GM_Endog_Error.__init__`, error_sp.py:652-670. -/
def sigGMEndogError : Sig where
  params := [
    ("y", none), ("x", none), ("yend", none), ("q", none), ("w", none), ("slx_lags", some "0"), ("slx_vars", some "'All'"),
    ("vm", some "False"), ("name_y", some "None"), ("name_x", some "None"), ("name_yend", some "None"), ("name_q", some "None"),
    ("name_w", some "None"), ("name_ds", some "None"), ("latex", some "False"), ("hard_bound", some "False")]
  kwargs := false

/-- Parameters of `GM_Endog_Error_Regimes.__init__`, error_sp_regimes.py:796-821. -/
def sigGMEndogErrorRegimes : Sig where
  params := [
    ("y", none), ("x", none), ("yend", none), ("q", none), ("regimes", none), ("w", none), ("cores", some "False"),
    ("vm", some "False"), ("constant_regi", some "'many'"), ("cols2regi", some "'all'"), ("regime_err_sep", some "False"),
    ("regime_lag_sep", some "False"), ("slx_lags", some "0"), ("name_y", some "None"), ("name_x", some "None"),
    ("name_yend", some "None"), ("name_q", some "None"), ("name_w", some "None"), ("name_ds", some "None"),
    ("name_regimes", some "None"), ("summ", some "True"), ("add_lag", some "False"), ("latex", some "False")]
  kwargs := false

/-- Parameters of `GM_Combo.__init__`, error_sp.py:953-973. -/
def sigGMCombo : Sig where
  params := [
    ("y", none), ("x", none), ("yend", some "None"), ("q", some "None"), ("w", some "None"), ("w_lags", some "1"),
    ("slx_lags", some "0"), ("slx_vars", some "'All'"), ("lag_q", some "True"), ("vm", some "False"), ("name_y", some "None"),
    ("name_x", some "None"), ("name_yend", some "None"), ("name_q", some "None"), ("name_w", some "None"),
    ("name_ds", some "None"), ("latex", some "False"), ("hard_bound", some "False")]
  kwargs := false

/-- Parameters of `GM_Combo_Regimes.__init__`, error_sp_regimes.py:1472-1497. -/
def sigGMComboRegimes : Sig where
  params := [
    ("y", none), ("x", none), ("regimes", none), ("yend", some "None"), ("q", some "None"), ("w", some "None"),
    ("slx_lags", some "0"), ("w_lags", some "1"), ("lag_q", some "True"), ("cores", some "False"),
    ("constant_regi", some "'many'"), ("cols2regi", some "'all'"), ("regime_err_sep", some "False"),
    ("regime_lag_sep", some "False"), ("vm", some "False"), ("name_y", some "None"), ("name_x", some "None"),
    ("name_yend", some "None"), ("name_q", some "None"), ("name_w", some "None"), ("name_ds", some "None"),
    ("name_regimes", some "None"), ("latex", some "False")]
  kwargs := false

/-- The arguments that `OLS` passes on to `OLS_Regimes` when regimes are given, besides `**kwargs`, ols.py:469-490. -/
def fwdOLS : List String := [
    "y", "x", "regimes", "w", "robust", "gwk", "slx_lags", "sig2n_k", "nonspat_diag", "spat_diag", "moran", "white_test", "vm",
    "name_y", "name_x", "name_w", "name_gwk", "name_ds", "latex"]

/-- The arguments that `TSLS` passes on to `TSLS_Regimes` when regimes are given, besides `**kwargs`, twosls.py:485-507. -/
def fwdTSLS : List String := [
    "y", "x", "yend", "q", "regimes", "w", "robust", "gwk", "slx_lags", "sig2n_k", "spat_diag", "vm", "name_y", "name_x",
    "name_yend", "name_q", "name_w", "name_gwk", "name_ds", "latex"]

/-- The arguments that `GM_Lag` passes on to `GM_Lag_Regimes` when regimes are given, besides `**kwargs`, twosls_sp.py:542-568. -/
def fwdGMLag : List String := [
    "y", "x", "regimes", "yend", "q", "w", "w_lags", "slx_lags", "lag_q", "robust", "gwk", "sig2n_k", "spat_diag",
    "spat_impacts", "vm", "name_y", "name_x", "name_yend", "name_q", "name_w", "name_gwk", "name_ds", "latex", "hard_bound"]

/-- The arguments that `ML_Lag` passes on to `ML_Lag_Regimes` when regimes are given, besides `**kwargs`, ml_lag.py:623-640. -/
def fwdMLLag : List String := [
    "y", "x", "regimes", "w", "slx_lags", "method", "epsilon", "spat_impacts", "vm", "spat_diag", "name_y", "name_x", "name_w",
    "name_ds", "latex"]

/-- The arguments that `ML_Error` passes on to `ML_Error_Regimes` when regimes are given, besides `**kwargs`, ml_error.py:496-511. -/
def fwdMLError : List String := [
    "y", "x", "regimes", "w", "slx_lags", "method", "epsilon", "vm", "name_y", "name_x", "name_w", "name_ds", "latex"]

/-- The arguments that `GMM_Error` passes on to `GMM_Error_Regimes` when regimes are given, besides `**kwargs`, error_sp.py:1327-1330. -/
def fwdGMMError : List String := [
    "y", "x", "regimes", "w", "yend", "q", "estimator", "add_wy", "slx_lags", "vm", "name_y", "name_x", "name_w", "name_yend",
    "name_q", "name_ds", "latex"]

/-- error_sp.py:1334-1335: `GM_Error_Het.__init__`. -/
def brGMMErrorHetError : Branch where
  cls := "GM_Error_Het"
  target := sigGMErrorHet
  fwd := [
    "y", "x", "w", "slx_lags", "slx_vars", "vm", "name_y", "name_x", "name_w", "name_ds", "latex", "hard_bound"]
  kw := true

/-- error_sp.py:1337-1338: `GM_Endog_Error_Het.__init__`. -/
def brGMMErrorHetEndog : Branch where
  cls := "GM_Endog_Error_Het"
  target := sigGMEndogErrorHet
  fwd := [
    "y", "x", "yend", "q", "w", "slx_lags", "slx_vars", "vm", "name_y", "name_x", "name_yend", "name_q", "name_w", "name_ds",
    "latex", "hard_bound"]
  kw := true

/-- error_sp.py:1340-1341: `GM_Combo_Het.__init__`. -/
def brGMMErrorHetCombo : Branch where
  cls := "GM_Combo_Het"
  target := sigGMComboHet
  fwd := [
    "y", "x", "yend", "q", "w", "slx_lags", "slx_vars", "vm", "name_y", "name_x", "name_yend", "name_q", "name_w", "name_ds",
    "latex", "hard_bound"]
  kw := true

/-- error_sp.py:1344-1345: `GM_Error_Het.__init__`. -/
def brGMMErrorHetElse : Branch where
  cls := "GM_Error_Het"
  target := sigGMErrorHet
  fwd := [
    "y", "x", "w", "slx_lags", "slx_vars", "vm", "name_y", "name_x", "name_w", "name_ds", "latex", "hard_bound"]
  kw := false

/-- error_sp.py:1348-1349: `GM_Error_Hom.__init__`. -/
def brGMMErrorHomError : Branch where
  cls := "GM_Error_Hom"
  target := sigGMErrorHom
  fwd := [
    "y", "x", "w", "slx_lags", "slx_vars", "vm", "name_y", "name_x", "name_w", "name_ds", "latex", "hard_bound"]
  kw := true

/-- error_sp.py:1351-1352: `GM_Endog_Error_Hom.__init__`. -/
def brGMMErrorHomEndog : Branch where
  cls := "GM_Endog_Error_Hom"
  target := sigGMEndogErrorHom
  fwd := [
    "y", "x", "yend", "q", "w", "slx_lags", "slx_vars", "vm", "name_y", "name_x", "name_yend", "name_q", "name_w", "name_ds",
    "latex", "hard_bound"]
  kw := true

/-- error_sp.py:1354-1355: `GM_Combo_Hom.__init__`. -/
def brGMMErrorHomCombo : Branch where
  cls := "GM_Combo_Hom"
  target := sigGMComboHom
  fwd := [
    "y", "x", "yend", "q", "w", "slx_lags", "slx_vars", "vm", "name_y", "name_x", "name_yend", "name_q", "name_w", "name_ds",
    "latex", "hard_bound"]
  kw := true

/-- error_sp.py:1358-1359: `GM_Error_Hom.__init__`. -/
def brGMMErrorHomElse : Branch where
  cls := "GM_Error_Hom"
  target := sigGMErrorHom
  fwd := [
    "y", "x", "w", "slx_lags", "slx_vars", "vm", "name_y", "name_x", "name_w", "name_ds", "latex", "hard_bound"]
  kw := false

/-- error_sp.py:1362-1363: `GM_Error.__init__`. -/
def brGMMErrorKpError : Branch where
  cls := "GM_Error"
  target := sigGMError
  fwd := [
    "y", "x", "w", "slx_lags", "slx_vars", "vm", "name_y", "name_x", "name_w", "name_ds", "latex", "hard_bound"]
  kw := true

/-- error_sp.py:1365-1366: `GM_Endog_Error.__init__`. -/
def brGMMErrorKpEndog : Branch where
  cls := "GM_Endog_Error"
  target := sigGMEndogError
  fwd := [
    "y", "x", "yend", "q", "w", "slx_lags", "slx_vars", "vm", "name_y", "name_x", "name_yend", "name_q", "name_w", "name_ds",
    "latex", "hard_bound"]
  kw := true

/-- error_sp.py:1368-1369: `GM_Combo.__init__`. -/
def brGMMErrorKpCombo : Branch where
  cls := "GM_Combo"
  target := sigGMCombo
  fwd := [
    "y", "x", "yend", "q", "w", "slx_lags", "slx_vars", "vm", "name_y", "name_x", "name_yend", "name_q", "name_w", "name_ds",
    "latex", "hard_bound"]
  kw := true

/-- error_sp.py:1372-1373: `GM_Error.__init__`. -/
def brGMMErrorKpElse : Branch where
  cls := "GM_Error"
  target := sigGMError
  fwd := [
    "y", "x", "w", "slx_lags", "slx_vars", "vm", "name_y", "name_x", "name_w", "name_ds", "latex", "hard_bound"]
  kw := false

/-- error_sp.py:1376-1377: `GM_Error_Het.__init__`. -/
def brGMMErrorElse : Branch where
  cls := "GM_Error_Het"
  target := sigGMErrorHet
  fwd := [
    "y", "x", "w", "slx_lags", "vm", "name_y", "name_x", "name_w", "name_ds", "latex", "hard_bound"]
  kw := false

/-- error_sp_regimes.py:1915-1917: `GM_Error_Het_Regimes.__init__`. -/
def brGMMErrorRegimesHetError : Branch where
  cls := "GM_Error_Het_Regimes"
  target := sigGMErrorHetRegimes
  fwd := [
    "y", "x", "regimes", "w", "slx_lags", "vm", "name_y", "name_x", "constant_regi", "cols2regi", "regime_err_sep", "name_w",
    "name_regimes", "name_ds", "latex"]
  kw := true

/-- error_sp_regimes.py:1919-1921: `GM_Endog_Error_Het_Regimes.__init__`. -/
def brGMMErrorRegimesHetEndog : Branch where
  cls := "GM_Endog_Error_Het_Regimes"
  target := sigGMEndogErrorHetRegimes
  fwd := [
    "y", "x", "regimes", "yend", "q", "w", "slx_lags", "vm", "name_y", "name_x", "constant_regi", "cols2regi", "regime_err_sep",
    "name_yend", "name_q", "name_w", "name_regimes", "name_ds", "latex"]
  kw := true

/-- error_sp_regimes.py:1923-1925: `GM_Combo_Het_Regimes.__init__`. -/
def brGMMErrorRegimesHetCombo : Branch where
  cls := "GM_Combo_Het_Regimes"
  target := sigGMComboHetRegimes
  fwd := [
    "y", "x", "regimes", "yend", "q", "w", "slx_lags", "vm", "name_y", "name_x", "constant_regi", "cols2regi", "regime_err_sep",
    "regime_lag_sep", "name_yend", "name_q", "name_w", "name_regimes", "name_ds", "latex"]
  kw := true

/-- error_sp_regimes.py:1928-1930: `GM_Error_Het_Regimes.__init__`. -/
def brGMMErrorRegimesHetElse : Branch where
  cls := "GM_Error_Het_Regimes"
  target := sigGMErrorHetRegimes
  fwd := [
    "y", "x", "regimes", "w", "slx_lags", "vm", "name_y", "name_x", "constant_regi", "cols2regi", "regime_err_sep", "name_w",
    "name_regimes", "name_ds", "latex"]
  kw := false

/-- error_sp_regimes.py:1933-1935: `GM_Error_Hom_Regimes.__init__`. -/
def brGMMErrorRegimesHomError : Branch where
  cls := "GM_Error_Hom_Regimes"
  target := sigGMErrorHomRegimes
  fwd := [
    "y", "x", "regimes", "w", "slx_lags", "vm", "name_y", "name_x", "constant_regi", "cols2regi", "regime_err_sep", "name_w",
    "name_regimes", "name_ds", "latex"]
  kw := true

/-- error_sp_regimes.py:1937-1939: `GM_Endog_Error_Hom_Regimes.__init__`. -/
def brGMMErrorRegimesHomEndog : Branch where
  cls := "GM_Endog_Error_Hom_Regimes"
  target := sigGMEndogErrorHomRegimes
  fwd := [
    "y", "x", "regimes", "yend", "q", "w", "slx_lags", "vm", "name_y", "name_x", "constant_regi", "cols2regi", "regime_err_sep",
    "name_yend", "name_q", "name_w", "name_regimes", "name_ds", "latex"]
  kw := true

/-- error_sp_regimes.py:1941-1943: `GM_Combo_Hom_Regimes.__init__`. -/
def brGMMErrorRegimesHomCombo : Branch where
  cls := "GM_Combo_Hom_Regimes"
  target := sigGMComboHomRegimes
  fwd := [
    "y", "x", "regimes", "yend", "q", "w", "slx_lags", "vm", "name_y", "name_x", "constant_regi", "cols2regi", "regime_err_sep",
    "regime_lag_sep", "name_yend", "name_q", "name_w", "name_regimes", "name_ds", "latex"]
  kw := true

/-- error_sp_regimes.py:1946-1948: `GM_Error_Hom_Regimes.__init__`. -/
def brGMMErrorRegimesHomElse : Branch where
  cls := "GM_Error_Hom_Regimes"
  target := sigGMErrorHomRegimes
  fwd := [
    "y", "x", "regimes", "w", "slx_lags", "vm", "name_y", "name_x", "constant_regi", "cols2regi", "regime_err_sep", "name_w",
    "name_regimes", "name_ds", "latex"]
  kw := false

/-- error_sp_regimes.py:1951-1953: `GM_Error_Regimes.__init__`. -/
def brGMMErrorRegimesKpError : Branch where
  cls := "GM_Error_Regimes"
  target := sigGMErrorRegimes
  fwd := [
    "y", "x", "regimes", "w", "slx_lags", "vm", "name_y", "name_x", "constant_regi", "cols2regi", "regime_err_sep", "name_w",
    "name_regimes", "name_ds", "latex"]
  kw := true

/-- error_sp_regimes.py:1955-1957: `GM_Endog_Error_Regimes.__init__`. -/
def brGMMErrorRegimesKpEndog : Branch where
  cls := "GM_Endog_Error_Regimes"
  target := sigGMEndogErrorRegimes
  fwd := [
    "y", "x", "regimes", "yend", "q", "w", "slx_lags", "vm", "name_y", "name_x", "constant_regi", "cols2regi", "regime_err_sep",
    "name_yend", "name_q", "name_w", "name_regimes", "name_ds", "latex"]
  kw := true

/-- error_sp_regimes.py:1959-1961: `GM_Combo_Regimes.__init__`. -/
def brGMMErrorRegimesKpCombo : Branch where
  cls := "GM_Combo_Regimes"
  target := sigGMComboRegimes
  fwd := [
    "y", "x", "regimes", "yend", "q", "w", "slx_lags", "vm", "name_y", "name_x", "constant_regi", "cols2regi", "regime_err_sep",
    "regime_lag_sep", "name_yend", "name_q", "name_w", "name_regimes", "name_ds", "latex"]
  kw := true

/-- error_sp_regimes.py:1964-1966: `GM_Error_Regimes.__init__`. -/
def brGMMErrorRegimesKpElse : Branch where
  cls := "GM_Error_Regimes"
  target := sigGMErrorRegimes
  fwd := [
    "y", "x", "regimes", "w", "slx_lags", "vm", "name_y", "name_x", "constant_regi", "cols2regi", "regime_err_sep", "name_w",
    "name_regimes", "name_ds", "latex"]
  kw := false

/-- error_sp_regimes.py:1969-1971: `GM_Error_Het_Regimes.__init__`. -/
def brGMMErrorRegimesElse : Branch where
  cls := "GM_Error_Het_Regimes"
  target := sigGMErrorHetRegimes
  fwd := [
    "y", "x", "regimes", "w", "slx_lags", "vm", "name_y", "name_x", "constant_regi", "cols2regi", "regime_err_sep", "name_w",
    "name_regimes", "name_ds", "latex"]
  kw := false

/-- The choice of the class by `GMM_Error` without regimes, error_sp.py:1332-1377; `yendNone` is `yend is None`, `addWy` the truth
value of `add_wy`. -/
def gmmBranch (estimator : String) (yendNone addWy : Bool) : Branch :=
  if estimator = "het" then
    if yendNone ∧ !addWy then brGMMErrorHetError
    else if !yendNone ∧ !addWy then brGMMErrorHetEndog
    else if addWy then brGMMErrorHetCombo
    else brGMMErrorHetElse
  else if estimator = "hom" then
    if yendNone ∧ !addWy then brGMMErrorHomError
    else if !yendNone ∧ !addWy then brGMMErrorHomEndog
    else if addWy then brGMMErrorHomCombo
    else brGMMErrorHomElse
  else if estimator = "kp98" then
    if yendNone ∧ !addWy then brGMMErrorKpError
    else if !yendNone ∧ !addWy then brGMMErrorKpEndog
    else if addWy then brGMMErrorKpCombo
    else brGMMErrorKpElse
  else brGMMErrorElse

/-- The choice of the class by `GMM_Error_Regimes`, error_sp_regimes.py:1913-1971. -/
def gmmRegimesBranch (estimator : String) (yendNone addWy : Bool) : Branch :=
  if estimator = "het" then
    if yendNone ∧ !addWy then brGMMErrorRegimesHetError
    else if !yendNone ∧ !addWy then brGMMErrorRegimesHetEndog
    else if addWy then brGMMErrorRegimesHetCombo
    else brGMMErrorRegimesHetElse
  else if estimator = "hom" then
    if yendNone ∧ !addWy then brGMMErrorRegimesHomError
    else if !yendNone ∧ !addWy then brGMMErrorRegimesHomEndog
    else if addWy then brGMMErrorRegimesHomCombo
    else brGMMErrorRegimesHomElse
  else if estimator = "kp98" then
    if yendNone ∧ !addWy then brGMMErrorRegimesKpError
    else if !yendNone ∧ !addWy then brGMMErrorRegimesKpEndog
    else if addWy then brGMMErrorRegimesKpCombo
    else brGMMErrorRegimesKpElse
  else brGMMErrorRegimesElse

/-- How the values of the arguments are read by the tests of `GMM_Error`: `x is None`, the truth value of `x`, and the string
equal to `x` (only the comparisons with the three names of estimators matter). -/
structure Reads (V : Type) where
  isNone : V → Bool
  truth : V → Bool
  str : V → String

/-- `x is None` for a local variable; a default is None when its expression is. -/
def Reads.none? {V : Type} (r : Reads V) : Option (Val V) → Bool
  | some (.given v) => r.isNone v
  | some (.dflt c) => c == "None"
  | none => true

/-- The truth value of `add_wy`, default `False`. -/
def Reads.true? {V : Type} (r : Reads V) : Option (Val V) → Bool
  | some (.given v) => r.truth v
  | some (.dflt c) => c == "True"
  | none => false

/-- The value of `estimator`, default `'het'`. -/
def Reads.str? {V : Type} (r : Reads V) : Option (Val V) → String
  | some (.given v) => r.str v
  | some (.dflt c) => if c = "'het'" then "het" else c
  | none => ""

/-- `GMM_Error_Regimes.__init__`, error_sp_regimes.py:1913-1971: the class initialised and the values of its parameters. -/
def gmmErrorRegimes {V : Type} (r : Reads V) (args : List (String × Val V)) : Py (String × Bound V) := do
  let b ← bind sigGMMErrorRegimes args
  let br := gmmRegimesBranch (r.str? (b.val "estimator")) (r.none? (b.val "yend")) (r.true? (b.val "add_wy"))
  (passOn b br.fwd br.kw br.target).map fun c => (br.cls, c)

/-- `GMM_Error.__init__`, error_sp.py:1324-1377. -/
def gmmError {V : Type} (r : Reads V) (args : List (String × Val V)) : Py (String × Bound V) := do
  let b ← bind sigGMMError args
  if r.none? (b.val "regimes") then
    let br := gmmBranch (r.str? (b.val "estimator")) (r.none? (b.val "yend")) (r.true? (b.val "add_wy"))
    (passOn b br.fwd br.kw br.target).map fun c => (br.cls, c)
  else gmmErrorRegimes r (fwdGMMError.filterMap (fun p => (b.val p).map fun v => (p, v)) ++ b.extra)

end Spreg.Calls
