import Verif.Model.GMLag
/-
Model of the coefficient tables (`reg.output`: names, types, one row per coefficient) of the classes without regimes, after
the input checks and the defaulting of names. Column contents as in `Verif.Model.Lags`; `one` is the constant.
A coefficient is described by the column it multiplies, or by the parameter of the error process it estimates.
-/
namespace Spreg.Tables
open Spreg Spreg.Lags
variable {α : Type}

/-- What an entry of `betas` is. -/
inductive Coef (α : Type) where
  | on (c : α)
  | par (s : String)
  deriving DecidableEq, Repr

/-- A row of `reg.output`: name, type, and the coefficient put beside it. -/
abbrev Row (α : Type) := String × String × Coef α

/-- `self.output = pd.DataFrame(names, columns=['var_names']); self.output['var_type'] = types` and `output()`'s
`reg.output['coefficients'] = reg.betas` (output.py:115-122): pandas raises a ValueError if lengths differ. -/
def mkTable (names types : List String) (coefs : List (Coef α)) : Py (List (Row α)) :=
  if types.length ≠ names.length then .error .valueError
  else if coefs.length ≠ names.length then .error .valueError
  else .ok (names.zip (types.zip coefs))

/-- `x_constant, name_x` after `if slx_lags > 0: flex_wx(..., constant=True, ...)`: ols.py:513-518, twosls.py:517-522,
error_sp.py:309-317, 681-689, error_sp_het.py:383-386, 917-921, error_sp_hom.py:381-390, 867-876, ml_error.py:521-527,
ml_lag.py:649-651. -/
def flexPart (W : α → α) (one : α) (x : List α) (nameX : List String) (s : Nat) (slx : Option (List Bool)) :
    Py (List α × List String) :=
  if s > 0 then do
    let o ← flexWx W (one :: x) ("CONSTANT" :: nameX) true s slx 0
    pure (o.x, o.nameX)
  else pure (one :: x, "CONSTANT" :: nameX)

/-- `OLS`, ols.py:507-533. -/
def olsTable (W : α → α) (one : α) (x : List α) (nameX : List String) (s : Nat) (slx : Option (List Bool)) :
    Py (List (Row α)) := do
  let (x', n') ← flexPart W one x nameX s slx
  mkTable n' (["o"] ++ List.replicate (n'.length - 1) "x") (x'.map .on)

/-- `TSLS`, twosls.py:515-550. -/
def tslsTable (W : α → α) (one : α) (x : List α) (nameX : List String) (yend : List α) (nameYend : List String) (s : Nat)
    (slx : Option (List Bool)) : Py (List (Row α)) := do
  let (x', n') ← flexPart W one x nameX s slx
  mkTable (n' ++ nameYend) (["o"] ++ List.replicate (n'.length - 1) "x" ++ List.replicate nameYend.length "yend")
    ((x' ++ yend).map .on)

/-- `GM_Error`, error_sp.py:303-327; `GM_Error_Het`, error_sp_het.py:378-407; `ML_Error`, ml_error.py:516-542. -/
def gmErrorTable (W : α → α) (one : α) (x : List α) (nameX : List String) (s : Nat) (slx : Option (List Bool)) :
    Py (List (Row α)) := do
  let (x', n') ← flexPart W one x nameX s slx
  let n' := n' ++ ["lambda"]
  mkTable n' (["o"] ++ List.replicate (n'.length - 2) "x" ++ ["lambda"]) (x'.map .on ++ [.par "lambda"])

/-- `GM_Error_Hom`, error_sp_hom.py:373-417: the constant is not set apart. -/
def gmErrorHomTable (W : α → α) (one : α) (x : List α) (nameX : List String) (s : Nat) (slx : Option (List Bool)) :
    Py (List (Row α)) := do
  let (x', n') ← flexPart W one x nameX s slx
  let n' := n' ++ ["lambda"]
  mkTable n' (List.replicate (n'.length - 1) "x" ++ ["lambda"]) (x'.map .on ++ [.par "lambda"])

/-- `GM_Endog_Error`, error_sp.py:675-703; `GM_Endog_Error_Het`, error_sp_het.py:911-957. -/
def gmEndogTable (W : α → α) (one : α) (x : List α) (nameX : List String) (yend : List α) (nameYend : List String) (s : Nat)
    (slx : Option (List Bool)) : Py (List (Row α)) := do
  let (x', n') ← flexPart W one x nameX s slx
  mkTable (n' ++ nameYend ++ ["lambda"])
    (["o"] ++ List.replicate (n'.length - 1) "x" ++ List.replicate nameYend.length "yend" ++ ["lambda"])
    ((x' ++ yend).map .on ++ [.par "lambda"])

/-- `GM_Endog_Error_Hom`, error_sp_hom.py:857-911: the constant is not set apart. -/
def gmEndogHomTable (W : α → α) (one : α) (x : List α) (nameX : List String) (yend : List α) (nameYend : List String)
    (s : Nat) (slx : Option (List Bool)) : Py (List (Row α)) := do
  let (x', n') ← flexPart W one x nameX s slx
  mkTable (n' ++ nameYend ++ ["lambda"])
    (List.replicate n'.length "x" ++ List.replicate nameYend.length "yend" ++ ["lambda"])
    ((x' ++ yend).map .on ++ [.par "lambda"])

/-- `wkx`, twosls_sp.py:584-594, error_sp.py:1014-1025, error_sp_het.py:1465-1476, error_sp_hom.py:1415-1426; `kw`, ml_lag.py:654-659:
the number of variables that are lagged. -/
def wkx (slx : Option (List Bool)) (kx : Nat) : Nat := match slx with | some m => m.count true | none => kx

/-- `ML_Lag`, ml_lag.py:642-688; `kx` counts the constant. -/
def mlLagTable (W : α → α) (one y : α) (nameY : String) (x : List α) (nameX : List String) (s : Nat)
    (slx : Option (List Bool)) : Py (List (Row α)) := do
  let kx := nameX.length + 1
  let (x', n') ← flexPart W one x nameX s slx
  let kw := wkx slx (kx - 1)
  let types := if s > 0 then ["o"] ++ List.replicate (kx - 1) "x" ++ List.replicate (kw * s) "wx" ++ ["rho"]
    else ["o"] ++ List.replicate (n'.length - 1) "x" ++ ["rho"]
  mkTable (n' ++ ["W_" ++ nameY]) types (x'.map .on ++ [.on (W y)])

/-- `var_types` of `GM_Lag`, twosls_sp.py:583-597, 646-652, without its last entries. -/
def lagTypes (nameX nameYend : List String) (s : Nat) (slx : Option (List Bool)) : List String :=
  let kx := nameX.length
  if s > 0 then ["o"] ++ List.replicate kx "x" ++ List.replicate (wkx slx kx * s) "wx" ++ List.replicate nameYend.length "yend"
  else ["o"] ++ List.replicate kx "x" ++ List.replicate nameYend.length "yend"

/-- `GM_Lag`, twosls_sp.py:570-662: names and columns are those of `gmLag`. -/
def gmLagTable (W : α → α) (one y : α) (nameY : String) (x : List α) (nameX : List String)
    (yend q : Option (List α)) (nameYend nameQ : List String) (wLags : Nat) (lagQ : Bool)
    (s : Nat) (slx : Option (List Bool)) : Py (List (Row α)) := do
  let o ← gmLag W one y nameY x nameX yend q nameYend nameQ wLags lagQ s slx
  mkTable o.nameZ (lagTypes nameX nameYend s slx ++ ["rho"]) (o.z.map .on)

/-- `GM_Combo`, error_sp.py:982-1073; `GM_Combo_Het`, error_sp_het.py:1429-1527; `GM_Combo_Hom`, error_sp_hom.py:1379-1493. The
names and columns are built as in `GM_Lag`, `lambda` comes last. (Where both fail, the order of the checks differs from
`GM_Lag`, the kind of error is the same.) -/
def gmComboTable (W : α → α) (one y : α) (nameY : String) (x : List α) (nameX : List String)
    (yend q : Option (List α)) (nameYend nameQ : List String) (wLags : Nat) (lagQ : Bool)
    (s : Nat) (slx : Option (List Bool)) : Py (List (Row α)) := do
  let o ← gmLag W one y nameY x nameX yend q nameYend nameQ wLags lagQ s slx
  mkTable (o.nameZ ++ ["lambda"]) (lagTypes nameX nameYend s slx ++ ["rho", "lambda"]) (o.z.map .on ++ [.par "lambda"])

/-! ### Panel models -/

/-- `prepare_panel`, panel_utils.py:28-42, after `check_panel`: columns, names, `kx`, `kwx`. `one` is added with
`add_constant=True`. -/
def preparePanel (W : α → α) (one : Option α) (x : List α) (nameX : List String) (s : Nat) (slx : Option (List Bool)) :
    Py (List α × List String × Nat × Nat) := do
  let bigx := match one with | some c => c :: x | none => x
  let names := match one with | some _ => "CONSTANT" :: nameX | none => nameX
  let kx := bigx.length
  let (b, n) ← (if s > 0 then do
      let o ← flexWx W bigx names one.isSome s slx 0
      pure (o.x, o.nameX)
    else pure (bigx, names) : Py (List α × List String))
  pure (b, n, kx, b.length - kx)

/-- `PooledOLS`, panel.py:179-192; `PanelRE`, panel.py:638; (`extra = []`); `GM_ErrorPooled`, panel.py:841-853 and
`ML_ErrorPooled`, panel.py:1047-1063 (`["lambda"]`); `ML_ErrorRE`, panel.py:2287-2298 (`["lambda", "sigma2_u"]`);
`GM_ErrorRE`, panel.py:1475-1486 (`["lambda", " sigma2_v", "sigma2_1"]`). -/
def panelConstTable (extra : List String) (W : α → α) (one : α) (x : List α) (nameX : List String) (s : Nat)
    (slx : Option (List Bool)) : Py (List (Row α)) := do
  let (b, n, kx, kwx) ← preparePanel W (some one) x nameX s slx
  mkTable (n ++ extra) (["o"] ++ List.replicate (kx - 1) "x" ++ List.replicate kwx "wx" ++ extra)
    (b.map .on ++ extra.map .par)

/-- `PanelFE`, panel.py:384-385. -/
def panelFETable (W : α → α) (x : List α) (nameX : List String) (s : Nat) (slx : Option (List Bool)) : Py (List (Row α)) := do
  let (b, n, kx, kwx) ← preparePanel W none x nameX s slx
  mkTable n (List.replicate kx "x" ++ List.replicate kwx "wx") (b.map .on)

/-- `ML_ErrorFE`, panel.py:1837-1847: the first regressor is set apart as if it were a constant. -/
def mlErrorFETable (W : α → α) (x : List α) (nameX : List String) (s : Nat) (slx : Option (List Bool)) : Py (List (Row α)) := do
  let (b, n, kx, kwx) ← preparePanel W none x nameX s slx
  mkTable (n ++ ["lambda"]) (["o"] ++ List.replicate (kx - 1) "x" ++ List.replicate kwx "wx" ++ ["lambda"])
    (b.map .on ++ [.par "lambda"])

/-- `ML_LagFE`, panel.py:2661-2675. -/
def mlLagFETable (W : α → α) (y : α) (nameY : String) (x : List α) (nameX : List String) (s : Nat) (slx : Option (List Bool)) :
    Py (List (Row α)) := do
  let (b, n, kx, kwx) ← preparePanel W none x nameX s slx
  mkTable (n ++ ["W_" ++ nameY]) (List.replicate kx "x" ++ List.replicate kwx "wx" ++ ["rho"]) (b.map .on ++ [.on (W y)])

/-- `ML_LagRE`, panel.py:3063-3077. -/
def mlLagRETable (W : α → α) (one y : α) (nameY : String) (x : List α) (nameX : List String) (s : Nat)
    (slx : Option (List Bool)) : Py (List (Row α)) := do
  let (b, n, kx, kwx) ← preparePanel W (some one) x nameX s slx
  mkTable (n ++ ["W_" ++ nameY] ++ ["phi"]) (["o"] ++ List.replicate (kx - 1) "x" ++ List.replicate kwx "wx" ++ ["rho", "phi"])
    (b.map .on ++ [.on (W y), .par "phi"])

end Spreg.Tables
