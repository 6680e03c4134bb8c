import Verif.Model.Lags
/-
Model of the assembly of regressors, instruments and their names in `GM_Lag` (twosls_sp.py:573-652)
and `BaseGM_Lag` (twosls_sp.py:191-201). Column contents as in `Verif.Model.Lags`.
-/
namespace Spreg.Lags
open Spreg
variable {α : Type}

/-- `name[-k:]`: the last `k` elements, and the whole list when `k = 0` (Python `l[-0:]`). -/
def lastN {β : Type} (l : List β) (k : Nat) : List β := if k = 0 then l else l.drop (l.length - k)

/-- What the estimation sees and reports: regressors `z` and their names `name_z`, instruments `q` (without
the exogenous part) and their names `name_q`. -/
structure GMLagOut (α : Type) where
  z : List α
  nameZ : List String
  q : List α
  nameQ : List String

/-- `GM_Lag.__init__` twosls_sp.py:583-651, after `check_constant` (so `x` has the constant `one` prepended
and `nameX` are the names of the non-constant columns) and after defaulting of names.
`self.k - self.kstar` is the number of exogenous columns (BaseTSLS). -/
def gmLag (W : α → α) (one y : α) (nameY : String) (x : List α) (nameX0 : List String)
    (yend q : Option (List α)) (nameYend nameQ : List String) (wLags : Nat) (lagQ : Bool)
    (slxLags : Nat) (slx : Option (List Bool)) : Py (GMLagOut α) := do
  let nx := "CONSTANT" :: nameX0
  -- twosls_sp.py:583-597
  let nameX ← (if slxLags > 0 then
      match slx with
      | some m => if m.length ≠ x.length then .error .exception
                  else pure (nx ++ setNameSpatialLags (compress nameX0 m) slxLags none)
      | none => pure (nx ++ setNameSpatialLags nameX0 slxLags none)
    else pure nx : Py (List String))
  -- BaseGM_Lag, twosls_sp.py:191-201
  let sv : SlxVars := match slx with | none => .all | some m => .mask m
  let e ← setEndog W y x yend q wLags lagQ slxLags sv
  let xAll := (one :: x) ++ e.lagX.getD []
  -- names, twosls_sp.py:621-651
  let nyend := nameYend ++ ["W_" ++ nameY]
  let nameX0' := if slxLags > 0 then
      match slx with
      | some m => "CONSTANT" :: (compress nameX.tail (m.map not) ++ lastN nameX (m.count true))
      | none => "CONSTANT" :: lastN nameX ((xAll.length - 1) / (slxLags + 1))
    else nameX
  pure ⟨xAll ++ e.yend, nameX ++ nyend, e.q, nameQ ++ setNameQSp nameX0' wLags nameQ lagQ false⟩

end Spreg.Lags
