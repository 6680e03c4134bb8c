import Verif.Model.Checks
import Verif.Model.Regimes
import Verif.Model.SURSummary
/-
Model of the coefficient tables of the deprecated panel classes `Panel_FE_Lag`, `Panel_FE_Error`, `Panel_RE_Lag`, `Panel_RE_Error`
(panel_fe.py, panel_re.py) and `GM_KKP` (sp_panels.py), printed by summary_output.py. A coefficient `β` and its inference `σ` (standard error,
statistic, probability: columns 3 to 5) are opaque; the number formats are not modelled. Standard errors and statistics have one entry
per row of `vm`, so one list stands for both.
-/
namespace Spreg.PanelTable
open Spreg.Regimes Spreg.SURSummary

/-- Attributes that `_get_var_indices` reads from a regression with regimes: `kr`, `kryd`, `nr`, `kf`, the number of columns of
`yend` (if there is such an attribute) and `constant_regi`. `kryd` is at most `kr` (it is part of it, regimes.py:252-255). -/
structure RegAttrs where
  kr : ℕ
  kryd : ℕ
  nr : ℕ
  kf : ℤ
  yendCols : Option ℕ
  const : ConstRegi

/-- `l[a:b]`. -/
def pySlice {α : Type} (l : List α) (a b : ℤ) : List α :=
  let f : ℤ → ℕ := fun z => if z < 0 then (z + l.length).toNat else min z.toNat l.length
  (l.drop (f a)).take (f b - f a)

/-- `l.index(s)`: `none` for ValueError. -/
def indexOf (l : List String) (s : String) : Option ℕ := l.findIdx? (· == s)

/-- `last_v`, summary_output.py:1182-1184. -/
def lastV (names : List String) (nStat nBetas : ℕ) (lambd : Bool) : ℤ :=
  names.length + if lambd then (nStat : ℤ) - nBetas else 0

/-- The part of `_get_var_indices` in the `try` block, summary_output.py:1186-1222; `none` when a name is not found. -/
def regIndices (r : RegAttrs) (names : List String) (nStat nBetas : ℕ) (lambd : Bool) : Option (List ℕ) := do
  let kf := r.kf + if lambd then (nStat : ℤ) - nBetas else 0
  let krex := r.kr - r.kryd
  let kfyd : ℤ := match r.yendCols with
    | some c => (c : ℤ) - r.nr * r.kryd
    | none => 0
  let jCon : ℕ := if r.const = .many then 1 else 0
  let parts ← (List.range r.nr).mapM fun i =>
    let j := i * krex
    let jyd : ℤ := krex * r.nr + i * r.kryd + kf - kfyd + if nStat = nBetas ∧ lambd then -1 else 0
    let nameReg := pySlice names ((j + jCon : ℕ) : ℤ) ((j + krex : ℕ) : ℤ) ++ pySlice names jyd (jyd + r.kryd)
    (nameReg.mapM (indexOf names)).map fun l => if r.const = .many then j :: l else l
  let idx := parts.flatten ++ if r.const = .one then [krex * r.nr] else []
  if (idx.length : ℤ) < lastV names nStat nBetas lambd then
    let nameReg := if (idx.length : ℤ) - lastV names nStat nBetas lambd = -1 ∧ 0 < r.kryd ∧ lambd then ["lambda"]
      else pySlice names (krex * r.nr + 1 - jCon) (krex * r.nr + kf - kfyd) ++
        pySlice names (r.kr * r.nr + kf - kfyd) (r.kr * r.nr + kf)
    let l ← nameReg.mapM (indexOf names)
    pure (idx ++ l)
  else pure idx

/-- `_get_var_indices`, summary_output.py:1177-1226: without regimes (or when a name is missing) all positions of
`var_names[1:last_v]`, and one more. -/
def varIndices (attrs : Option RegAttrs) (names : List String) (nStat nBetas : ℕ) (lambd : Bool) : List ℕ :=
  let all := List.range ((pySlice names 1 (lastV names nStat nBetas lambd)).length + 1)
  match attrs with
  | none => all
  | some r => (regIndices r names nStat nBetas lambd).getD all

/-- A printed row: name, coefficient and, if there is any, its inference. -/
structure Row (β σ : Type) where
  name : String
  beta : β
  inf : Option σ

variable {β σ : Type}

/-- `l[i]`. -/
def get {α : Type} (l : List α) (i : ℕ) : Py α := match l[i]? with | some a => .ok a | none => .error .indexError

/-- One row with inference, summary_output.py:1323-1329, 1407-1413. -/
def row (names : List String) (betas : List β) (stats : List σ) (i : ℕ) : Py (Row β σ) := do
  let s ← get names i
  let b ← get betas i
  let t ← get stats i
  pure ⟨s, b, some t⟩

/-- `summary_coefs_allx` (`lambd = False`) and `summary_coefs_somex` (`lambd = True`), summary_output.py:1319-1332, 1400-1415. -/
def coefs (attrs : Option RegAttrs) (names : List String) (betas : List β) (stats : List σ) (lambd : Bool) : Py (List (Row β σ)) :=
  (varIndices attrs names stats.length betas.length lambd).mapM (row names betas stats)

/-- `summary_coefs_lambda`, summary_output.py:1429-1452. -/
def coefsLambda (names : List String) (betas : List β) (stats : List σ) : Py (List (Row β σ)) :=
  if betas.length = stats.length then do
    let s ← pyGet names (-1)
    let b ← pyGet betas (-1)
    let t ← pyGet stats (-1)
    pure [⟨s, b, some t⟩]
  else
    (List.range (betas.length - stats.length)).mapM fun (i : ℕ) => do
      let k : ℤ := (i : ℤ) - ((betas.length - stats.length : ℕ) : ℤ)
      let s ← pyGet names k
      let b ← pyGet betas k
      pure ⟨s, b, none⟩

/-- The four maximum likelihood panel classes. -/
inductive MLPanel
  | feLag | feError | reLag | reError
  deriving DecidableEq

/-- Names of the coefficients, panel_fe.py:347-350, 635-637, panel_re.py:401-405, 767-770: names of the `cols` columns of the stacked
regressors (in the random effects classes the first is the constant), then the parameters. -/
def mlNames (c : MLPanel) (nameX : Option (List String)) (nameY : String) (cols : ℕ) : List String :=
  match c with
  | .feLag => Chk.setNameX nameX cols true ++ ["W_" ++ nameY]
  | .feError => Chk.setNameX nameX cols true ++ ["lambda"]
  | .reLag => Chk.setNameX nameX cols false ++ ["W_" ++ nameY, "phi"]
  | .reError => Chk.setNameX nameX cols false ++ ["lambda", "sig2_u"]

/-- The table of these classes, summary_output.py:870-928. `vm` is for all coefficients. -/
def mlTable (c : MLPanel) (nameX : Option (List String)) (nameY : String) (cols : ℕ) (betas : List β) (stats : List σ) :
    Py (List (Row β σ)) := coefs none (mlNames c nameX nameY cols) betas stats false

/-- Names of the coefficients of `GM_KKP`, sp_panels.py:347-366: `names` are those of the (possibly regime-expanded) regressors. -/
def kkpNames (names : List String) : List String := names ++ ["lambda", " sigma2_v", "sigma2_1"]

/-- Attributes of `GM_KKP` with regimes, sp_panels.py:350-370, 376-379: all coefficients vary, the constant too; `kf` is `0 + 3`. -/
def kkpAttrs (k nr : ℕ) : RegAttrs := ⟨k, 0, nr, 3, none, .many⟩

/-- The table of `GM_KKP`, summary_output.py:857-867: rows with inference, then those without. -/
def kkpTable (attrs : Option RegAttrs) (names : List String) (betas : List β) (stats : List σ) : Py (List (Row β σ)) := do
  let a ← coefs attrs (kkpNames names) betas stats true
  let b ← coefsLambda (kkpNames names) betas stats
  pure (a ++ b)

/-- Headings and rows of `summary_vm` with `instruments=False`, summary_output.py:1952-1969. -/
def vmTable {α : Type} (names : List String) (vm : List (List α)) : List String × List (List α) := (names, vm)

end Spreg.PanelTable
