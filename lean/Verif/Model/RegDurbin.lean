import Verif.Model.Regimes
import Verif.Model.LM
/-
Model of the spatial Durbin models with regimes estimated in one equation: the table of coefficients of `GM_Lag_Regimes`
(twosls_sp_regimes.py:627-655) and `ML_Lag_Regimes` (ml_lag_regimes.py:412-459), the common factor test (output.py:286-305)
and the impacts (output.py:611-644, sputils.py:357-397) computed from it.

No endogenous variables besides the spatial lag of the dependent variable. The numbers are those of the coefficients in the
order of the rows of the table.
-/
namespace Spreg.RegDurbin
open Spreg Spreg.Regimes

/-- What a coefficient multiplies: the constant, variable `j`, the `l`-th spatial lag of variable `j`, the lag of the
dependent variable. -/
inductive Kind where
  | const
  | x (j : ℕ)
  | wx (l j : ℕ)
  | lagY
  deriving DecidableEq

/-- The values of `var_type`. -/
inductive VT where
  | o | x | wx | rho
  deriving DecidableEq

/-- A row of the table `output`. -/
structure Row where
  kind : Kind
  vt : VT
  regime : String
  deriving DecidableEq

/-- The exogenous columns after `x_constant = hstack((x_constant, wx))` / `flex_wx`: `kx` variables, then for every order of
the lag the variables in `lagged` (twosls_sp_regimes.py:516, ml_lag_regimes.py:351). -/
def columns (kx s : ℕ) (lagged : List ℕ) : List Kind :=
  (List.range kx).map .x ++ (List.range s).flatMap fun l => lagged.map (.wx (l + 1))

/-- Types and regimes of the rows of `Regimes_Frame` with `constant_regi` "many" or "one", regimes.py:243-267, 441-497: every
exogenous column has type "x", the constant type "o"; `vary` says which columns vary. -/
def frameRows (str : ℕ → String) (rs : List ℕ) (many : Bool) (vary : List Bool) (cols : List Kind) : List Row :=
  let c2 := many :: vary
  let ks := (Kind.const, VT.o) :: cols.map (·, VT.x)
  rs.flatMap (fun r => (select c2 true ks).map fun p => ⟨p.1, p.2, str r⟩) ++
    (select c2 false ks).map fun p => ⟨p.1, p.2, "_Global"⟩

/-- The row of the spatial lag of the dependent variable, twosls_sp_regimes.py:635, ml_lag_regimes.py:436-437. -/
def rhoRow : Row := ⟨.lagY, .rho, "_Global"⟩

/-- Give type "wx" to the first `c` rows that satisfy `p`. -/
def markFirst (p : Row → Bool) : ℕ → List Row → List Row
  | 0, l => l
  | _ + 1, [] => []
  | c + 1, a :: l => if p a then { a with vt := .wx } :: markFirst p c l else a :: markFirst p (c + 1) l

/-- `output.loc[index[-c:], 'var_type'] = 'wx'` where `index` are the rows that satisfy `p`; `index[-0:]` is all of it. -/
def markLast (p : Row → Bool) (c : ℕ) (l : List Row) : List Row :=
  (markFirst p (if c = 0 then l.length else c) l.reverse).reverse

/-- `(output['regime'] == str(m)) & (output['var_type'].isin(['x', 'o']))`. -/
def inRegime (m : String) (a : Row) : Bool := decide (a.regime = m) && (decide (a.vt = .x) || decide (a.vt = .o))

/-- One pass of the loop twosls_sp_regimes.py:645-648. -/
def gmStep (s : ℕ) (rows : List Row) (m : String) : List Row :=
  markLast (inRegime m) (((rows.filter (inRegime m)).length - 1) / (s + 1) * s) rows

/-- The table of `GM_Lag_Regimes` (one equation), twosls_regimes.py:440-443, twosls_sp_regimes.py:635, 643-648. -/
def gmRows (str : ℕ → String) (rs : List ℕ) (many : Bool) (vary : List Bool) (kx s : ℕ) (lagged : List ℕ) : List Row :=
  let rows := frameRows str rs many vary (columns kx s lagged) ++ [rhoRow]
  if s = 0 then rows else rs.foldl (fun t r => gmStep s t (str r)) rows

/-- The table of `ML_Lag_Regimes` (one equation), ml_lag_regimes.py:434-456: the columns that are lags are counted, those that
do not vary are the last ones before the row of the spatial lag. -/
def mlRows (str : ℕ → String) (rs : List ℕ) (many : Bool) (vary : List Bool) (kx s : ℕ) (lagged : List ℕ) : List Row :=
  let rows := frameRows str rs many vary (columns kx s lagged) ++ [rhoRow]
  if s = 0 then rows
  else
    let kwx := s * lagged.length
    let fixed := ((vary.drop (vary.length - kwx)).filter (· = false)).length
    let rows := if kwx - fixed = 0 then rows else
      rs.foldl (fun t r => markLast (inRegime (str r)) (kwx - fixed) t) rows
    if fixed = 0 then rows
    else markLast (fun a => decide (a.vt ≠ .rho)) fixed rows

/-- Positions of the rows that satisfy `p`, counted from `i`. -/
def idxs (p : Row → Bool) : List Row → ℕ → List ℕ
  | [], _ => []
  | a :: l, i => if p a then i :: idxs p l (i + 1) else idxs p l (i + 1)

/-- `Series.unique()`: values in order of first appearance. -/
def uniq : List String → List String
  | [] => []
  | a :: l => a :: (uniq l).filter (· ≠ a)

/-- `x_indices`, output.py:291-293. -/
def xIdx (rows : List Row) : List ℕ :=
  (uniq (rows.map Row.regime)).flatMap fun m => idxs (fun a => decide (a.regime = m) && decide (a.vt = .x)) rows 0

/-- `wx_indices`, output.py:290. -/
def wxIdx (rows : List Row) : List ℕ :=
  idxs (fun a => decide (a.vt = .wx) && decide (a.regime ≠ "_Global")) rows 0

/-- The pairs of coefficients (variable, lag) compared by the common factor test, output.py:288-299: `rho * beta + gamma` and
the product with `vm` raise ValueError when the numbers of indices differ. -/
def cfhPairs (rows : List Row) : Py (List (ℕ × ℕ)) :=
  if (xIdx rows).length = (wxIdx rows).length then .ok ((xIdx rows).zip (wxIdx rows)) else .error .valueError

/-- The common factor test, output.py:288-300, diagnostics_sp.py:994-1001: `none` when the matrix is singular. -/
noncomputable def cfhTest (rows : List Row) (betas : ℕ → ℝ) (vm : ℕ → ℕ → ℝ) (rho : ℝ) (rhoPos : ℕ) :
    Py (Option LM.Test) := do
  let ps ← cfhPairs rows
  let pos : (Fin ps.length ⊕ Fin ps.length) ⊕ Unit → ℕ
    | .inl (.inl i) => ps[i].1
    | .inl (.inr i) => ps[i].2
    | .inr _ => rhoPos
  return LM.comfac rho (fun i : Fin ps.length => betas ps[i].1) (fun i => betas ps[i].2)
    (Matrix.of fun a b => vm (pos a) (pos b))

/-- A line of the table of impacts: the row of the variable, direct, indirect and total effect. -/
structure Impact where
  pos : ℕ
  direct : ℝ
  indirect : ℝ
  total : ℝ

/-- `wchunk_size`, sputils.py:366. -/
def chunk (rows : List Row) : ℕ :=
  (rows.filter fun a => decide (a.vt = .x) && decide (some a.regime = rows.head?.map Row.regime)).length

/-- `_sp_effects` for regimes with lags, sputils.py:357-371, 392; `m1`, `m2` are the average total and direct multipliers. An
index beyond the coefficients raises IndexError. -/
noncomputable def impacts (rows : List Row) (betas : ℕ → ℝ) (s : ℕ) (m1 m2 : ℝ) : Py (List Impact) :=
  let ix := idxs (fun a => decide (a.vt = .x)) rows 0
  if ∀ p ∈ ix, ∀ l < s, p + (l + 1) * chunk rows < rows.length then
    .ok (ix.map fun p =>
      let tot := m1 * betas p + ∑ l ∈ Finset.range s, m1 * betas (p + (l + 1) * chunk rows)
      ⟨p, m2 * betas p, tot - m2 * betas p, tot⟩)
  else .error .indexError

end Spreg.RegDurbin
