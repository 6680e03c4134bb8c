import Verif.Model.Regimes
/-
Model of output.py (the coefficient table `output`, the names of the Chow table) and of the code that labels its rows and uses the
labels: ml_lag_regimes.py, twosls_sp_regimes.py, twosls_regimes.py and the regimes branch of `_sp_effects` in sputils.py.
-/
namespace Spreg.Output
open Spreg Spreg.Regimes

/-! ### The coefficient table -/

/-- One row of `reg.output`: index label, `var_names`, `var_type`, `regime`, `equation` and the cells that output.py adds
(coefficient, standard error, statistic, probability; `none` while they are None). `K` is the type of regime labels. -/
structure Row (K T C : Type) where
  label : ℕ
  name : String
  vtype : T
  regime : K
  eq : K
  cells : Option C

/-- `coefs.index = reg.output[reg.output['equation'] == m].index`, `reg.output.update(coefs)`, output.py:121-122. An index of another
length raises ValueError; so does `update` when labels repeat. -/
def assign {K T C : Type} [DecidableEq K] (rows : List (Row K T C)) (m : K) (coefs : List C) : Py (List (Row K T C)) :=
  let labels := (rows.filter fun r => r.eq = m).map (·.label)
  if labels.length ≠ coefs.length ∨ ¬ (rows.map (·.label)).Nodup then .error .valueError
  else .ok (rows.map fun r => match (labels.zip coefs).lookup r.label with
    | some c => { r with cells := some c }
    | none => r)

/-- `reg.output['equation'].unique()`: values in order of appearance. -/
def eqs {K : Type} [DecidableEq K] : List K → List K
  | [] => []
  | a :: t => a :: (eqs t).filter (· ≠ a)

/-- Order of the final sort, output.py:32. -/
def le {K T C : Type} [LinearOrder K] (a b : Row K T C) : Bool := decide (a.eq < b.eq ∨ (a.eq = b.eq ∧ a.regime ≤ b.regime))

/-- `output(reg, ...)`, output.py:19-33: the cells of each equation are filled in, then `sort_values` by equation and regime (several
keys: pandas sorts stably). `coefs m` are the rows of results of equation `m`. -/
def table {K T C : Type} [LinearOrder K] (rows : List (Row K T C)) (coefs : K → List C) : Py (List (Row K T C)) := do
  let rows ← (eqs (rows.map (·.eq))).foldlM (fun rows m => assign rows m (coefs m)) rows
  .ok (rows.mergeSort le)

/-- A frame built from lists of equal length with the default index, `equation` 0 (e.g. ols_regimes.py:501-505, error_sp_regimes.py:
378-382). -/
def frame {K T C : Type} (eq0 : K) (desc : List (String × T × K)) : List (Row K T C) :=
  desc.mapIdx fun i d => { label := i, name := d.1, vtype := d.2.1, regime := d.2.2, eq := eq0, cells := none }

/-- `pd.concat([self.output, pd.DataFrame({..., 'regime': r, 'equation': r})], ignore_index=True)` over the regimes (e.g.
ols_regimes.py:660, twosls_regimes.py:607). -/
def frameMulti {K T C : Type} (desc : List (K × List (String × T))) : List (Row K T C) :=
  (desc.flatMap fun p => p.2.map fun d => (p.1, d)).mapIdx fun i d =>
    { label := i, name := d.2.1, vtype := d.2.2, regime := d.1, eq := d.1, cells := none }

/-- `self.output.sort_values(by='regime')`, twosls_regimes.py:628. One key: pandas uses an unstable quicksort, so any order that is
sorted by regime may result. -/
def SortedBy {K T C : Type} [LinearOrder K] (rows rows' : List (Row K T C)) : Prop :=
  rows'.Perm rows ∧ rows'.Pairwise fun a b => a.regime ≤ b.regime

/-! ### Names of the Chow table -/

/-- `l[i]` for a list. -/
def at? {α : Type} (l : List α) (i : ℕ) : Py α :=
  match l[i]? with
  | some a => .ok a
  | none => .error .indexError

/-- `np.where(l)[0]`. -/
def whereTrue (l : List Bool) : List ℕ := (List.range l.length).filter fun i => l.getD i false

/-- The names without the constant, output.py:238-241. -/
def chowBase (nameXr : List String) (c2r : Cols2Regi) : Py (List String) :=
  match c2r with
  | .all => .ok nameXr.tail
  | .list l =>
    if l ≠ [] ∧ ∀ b ∈ l, b = true then .ok nameXr.tail
    else (whereTrue l).mapM fun i => at? nameXr.tail i

/-- `names_chow`, output.py:238-247; `nlambda` is the number of rows of type lambda. -/
def namesChow (nameXr : List String) (c2r : Cols2Regi) (const : ConstRegi) (nlambda : ℕ) : Py (List String) :=
  (chowBase nameXr c2r).map fun base =>
    let base := if const = .many then "CONSTANT" :: base else base
    if nlambda > 1 then base ++ ["lambda"] else base

/-- The rows of `output_chow` before the row of the global test, output.py:249-251: `pd.concat(axis=1)` of the names and of the
statistics, missing values where one is shorter. -/
def chowTable {C : Type} : List String → List C → List (Option String × Option C)
  | [], cs => cs.map fun c => (none, some c)
  | n :: ns, [] => (some n, none) :: chowTable ns []
  | n :: ns, c :: cs => (some n, some c) :: chowTable ns cs

/-- The Chow table that a user finds: an exception while it is made is swallowed by the bare `except` of output.py:191-193 and
214-216, and then there is none. -/
def chowOutput {C : Type} (nameXr : List String) (c2r : Cols2Regi) (const : ConstRegi) (nlambda : ℕ) (regi : List C) :
    Option (List (Option String × Option C)) :=
  match namesChow nameXr c2r const nlambda with
  | .ok ns => some (chowTable ns regi)
  | .error _ => none

/-- What `ML_Error_Regimes` stores as `cols2regi`, ml_error_regimes.py:330-331: the flags with that of the constant in front. -/
def mlErrorCols2regi (const : ConstRegi) (c2r : Cols2Regi) (k : ℕ) : Py Cols2Regi :=
  (checkCols2regi const c2r k true).map .list

/-- Names of the coefficients of a two stage model with regimes, single system, twosls_regimes.py:418-444: the frames of the exogenous
and of the endogenous variables. `c2r` has the flags of both. -/
def tslsNames {L : Type} (str : L → String) (xnames ynames : List String) (many : Bool) (c2r : List Bool) (rs : List L) : List String :=
  (setNameXRegimes str ("CONSTANT" :: xnames) (many :: c2r.take xnames.length) rs (VType.o :: List.replicate xnames.length VType.x)).1 ++
  (setNameXRegimes str ynames (c2r.drop (c2r.length - ynames.length)) rs (List.replicate ynames.length VType.yend)).1

/-! ### `cols2regi` in the spatial lag models with regimes -/

/-- `cols2regi` in `GM_Lag_Regimes` with `regime_lag_sep=False`, twosls_sp_regimes.py:515-562, and the check made of it by
`TSLS_Regimes`, twosls_regimes.py:379. `kx` exogenous variables, `kwx` spatial lags of them, `kye` endogenous variables. -/
def gmLagCols2regi (const : ConstRegi) (c2r : Cols2Regi) (slx : ℕ) (kx kwx kye : ℕ) : Py (List Bool) := do
  let c ← if slx > 0 then
      match c2r with
      | .all => (checkCols2regi const .all (kx + kwx + (kye + 1)) false).map List.dropLast
      | .list l => checkCols2regi const (.list l) (kx + kwx + (kye + 1)) false
    else checkCols2regi const c2r (kx + kye) false
  checkCols2regi const (.list (c ++ [false])) (kx + (if slx > 0 then kwx else 0) + (kye + 1)) false

/-- `cols2regi` in `ML_Lag_Regimes` with `regime_lag_sep=False`, ml_lag_regimes.py:363-393; `kx` counts the spatial lags too. -/
def mlLagCols2regi (const : ConstRegi) (c2r : Cols2Regi) (kx : ℕ) : Py (List Bool) :=
  (checkCols2regi const c2r kx false).map (· ++ [false])

/-! ### Labels of the spatially lagged variables -/

/-- `var_type`. -/
inductive VT
  | o | x | yend | wx | rho | lambda
  deriving DecidableEq

/-- `self.output.loc[idx, 'var_type'] = 'wx'` for labels that are positions. -/
def setWx (rows : List (String × VT)) (idx : List ℕ) : List (String × VT) :=
  rows.mapIdx fun i r => if i ∈ idx then (r.1, .wx) else r

/-- `index[-n:]` -/
def lastN {α : Type} (n : ℕ) (l : List α) : List α := if n = 0 then l else l.drop (l.length - n)

/-- `r_output.index`, ml_lag_regimes.py:452, twosls_sp_regimes.py:645: positions of the rows of regime `m` of type x or o. Rows are
pairs of `regime` and `var_type`. -/
def rIndex (rows : List (String × VT)) (m : String) : List ℕ :=
  (List.range rows.length).filter fun i => (rows.getD i ("", .o)).1 = m ∧ ((rows.getD i ("", .o)).2 = .x ∨ (rows.getD i ("", .o)).2 = .o)

/-- The labelling of `ML_Lag_Regimes`, ml_lag_regimes.py:447-457. `c2r` has the flags of the `kx + kwx` regressors and the False of
the spatial lag. -/
def mlWxLabels (rs : List String) (c2r : List Bool) (kwx : ℕ) (rows : List (String × VT)) : List (String × VT) :=
  let fixed := ((c2r.dropLast.drop (c2r.length - (kwx + 1))).filter (· = false)).length
  let kv := kwx - fixed
  let rows := if kv > 0 then rs.foldl (fun rows m => setWx rows (lastN kv (rIndex rows m))) rows else rows
  if fixed > 0 then setWx rows (List.range' (rows.length - (fixed + 1)) fixed) else rows

/-- The labelling of `GM_Lag_Regimes`, twosls_sp_regimes.py:643-647. -/
def gmWxLabels (rs : List String) (slx : ℕ) (rows : List (String × VT)) : List (String × VT) :=
  rs.foldl (fun rows m => setWx rows (lastN (((rIndex rows m).length - 1) / (slx + 1) * slx) (rIndex rows m))) rows

/-- Rows (regime, type) of a single-system spatial lag model with regimes before labelling: the frame of the exogenous variables
(constant first), then the rows `endo` of the endogenous ones, and the spatial lag, which does not vary here (ml_lag_regimes.py:
439-443, without `endo`; twosls_regimes.py:439-444 with twosls_sp_regimes.py:637). `mask` has the flag of the constant first. -/
def lagRows {L : Type} (str : L → String) (rs : List L) (mask : List Bool) (endo : List (String × VT)) : List (String × VT) :=
  let types := VT.o :: List.replicate (mask.length - 1) VT.x
  let nm := setNameXRegimes str (List.replicate mask.length "") mask rs types
  nm.2.2.zip nm.2.1 ++ (endo ++ [("_Global", VT.rho)])

/-! ### Impacts with regimes -/

/-- `reg.betas[idx]`: IndexError outside. -/
def betasAt {V : Type} (betas : List V) (idx : List ℕ) : Py (List V) := idx.mapM (at? betas)

/-- Positions of the variables that get impacts, output.py:614-617: type x, name not ending with `_CONSTANT` (`isConst`). -/
def impactIndex (rows : List (String × VT)) (isConst : ℕ → Bool) : List ℕ :=
  (List.range rows.length).filter fun i => (rows.getD i ("", .o)).2 = .x ∧ isConst i = false

/-- `btot` of `_sp_effects`, sputils.py:357-371, for a model with regimes and `slx_lags > 0`; `m1` is the multiplier. -/
def regimeTotal {V : Type} [Add V] [Mul V] (m1 : V) (rows : List (String × VT)) (isConst : ℕ → Bool) (betas : List V) (slx : ℕ) :
    Py (List V) := do
  let vi := impactIndex rows isConst
  let wchunk := (vi.filter fun i => (rows.getD i ("", .o)).1 = (rows.getD 0 ("", .o)).1).length
  let b ← betasAt betas vi
  (List.range slx).foldlM (fun btot i => do
    let bw ← betasAt betas (vi.map (· + (i + 1) * wchunk))
    .ok (List.zipWith (· + ·) btot (bw.map (m1 * ·)))) (b.map (m1 * ·))

end Spreg.Output
