import Verif.Model.Basic
import Mathlib.Data.Rat.Floor
import Mathlib.Data.List.Dedup
import Mathlib.Data.List.Sort
import Mathlib.Algebra.BigOperators.Group.List.Basic
import Mathlib.Algebra.Ring.Defs
/-
Model of regimes.py (labels, regime-expanded designs and their names, restriction matrices) and of the
multi-process assembly in ols_regimes.py / twosls_regimes.py.

`L` is the type of regime labels, `V` the type of numbers. A dense matrix is a list of rows or a list of
columns, as said in each definition.
-/
namespace Spreg.Regimes
open Spreg

/-! ### Labels -/

/-- `_get_regimes_set(regimes)` regimes.py:693-701 for labels that are not floats (strings, ints):
`list(set(regimes))` sorted. The iteration order of the Python `set` is irrelevant after sorting; `dedup`
stands for it. An empty list raises IndexError at `regimes_set[0]`. -/
def regimesSet {L : Type} [DecidableEq L] (le : L → L → Prop) [DecidableRel le] (regimes : List L) :
    Py (List L) :=
  if regimes = [] then .error .indexError else .ok ((regimes.dedup).insertionSort le)

/-- Python `int(x)` of a float: truncation towards zero (finite floats are rationals here). -/
def pyInt (q : ℚ) : ℚ := if 0 ≤ q then (⌊q⌋ : ℚ) else (⌈q⌉ : ℚ)

/-- `_get_regimes_set(regimes)` regimes.py:693-701 for float labels: when truncation to int keeps the number
of distinct labels, the truncated labels replace the labels. -/
def regimesSetFloat (regimes : List ℚ) : Py (List ℚ) :=
  if regimes = [] then .error .indexError else
  let s := regimes.dedup
  let s1 := (s.map pyInt).dedup
  let s := if s1.length = s.length then s1 else s
  .ok (s.insertionSort (· ≤ ·))

/-- `list(np.where(np.array(l) == r)[0])`: positions of `r`, from offset `off`. -/
def whereEq {L : Type} [DecidableEq L] (r : L) : List L → (off : Nat) → List Nat
  | [], _ => []
  | a :: t, off => if a = r then off :: whereEq r t (off + 1) else whereEq r t (off + 1)

/-- `regi_ids[r]`, ols_regimes.py:476-478 (and regimes.py:553, 705). -/
def regiIds {L : Type} [DecidableEq L] (regimes : List L) (r : L) : List Nat := whereEq r regimes 0

/-! ### CSR assembly -/

/-- A CSR triple. -/
structure CSR (V : Type) where
  data : List V
  indices : List Nat
  indptr : List Nat

/-- `regime_by_row`, regimes.py:637 -/
def regimeByRow {L : Type} (k : Nat) (rs : List L) : List L := rs.flatMap fun r => List.replicate k r

/-- `row_map[row]`, regimes.py:638-639: KeyError for a label that is not in the set. -/
def rowMap {L : Type} [DecidableEq L] (k : Nat) (rs : List L) (r : L) : Py (List Nat) :=
  if r ∈ rs then .ok (whereEq r (regimeByRow k rs) 0) else .error .keyError

/-- `x2xsp(x, regimes, regimes_set)` regimes.py:610-643; `x` is the list of its rows, `k = x.shape[1]`. -/
def x2xsp {L V : Type} [DecidableEq L] (x : List (List V)) (k : Nat) (regimes rs : List L) :
    Py (CSR V) := do
  let idx ← regimes.mapM (rowMap k rs)
  .ok { data := x.flatten, indices := idx.flatten,
        indptr := (List.range x.length).map (· * k) ++ [x.length * k] }

/-- Meaning of a CSR triple (SciPy): entry `(i, c)` is the sum of the stored values of row `i` with column
index `c`. -/
def CSR.entry {V : Type} [AddCommMonoid V] (m : CSR V) (i c : Nat) : V :=
  let lo := m.indptr.getD i 0
  let hi := m.indptr.getD (i + 1) 0
  ((List.range' lo (hi - lo)).map fun p =>
    if m.indices[p]? = some c then (m.data[p]?).getD 0 else 0).sum

/-! ### Regime design by columns, names -/

/-- A column restricted to the observations of regime `r`. -/
def maskCol {L V : Type} [DecidableEq L] [Zero V] (regimes : List L) (r : L) (c : List V) : List V :=
  List.zipWith (fun g v => if g = r then v else 0) regimes c

/-- Columns of `x2xsp` (justified by theorem C23): regime by regime, the columns of `x` restricted to it. -/
def x2xspCols {L V : Type} [DecidableEq L] [Zero V] (cols : List (List V)) (regimes rs : List L) :
    List (List V) :=
  rs.flatMap fun r => cols.map (maskCol regimes r)

/-- `a[np.where(mask == b)]`: boolean selection of list elements. -/
def select {α : Type} (mask : List Bool) (b : Bool) (l : List α) : List α :=
  ((mask.zip l).filter fun p => p.1 == b).map (·.2)

/-- `regimeX_setup(x, regimes, cols2regi, regimes_set)` regimes.py:383-438, `x` as list of columns. -/
def regimeXsetup {L V : Type} [DecidableEq L] [Zero V] (cols : List (List V)) (regimes : List L)
    (cols2regi : List Bool) (rs : List L) : List (List V) :=
  if cols2regi ≠ [] ∧ ∀ b ∈ cols2regi, b = true then x2xspCols cols regimes rs
  else if cols2regi ≠ [] ∧ ∀ b ∈ cols2regi, b = false then cols
  else
    let not_regi := select cols2regi false cols
    let regi_subset := x2xspCols (select cols2regi true cols) regimes rs
    regi_subset ++ not_regi

/-- `set_name_x_regimes` regimes.py:441-497 with non-empty `name_x` (constant already inserted) and
`rlist=True`: names, variable types and regime tags. `str` is Python's `str` on labels. -/
def setNameXRegimes {L T : Type} (str : L → String) (names : List String) (cols2regi : List Bool)
    (rs : List L) (xtype : List T) : List String × List T × List String :=
  let vars_regi := select cols2regi true names
  let vars_glob := select cols2regi false names
  let xtype_regi := select cols2regi true xtype
  let xtype_glob := select cols2regi false xtype
  (rs.flatMap (fun r => vars_regi.map fun i => str r ++ "_" ++ i) ++ vars_glob.map ("_Global_" ++ ·),
   rs.flatMap (fun _ => xtype_regi) ++ xtype_glob,
   rs.flatMap (fun r => vars_regi.map fun _ => str r) ++ vars_glob.map fun _ => "_Global")

/-- `constant_regi` -/
inductive ConstRegi
  | none' | one | many | invalid
  deriving DecidableEq

/-- Result of `Regimes_Frame.__init__`. -/
structure Frame (V T : Type) where
  cols : List (List V)
  names : List String
  xtype : List T
  rlist : List String
  kr : Nat
  kf : Nat
  nr : Nat

/-- Variable types of the `output` table. -/
inductive VType
  | o | x | yend
  deriving DecidableEq

/-- The argument `cols2regi`. -/
inductive Cols2Regi
  | all
  | list (l : List Bool)

/-- `Regimes_Frame.__init__` regimes.py:219-273 for exogenous variables (`yend=False`) with `rlist=True` and
`names` given, `self.regimes_set` already set to `rs`. With `names` falsy and `rlist=True` the name
`r_list` is unbound (line 267). `nr` is `len(set(regimes))`. -/
def regimesFrame {L V : Type} [DecidableEq L] [Zero V] [One V] (str : L → String)
    (cols : List (List V)) (nobs : Nat) (regimes : List L) (const : ConstRegi) (c2r : Cols2Regi)
    (names : List String) (rs : List L) : Py (Frame V VType) :=
  let k := cols.length
  let xtype := List.replicate k VType.x
  let c2 := match c2r with
    | .all => List.replicate k true
    | .list l => l.take k
  let cst : Py (List (List V) × List VType × List Bool × List String) :=
    match const with
    | .none' => .ok (cols, xtype, c2, names)
    | .one => .ok (List.replicate nobs 1 :: cols, .o :: xtype, false :: c2, "CONSTANT" :: names)
    | .many => .ok (List.replicate nobs 1 :: cols, .o :: xtype, true :: c2, "CONSTANT" :: names)
    | .invalid => .error .exception
  cst.bind fun (cols, xtype, c2, names') =>
    if names = [] then .error .unboundLocal else
    let x := regimeXsetup cols regimes c2 rs
    let kr := (c2.filter (· = true)).length
    let nm := setNameXRegimes str names' c2 rs xtype
    .ok { cols := x, names := nm.1, xtype := nm.2.1, rlist := nm.2.2, kr := kr,
          kf := c2.length - kr, nr := regimes.dedup.length }

/-- `Regimes_Frame.__init__` regimes.py:219-273 called for endogenous variables (`yend=True`,
`constant_regi=None`, list `cols2regi`), as in twosls_regimes.py:427-436: design columns and number of
varying columns. `cols2regi[-k:]` is `drop (len - k)` (k > 0). -/
def yendFrame {L V : Type} [DecidableEq L] [Zero V] (cols : List (List V)) (regimes : List L)
    (cols2regi : List Bool) (rs : List L) : List (List V) × Nat :=
  let c2 := cols2regi.drop (cols2regi.length - cols.length)
  (regimeXsetup cols regimes c2 rs, (c2.filter (· = true)).length)

/-- Columns of `z = [x, yend]` of a pooled `TSLS_Regimes` (twosls_regimes.py:418-445, twosls.py:149) with
`constant_regi` "one" or "many", together with `kr`, `kf`, `kryd`. -/
def tslsDesign {L V : Type} [DecidableEq L] [Zero V] [One V] (xcols ycols : List (List V)) (nobs : Nat)
    (regimes : List L) (constMany : Bool) (cols2regi : List Bool) (rs : List L) :
    List (List V) × Nat × Nat × Nat :=
  let c2x := constMany :: cols2regi.take xcols.length
  let xd := regimeXsetup (List.replicate nobs 1 :: xcols) regimes c2x rs
  let krx := (c2x.filter (· = true)).length
  let yd := yendFrame ycols regimes cols2regi rs
  (xd ++ yd.1, krx + yd.2, (c2x.length - krx) + (ycols.length - yd.2), yd.2)

/-- `check_cols2regi` regimes.py:646-670; `totK` is the number of exogenous plus endogenous variables. When
`add_cons` is set and `constant_regi` is neither "many" nor "one", `regi_cons` is unbound. -/
def checkCols2regi (const : ConstRegi) (c2r : Cols2Regi) (totK : Nat) (addCons : Bool) : Py (List Bool) :=
  let cons : Py (List Bool) :=
    if addCons then
      match const with
      | .many => .ok [true]
      | .one => .ok [false]
      | _ => .error .unboundLocal
    else .ok []
  let isCons := if addCons then 1 else 0
  cons.bind fun rc =>
    let c := match c2r with
      | .all => rc ++ List.replicate totK true
      | .list l => rc ++ l
    if c.length - isCons ≠ totK then .error .exception else .ok c

/-- One pass of the loop of `check_const_regi`, regimes.py:675-679: names and columns that are constant in
the regime are dropped. `isConst ids c` says that `np.ptp` of column `c` on rows `ids` is zero. -/
def constStep {C : Type} (isConst : List Nat → C → Bool) (ids : List Nat) (names : List String)
    (cols : List C) : List String × List C :=
  let const_x := ((names.zip cols).filter fun p => isConst ids p.2).map (·.1)
  (names.filter (· ∉ const_x), cols.filter fun c => !isConst ids c)

/-- `check_const_regi` regimes.py:673-690 without the constant: names and columns kept. -/
def checkConstRegi {C : Type} (isConst : List Nat → C → Bool) :
    List (List Nat) → List String → List C → List String × List C
  | [], names, cols => (names, cols)
  | ids :: t, names, cols =>
    let p := constStep isConst ids names cols
    checkConstRegi isConst t p.1 p.2

/-! ### Restriction matrices -/

/-- `buildR1var(vari, kr, kf, kryd, nr)` regimes.py:339-380: entry `(row, col)` of the matrix with `nr - 1`
rows and `kr*nr + kf` columns. NumPy assignments outside the array raise; see theorem `C26_in_range`. -/
def buildR1var (vari kr kryd nr : Nat) (row col : Nat) : ℤ :=
  let krexog := kr - kryd
  let (kr_j, cbeg) := if vari < krexog then (krexog, vari) else (kryd, krexog * (nr - 1) + vari)
  if col < kr * nr then
    if col = kr_j + cbeg + row * kr_j then -1
    else if col = cbeg then 1
    else 0
  else 0

/-- `(R b)[row]` for `R = buildR1var(...)` and `ncols = kr*nr + kf` coefficients. -/
def applyR1var {V : Type} [Ring V] (vari kr kf kryd nr : Nat) (b : Nat → V) (row : Nat) : V :=
  ((List.range (kr * nr + kf)).map fun c => ((buildR1var vari kr kryd nr row c : ℤ) : V) * b c).sum

/-! ### Multi-process assembly -/

/-- The store of asynchronous results: regime ↦ outcome of `_work`. -/
abbrev Store (L R : Type) := L → Option (Py R)

/-- Completion of the jobs in the order `order` (any order the operating system chooses): each completed job
stores its outcome under its regime (`results_p[r]`, ols_regimes.py:573-592). -/
def complete {L R : Type} [DecidableEq L] (work : L → Py R) (order : List L) : Store L R :=
  order.foldl (fun s r => Function.update s r (some (work r))) (fun _ => none)

/-- The assembling loop, ols_regimes.py:633-672 with `cores`: `results_p[r].get()` in the order of
`regimes_set`; it re-raises the worker's exception. After `pool.join()` every job is complete; a missing
result cannot occur and is `keyError` here. -/
def assemblePar {L R : Type} (store : Store L R) (rs : List L) : Py (List (L × R)) :=
  rs.mapM fun r => match store r with
    | some o => o.map fun v => (r, v)
    | none => .error .keyError

/-- The sequential run, ols_regimes.py:573-611, 633-643 without `cores`: `_work` runs in the order of
`regimes_set`; an exception stops the loop. -/
def assembleSeq {L R : Type} (work : L → Py R) (rs : List L) : Py (List (L × R)) :=
  rs.mapM fun r => (work r).map fun v => (r, v)

/-- `self.u[regi_ids[r],] = results[r].u` over the regimes, ols_regimes.py:652-657: scatter of the per-regime
vectors into the full vector. -/
def scatter {L V : Type} [DecidableEq L] (regimes : List L) : List (L × List V) → List V → List V
  | [], acc => acc
  | (r, u) :: t, acc =>
    scatter regimes t (((regiIds regimes r).zip u).foldl (fun a p => a.set p.1 p.2) acc)

/-- `self.name_y += results[r].name_y` regimes ols_regimes.py:630, 658: `+=` of a string to a list appends its
characters. -/
def accumNameY : List String → List String
  | [] => []
  | s :: t => (s.toList.map fun c => String.ofList [c]) ++ accumNameY t

end Spreg.Regimes
