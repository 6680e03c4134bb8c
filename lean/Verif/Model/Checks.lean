import Verif.Model.Basic
import Mathlib.Data.Real.Basic
import Mathlib.Data.List.Dedup
/-
Model of the argument checks of user_output.py and of `set_warn` in utils.py.

Arrays are a shape, the flat list of entries (floats with NaN and infinities; finite values are reals, so
a sum of finite values is finite: overflow is outside the model) and a dtype class.
-/
namespace Spreg.Chk

/-- An IEEE float up to rounding: a real, NaN or an infinity. -/
inductive FVal where
  | fin (x : ℝ)
  | nan
  | pinf
  | ninf

/-- IEEE addition on `FVal`. -/
noncomputable def FVal.add : FVal → FVal → FVal
  | .fin a, .fin b => .fin (a + b)
  | .nan, _ => .nan
  | _, .nan => .nan
  | .pinf, .ninf => .nan
  | .ninf, .pinf => .nan
  | .pinf, _ => .pinf
  | _, .pinf => .pinf
  | .ninf, _ => .ninf
  | _, .ninf => .ninf

/-- `np.isfinite`. -/
def FVal.isfinite : FVal → Bool
  | .fin _ => true
  | _ => false

/-- `a.sum()` over all entries, in storage order. -/
noncomputable def fsum (l : List FVal) : FVal := l.foldl FVal.add (.fin 0)

/-- dtype classes distinguished by `check_numeric_bool`. -/
inductive DType where
  | bool | number | other
  deriving DecidableEq

/-- An array: `shape`, flat `data`, dtype class. -/
structure Arr where
  shape : List ℕ
  data : List FVal
  dtype : DType

/-- A Python argument as far as the checks look at it. `series`/`frame` are pandas objects with their
names; `csr` a `csr_matrix`; `obj` anything else. -/
inductive Obj where
  | none
  | ndarray (a : Arr)
  | csr (a : Arr)
  | series (a : Arr) (name : Option String)
  | frame (a : Arr) (cols : List String)
  | obj

/-- `spisfinite`, sputils.py:263-277: finiteness of the sum. -/
noncomputable def spisfinite (a : Arr) : Bool := (fsum a.data).isfinite

/-- Lines user_output.py:432-441 for one array: its number of rows, or the exception. -/
noncomputable def checkShape (a : Arr) : Py (Option ℕ) :=
  if a.shape.length > 2 then .error .exception else
  match (if a.shape.length = 1 then [a.shape.getD 0 0, 1] else a.shape) with
  | [r, c] =>
    if r < c then .error .exception else
    if ¬ spisfinite a then .error .exception else .ok (some r)
  | _ => .error .indexError   -- zero-dimensional array: `shape[0]`

/-- One pass of the loop of `check_arrays`, user_output.py:423-441; `none` when the argument is skipped
(`None`), else the number of rows. -/
noncomputable def checkArray1 (o : Obj) : Py (Option ℕ) :=
  match o with
  | .none => .ok none
  | .ndarray a => checkShape a
  | .csr a => checkShape a
  | .series a _ => checkShape a
  | .frame a _ => checkShape a
  | .obj => .error .exception

/-- `check_arrays`, user_output.py:386-444. -/
noncomputable def checkArrays (l : List Obj) : Py ℕ := do
  let rows ← l.mapM checkArray1
  let rows := rows.filterMap id
  if rows.dedup.length > 1 then .error .exception else
  match rows with
  | [] => .error .indexError
  | r :: _ => .ok r

/-- `check_numeric_bool`, user_output.py:365-384, on an array that is not `None`. (For a sparse matrix
`data` are the stored entries.) -/
def checkNumericBool (a : Arr) : Py Unit :=
  match a.dtype with
  | .bool => .error .valueError
  | .other => .error .valueError
  | .number => if ¬ a.data.all FVal.isfinite then .error .valueError else .ok ()

/-- A name argument for `y`: absent, a string, or a list of strings. -/
inductive YName where
  | none
  | str (s : String)
  | list (l : List String)

/-- Python truth value of a name. -/
def YName.truthy : YName → Bool
  | .none => false
  | .str s => s ≠ ""
  | .list l => l ≠ []

/-- Python's `y.name` as a name argument. -/
def YName.ofOpt : Option String → YName
  | Option.none => .none
  | some s => .str s

/-- The naming part of `check_y`, user_output.py:490-498. -/
def yNameOf (y : Obj) (name : YName) : YName :=
  if name.truthy then name else
  match y with
  | .series _ nm => YName.ofOpt nm
  | .frame _ cols => (match cols with | [c] => .str c | cs => .list cs)
  | _ => name

/-- The array part of `check_y`, user_output.py:500-518. -/
def checkYArr (a : Arr) (n : ℕ) : Py Arr :=
  if a.shape.length > 2 then .error .exception else
  -- `y.reshape(n, 1)` succeeds iff the number of entries is `n`
  if a.shape.length = 1 ∧ a.shape.getD 0 0 ≠ n then .error .exception else
  let a' : Arr := if a.shape.length = 1 then { a with shape := [n, 1] } else a
  if a'.shape ≠ [n, 1] then .error .exception else
  match checkNumericBool a' with
  | .error e => .error e
  | .ok _ => .ok a'

/-- `check_y`, user_output.py:447-520. -/
def checkY (y : Obj) (n : ℕ) (name : YName) : Py (Arr × YName) :=
  match y with
  | .ndarray a => (checkYArr a n).map (·, yNameOf y name)
  | .series a _ => (checkYArr a n).map (·, yNameOf y name)
  | .frame a _ => (checkYArr a n).map (·, yNameOf y name)
  | _ => .error .exception

/-! ### `check_endog`: arrays are references into a heap, because the code assigns `arrays[i].shape` -/

/-- The caller's NumPy objects, by address. -/
abbrev Heap := ℕ → Arr

/-- An element of the list `arrays`: `None`, an ndarray owned by the caller, or a pandas object
(`to_numpy()` makes a new ndarray object; its values are given). -/
inductive ERef where
  | none
  | nd (addr : ℕ)
  | pd (a : Arr)

/-- One pass of the loop of `check_endog`, user_output.py:533-546, with the heap after the pass. -/
def checkEndog1 (h : Heap) (r : ERef) : Heap × Py (Option Arr) :=
  match r with
  | .none => (h, .ok none)
  | .pd a =>
    let a' : Arr := if a.shape.length = 1 then { a with shape := [a.shape.getD 0 0, 1] } else a
    (h, (checkNumericBool a').map fun _ => some a')
  | .nd p =>
    let a := h p
    let a' : Arr := if a.shape.length = 1 then { a with shape := [a.shape.getD 0 0, 1] } else a
    (Function.update h p a', (checkNumericBool a').map fun _ => some a')

/-- `check_endog`, user_output.py:522-547 (names left out): the heap after the call, and the arrays or
the exception. -/
def checkEndog (h : Heap) : List ERef → Heap × Py (List (Option Arr))
  | [] => (h, .ok [])
  | r :: rs =>
    match checkEndog1 h r with
    | (h', .error e) => (h', .error e)
    | (h', .ok a) =>
      let (h'', res) := checkEndog h' rs
      (h'', res.map (a :: ·))

/-! ### Weights -/

/-- A weights object as far as `check_weights` reads it: `w.n` and `w.sparse.diagonal()`. -/
structure WM where
  n : ℕ
  diag : List ℝ

/-- The `w` argument. `graph`, `dense` and `sparse` are converted to `W`; `other` is an API-compatible
object (only a Python warning is issued). -/
inductive WArg where
  | none
  | graph (m : WM)
  | dense (m : WM)
  | sparse (m : WM)
  | w (m : WM)
  | kernel (m : WM)
  | other (m : WM)

/-- Lines user_output.py:621-626: dimension and diagonal. -/
noncomputable def checkWDim (m : WM) (yrows : ℕ) (time : Bool) : Py Unit :=
  if m.n ≠ yrows ∧ time = false then .error .exception else
  match m.diag with
  | [] => .error .valueError        -- `diag.min()` of an empty array
  | d :: ds => if (ds.foldl min d) ≠ 0 ∨ (ds.foldl max d) ≠ 0 then .error .exception else .ok ()

/-- `check_weights`, user_output.py:549-628: the weights object used afterwards (`none` for `None`). -/
noncomputable def checkWeights (w : WArg) (yrows : ℕ) (required time : Bool) (slxLags : ℤ) (allowWk : Bool) :
    Py (Option WM) :=
  let isNone := match w with | .none => true | _ => false
  if required = true ∨ isNone = false ∨ slxLags > 0 then
    match w with
    | .none => .error .exception
    | .graph m | .dense m | .sparse m | .w m | .other m => (checkWDim m yrows time).map fun _ => some m
    | .kernel m =>
      if slxLags = 1 ∧ allowWk then
        let m' : WM := { m with diag := m.diag.map fun _ => 0 }
        (checkWDim m' yrows time).map fun _ => some m'
      else if slxLags > 1 then .error .exception
      else if slxLags = 0 ∨ ¬ allowWk then .error .exception
      else (checkWDim m yrows time).map fun _ => some m
  else .ok Option.none

/-! ### Robust and spatial diagnostics options -/

/-- A kernel weights object: diagonal of the sparse matrix, and the lists `wk.weights[i]` in id order. -/
structure Kern where
  diag : List ℝ
  weights : List (List ℝ)

/-- Lines user_output.py:687-696: the weights of one observation. -/
noncomputable def checkKernelRow (vals : List ℝ) : Py Unit :=
  match vals with
  | [] => .error .valueError
  | v :: vs =>
    if vs.foldl min v < 0 then .error .exception else
    if vs.foldl max v > 1 then .error .exception else .ok ()

/-- Lines user_output.py:672-696. -/
noncomputable def checkKernel (k : Kern) : Py Unit :=
  match k.diag with
  | [] => .error .valueError
  | d :: ds =>
    if ds.foldl min d < 1 then .error .exception else
    if ds.foldl max d > 1 then .error .exception else
    k.weights.foldlM (fun _ vals => checkKernelRow vals) ()

/-- Python's `str.lower()` (character by character, as for ASCII). -/
def lower (s : String) : String := String.ofList (s.toList.map Char.toLower)

/-- `check_robust`, user_output.py:631-704. `robust = none` is `None`; `wk = none` is anything that is not
a `Kernel`. -/
noncomputable def checkRobust (robust : Option String) (wk : Option Kern) : Py Unit :=
  match robust with
  | none => .ok ()
  | some r =>
    if r = "" then .ok () else
    if lower r = "hac" then
      (match wk with
       | none => .error .exception
       | some k => checkKernel k)
    else if lower r = "white" ∨ lower r = "ogmm" then .ok ()
    else .error .exception

/-- The two warnings of `check_spat_diag`. -/
inductive SDWarn where
  | hac | kernelSlx
  deriving DecidableEq

/-- `check_spat_diag`, user_output.py:749-778. `isKernel` says whether `w` is a `Kernel`. -/
def checkSpatDiag (spatDiag : Bool) (isKernel : Bool) (robust : Option String) (slxLags : Option ℤ) :
    Py (Bool × Option SDWarn) :=
  let (sd, warn) : Bool × Option SDWarn :=
    if robust = some "hac" ∧ spatDiag then (false, some .hac) else (spatDiag, none)
  if sd ∧ isKernel then
    match slxLags with
    | none => .error .typeError      -- `None > 0`
    | some l => if l > 0 then .ok (false, some .kernelSlx) else .ok (sd, warn)
  else .ok (sd, warn)

/-- The `regimes` argument. -/
inductive RegArg (α : Type) where
  | list (l : List α)
  | series (l : List α) (name : Option String)
  | ndarray (l : List α)
  | other

/-- `check_reg_list`, user_output.py:780-815. -/
def checkRegList {α : Type} (r : RegArg α) (name : Option String) (n : ℕ) : Py (List α × Option String) :=
  let fin (l : List α) (nm : Option String) : Py (List α × Option String) :=
    if l.length ≠ n then .error .exception else .ok (l, nm)
  match r with
  | .list l => fin l name
  | .series l nm => fin l (if name.getD "" = "" then nm else name)
  | .ndarray l => fin l name
  | .other => .error .exception

/-- `check_regimes`, user_output.py:817-838, on the number of regimes. -/
noncomputable def checkRegimes (nreg N K : ℕ) : Py Unit :=
  if nreg < 2 then .error .exception else
  if 1.0 * (N : ℝ) / (nreg : ℝ) < (K : ℝ) + 1 then .error .exception else .ok ()

/-! ### Constant columns -/

/-- A column of `x` (entries finite, see `checkNumericBool`). -/
abbrev Col := List ℝ

/-- `np.ptp` of one column, user_output.py:918 (also the sparse form, line 922). `ValueError` for an empty
column. -/
noncomputable def ptp (c : Col) : Py ℝ :=
  match c with
  | [] => .error .valueError
  | a :: l => .ok (l.foldl max a - l.foldl min a)

/-- The warning of `check_constant`: the removed names, or their number when there are no names. -/
inductive CWarn where
  | names (l : List String)
  | count (n : ℕ)
  deriving DecidableEq

/-- `[keep_x[i] for i in idx]`. -/
def pickNames (names : List String) (idx : List ℕ) : Py (List String) :=
  idx.mapM fun i => match names[i]? with | some s => .ok s | none => .error .indexError

/-- Names and warning, user_output.py:926-938; `zero`/`pos` are the positions with `diffs == 0`/`> 0`. -/
def constNames (names : Option (List String)) (zero pos : List ℕ) :
    Py (Option (List String) × Option CWarn) :=
  if zero ≠ [] then
    match names with
    | some (s :: ss) =>
      (pickNames (s :: ss) zero).bind fun rem =>
        (pickNames (s :: ss) pos).map fun kp => (some kp, some (CWarn.names rem))
    | nm => .ok (nm, some (CWarn.count zero.length))
  else .ok (names, none)

/-- `check_constant`, user_output.py:868-943, for a numeric `x` given by its columns, each with `n` rows.
`names` is `name_x` (for a DataFrame its columns); an empty list is falsy. Returns the columns (with the
constant in front unless `justRem`), the names and the warning. -/
noncomputable def checkConstant (n : ℕ) (x : List Col) (names : Option (List String)) (justRem : Bool) :
    Py (List Col × Option (List String) × Option CWarn) := do
  let diffs ← x.mapM ptp
  let zero := (List.range x.length).filter fun i => diffs.getD i 1 = 0
  let pos := (List.range x.length).filter fun i => diffs.getD i 0 > 0
  -- np.delete(x, nonzero(diffs == 0), 1), lines 919-924
  let xc := ((x.zip diffs).filter fun p => p.2 ≠ 0).map (·.1)
  let kw ← constNames names zero pos
  pure ((if justRem then xc else List.replicate n 1 :: xc), kw.1, kw.2)

/-- `set_name_x`, user_output.py:63-89; `ncols` is `x.shape[1]`. -/
def setNameX (names : Option (List String)) (ncols : ℕ) (constant : Bool) : List String :=
  let nm := match names with
    | some (s :: ss) => s :: ss
    | _ => (List.range (ncols - 1 + constant.toNat)).map fun i => "var_" ++ toString (i + 1)
  if constant then nm else "CONSTANT" :: nm

/-! ### Warnings -/

/-- `set_warn`, utils.py:780-788. The state is the attribute `reg.warning` (`none`: not set). -/
def setWarn (reg : Option String) (warn : Option String) : Option String :=
  match warn with
  | none => reg
  | some w =>
    if w = "" then reg else
    match reg with
    | some s => some (s ++ ("Warning: " ++ w ++ "\n"))
    | none => some ("Warning: " ++ w ++ "\n")

end Spreg.Chk
