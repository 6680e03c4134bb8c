import Verif.Model.Basic
import Verif.Model.Checks
import Mathlib.Data.Matrix.Basic
import Mathlib.LinearAlgebra.Matrix.Kronecker
import Mathlib.Data.Real.Basic
import Mathlib.Logic.Equiv.Fin.Basic
/-
Model of panel_utils.py: `demean_panel`, `check_panel`, and the head of `prepare_panel`.
-/
namespace Spreg.Panel
open Matrix
open scoped Kronecker

/-! ### demean_panel -/

/-- The `t × t` matrix `J` of `demean_panel`, panel_utils.py:154-155 (`one @ one.T` is the matrix of ones). -/
noncomputable def demeanJ (t : ℕ) (phi : ℝ) : Matrix (Fin t) (Fin t) ℝ :=
  let one : Matrix (Fin t) (Fin 1) ℝ := Matrix.of fun _ _ => 1
  1 - ((1 - phi) * (1 / (t : ℝ))) • (one * oneᵀ)

/-- `Q = kron(J, I_n)`, panel_utils.py:156. Row `s*n + i` of the Kronecker product belongs to row `s` of `J`
and row `i` of the identity; this is the numbering of `finProdFinEquiv`. -/
noncomputable def demeanQ (n t : ℕ) (phi : ℝ) : Matrix (Fin (t * n)) (Fin (t * n)) ℝ :=
  Matrix.reindex finProdFinEquiv finProdFinEquiv (demeanJ t phi ⊗ₖ (1 : Matrix (Fin n) (Fin n) ℝ))

/-- `demean_panel(arr, n, t, phi)`, panel_utils.py:131-159. `1 / t` raises for `t = 0`. -/
noncomputable def demeanPanel {k : Type} (n t : ℕ) (phi : ℝ) (arr : Matrix (Fin (t * n)) k ℝ) :
    Py (Matrix (Fin (t * n)) k ℝ) :=
  if t = 0 then .error .zeroDivision else .ok (demeanQ n t phi * arr)

/-! ### check_panel -/

/-- A two-dimensional array; only entries inside the shape are meaningful. -/
structure Mat (α : Type) where
  rows : ℕ
  cols : ℕ
  get : ℕ → ℕ → α

variable {α : Type}

/-- `a[:, lo:hi]` (slices are clipped at the shape). -/
def Mat.slice (a : Mat α) (lo hi : ℕ) : Mat α :=
  ⟨a.rows, min hi a.cols - min lo a.cols, fun i j => a.get i (lo + j)⟩

/-- `a.reshape((len, 1), order="F")`: element `p` of the result is element `p` of `a` in column-major
order. `ValueError` if the sizes differ. -/
def Mat.reshapeF (a : Mat α) (len : ℕ) : Py (Mat α) :=
  if a.rows * a.cols = len then .ok ⟨len, 1, fun p _ => a.get (p % a.rows) (p / a.rows)⟩
  else .error .valueError

/-- `np.hstack((a, b))`. -/
def Mat.hstack (a b : Mat α) : Py (Mat α) :=
  if a.rows = b.rows then
    .ok ⟨a.rows, a.cols + b.cols, fun i j => if j < a.cols then a.get i j else b.get i (j - a.cols)⟩
  else .error .valueError

/-- Result of the data part of `check_panel`: stacked `y`, stacked `x`, `k`, `T`. -/
structure Stacked (α : Type) where
  y : Mat α
  x : Mat α
  k : ℕ
  T : ℕ

/-- One step of the loop over variables, panel_utils.py:93-96. -/
def stackStep (x : Mat α) (N T : ℕ) (bigx : Mat α) (i : ℕ) : Py (Mat α) :=
  ((x.slice (T * i) (T * (i + 1))).reshapeF (N * T)).bind fun c => bigx.hstack c

/-- Data part of `check_panel`, panel_utils.py:78-107; `wn` is `w.n`. Division by zero for `w.n = 0`. The
test of line 79 compares `y.shape[0]/w.n` with its integer part, i.e. asks for divisibility. -/
def checkPanelData (y x : Mat α) (wn : ℕ) : Py (Stacked α) :=
  if wn = 0 then .error .zeroDivision else
  if ¬ wn ∣ y.rows then .error .exception else
  if y.cols > 1 then
    let N := y.rows
    let T := y.cols
    let k := x.cols / T
    (y.reshapeF (y.rows * y.cols)).bind fun bigy =>
    ((x.slice 0 T).reshapeF (N * T)).bind fun bigx0 =>
    ((List.range' 1 (k - 1)).foldlM (stackStep x N T) bigx0).map fun bigx => ⟨bigy, bigx, k, T⟩
  else
    .ok ⟨y, x, x.cols, y.rows / wn⟩

/-- `"".join([i for i in s if not i.isdigit()])` (ASCII digits only). -/
def stripDigits (s : String) : String := String.ofList (s.toList.filter fun c => !c.isDigit)

/-- Argument `name_y`: absent, a string, a list, or something else. -/
inductive NameY where
  | none
  | str (s : String)
  | list (l : List String)
  | other

/-- Names of the dependent variable, panel_utils.py:109-115 (`other` is a truthy object that is neither a
string nor a list). -/
def panelNameY : NameY → Py NameY
  | .none => .ok .none
  | .str s => .ok (.str s)
  | .list [] => .ok (.list [])
  | .list [s] => .ok (.str s)
  | .list (s :: _ :: _) => .ok (.str (stripDigits s))
  | .other => .error .exception

/-- Names of the regressors, panel_utils.py:116-126 (for `name_x` a list or `None`; an empty list is
falsy). -/
def panelNameX (names : Option (List String)) (k T : ℕ) : Py (Option (List String)) :=
  match names with
  | none => .ok none
  | some [] => .ok (some [])
  | some l =>
    if l.length ≠ k * T ∧ l.length ≠ k then .error .exception else
    if l.length > k then
      ((List.range k).mapM fun i => match l[i * T]? with
        | some s => (.ok (stripDigits s) : Py String)
        | none => .error .indexError).map some
    else .ok (some l)

/-- `check_panel` for arrays, panel_utils.py:78-128: data, then names. -/
def checkPanel (y x : Mat α) (wn : ℕ) (nameY : NameY) (nameX : Option (List String)) :
    Py (Stacked α × NameY × Option (List String)) := do
  let d ← checkPanelData y x wn
  let ny ← panelNameY nameY
  let nx ← panelNameX nameX d.k d.T
  pure (d, ny, nx)

/-- An array with `n` rows from its columns. -/
def ofCols (n : ℕ) (cols : List (List ℝ)) : Mat ℝ :=
  ⟨n, cols.length, fun i j => (cols.getD j []).getD i 0⟩

/-- `prepare_panel` lines 24-27: constant columns are removed from `x` as given, then the panel is checked
and stacked. (`check_arrays` has already passed, so `x` has as many rows as `y`.) -/
noncomputable def preparePanel (y : Mat ℝ) (x : List (List ℝ)) (wn : ℕ) (nameY : NameY)
    (nameX : Option (List String)) : Py (Stacked ℝ × NameY × Option (List String)) := do
  let c ← Chk.checkConstant y.rows x nameX true
  checkPanel y (ofCols y.rows c.1) wn nameY c.2.1

end Spreg.Panel
