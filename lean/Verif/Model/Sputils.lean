import Verif.Model.Basic
import Verif.Model.Linear
import Verif.Model.ML
/-
Model of the helpers in sputils.py that accept sparse and dense arrays, and of BaseOLS, BaseTSLS and robust_vm with the storage of their arguments.
-/
namespace Spreg.Sputils
open Spreg Spreg.Lin Matrix

/-- `type(a).__name__`: `ndarray`, `csr_matrix`, `csc_matrix`, or another sparse class (`lil_matrix`, `coo_matrix`, `csr_array`, ...). -/
inductive Fmt where
  | dense | csr | csc | other
  deriving DecidableEq

/-- A two-dimensional array: how it is stored and what it contains. Shapes are types, so arrays that do not fit (ValueError) are not modelled. -/
structure Arr (m n : Type) where
  fmt : Fmt
  val : Matrix m n ℝ

variable {m n k l : Type} [Fintype m] [Fintype n] [Fintype k] [Fintype l]

/-- `a.T`: the transpose of a CSR matrix is CSC and vice versa (SciPy). -/
def Arr.T (a : Arr m n) : Arr n m :=
  { fmt := match a.fmt with
      | .csr => .csc
      | .csc => .csr
      | f => f
    val := a.valᵀ }

/-- Storage of `a @ b` (SciPy): dense if a factor is, otherwise that of a CSR or CSC left factor, CSR for the rest. -/
def matFmt : Fmt → Fmt → Fmt
  | .dense, _ => .dense
  | _, .dense => .dense
  | .csc, _ => .csc
  | _, _ => .csr

/-- `.toarray()` of a CSR or CSC matrix; other objects are left as they are (sputils.py:40-42, 80-82, 115-117, 153-155). -/
def toArray (a : Arr m n) : Arr m n :=
  match a.fmt with
  | .csr => { a with fmt := .dense }
  | .csc => { a with fmt := .dense }
  | _ => a

/-- `spdot(a, b, array_out)`, sputils.py:31-48. -/
def spdot (a : Arr m n) (b : Arr n k) (arrayOut : Bool) : Py (Arr m k) :=
  if a.fmt = .dense ∧ b.fmt = .dense then .ok { fmt := .dense, val := a.val * b.val }
  else if a.fmt = .csr ∨ b.fmt = .csr ∨ a.fmt = .csc ∨ b.fmt = .csc then
    let ab : Arr m k := { fmt := matFmt a.fmt b.fmt, val := a.val * b.val }
    .ok (if arrayOut then toArray ab else ab)
  else .error .exception

/-- `spmultiply(a, b, array_out)`, sputils.py:72-86, for equal shapes; the product of sparse matrices has the storage of the first. -/
def spmultiply (a b : Arr m n) (arrayOut : Bool) : Py (Arr m n) :=
  if a.fmt = .dense ∧ b.fmt = .dense then .ok { fmt := .dense, val := Matrix.of fun i j => a.val i j * b.val i j }
  else if (a.fmt = .csr ∨ a.fmt = .csc) ∧ (b.fmt = .csr ∨ b.fmt = .csc) then
    let ab : Arr m n := { fmt := a.fmt, val := Matrix.of fun i j => a.val i j * b.val i j }
    .ok (if arrayOut then toArray ab else ab)
  else .error .exception

/-- `sphstack(a, b, array_out)`, sputils.py:109-124. -/
def sphstack (a : Arr m n) (b : Arr m k) (arrayOut : Bool) : Py (Arr m (n ⊕ k)) :=
  if a.fmt = .dense ∧ b.fmt = .dense then .ok { fmt := .dense, val := fromCols a.val b.val }
  else if a.fmt = .csr ∨ b.fmt = .csr then
    let ab : Arr m (n ⊕ k) := { fmt := .csr, val := fromCols a.val b.val }
    .ok (if arrayOut then toArray ab else ab)
  else .error .exception

/-- `spbroadcast(a, b, array_out)`, sputils.py:146-159, with a column `b`. The sparse branch multiplies by a diagonal matrix; filling that diagonal
with a sparse column raises (NumPy cannot convert it). -/
def spbroadcast [DecidableEq m] (a : Arr m n) (b : Arr m Unit) (arrayOut : Bool) : Py (Arr m n) :=
  if a.fmt = .dense ∧ b.fmt = .dense then .ok { fmt := .dense, val := Matrix.of fun i j => a.val i j * b.val i () }
  else if a.fmt = .csr then
    if b.fmt = .dense then
      let ab : Arr m n := { fmt := .csr, val := (a.valᵀ * Matrix.diagonal fun i => b.val i ())ᵀ }
      .ok (if arrayOut then toArray ab else ab)
    else .error .typeError
  else .error .exception

open Classical in
/-- `splogdet(a)`, sputils.py:210-216; `lu` is SuperLU, which raises on a singular matrix. `la.slogdet` of a singular matrix is `(0, -inf)`, whose
product is nan (`none`). -/
noncomputable def splogdet {d : ℕ} (lu : Matrix (Fin d) (Fin d) ℝ → Matrix (Fin d) (Fin d) ℝ × Matrix (Fin d) (Fin d) ℝ) (a : Arr (Fin d) (Fin d)) :
    Py (Option ℝ) :=
  if a.fmt = .dense then
    if a.val.det = 0 then .ok none else .ok (some ((SignType.sign a.val.det : ℝ) * Real.log |a.val.det|))
  else if a.val.det = 0 then .error .exception
  else .ok (some (∑ i, Real.log |(lu a.val).2 i i|))

/-- `spfill_diagonal(a, val)`, sputils.py:235-239: the result and the argument after the call, which are the same object. -/
def spfillDiagonal [DecidableEq m] (a : Arr m m) (v : ℝ) : Arr m m × Arr m m :=
  let b : Arr m m := { a with val := Matrix.of fun i j => if i = j then v else a.val i j }
  (b, b)

/-- `spinv(a)`, sputils.py:256-260, for matrices of at least two rows (SciPy treats one column as a vector). -/
noncomputable def spinv [DecidableEq m] (a : Arr m m) : Py (Arr m m) :=
  match inv? a.val with
  | some b => .ok { a with val := b }
  | none => if a.fmt = .dense then .error .linAlgError else .error .exception

/-- `la.inv(a)`: a sparse argument raises. -/
noncomputable def laInv [DecidableEq m] (a : Arr m m) : Py (Arr m m) :=
  if a.fmt = .dense then
    match inv? a.val with
    | some b => .ok { a with val := b }
    | none => .error .linAlgError
  else .error .linAlgError

/-- `np.dot(a, b)`; of a sparse matrix it is not a matrix product (TypeError stands for that). -/
def npDot (a : Arr m n) (b : Arr n k) : Py (Arr m k) :=
  if a.fmt = .dense ∧ b.fmt = .dense then .ok { fmt := .dense, val := a.val * b.val } else .error .typeError

/-- An `n x 1` NumPy array. -/
def col (v : m → ℝ) : Arr m Unit := { fmt := .dense, val := Matrix.of fun i _ => v i }

/-- `BaseOLS.__init__`, ols.py:103-118 with `pinv=False`, for `x` stored in any way. -/
noncomputable def baseOLS [DecidableEq k] (x : Arr n k) (y : n → ℝ) : Py (OLSFit n k) := do
  let xtx ← spdot x.T x true
  let xty ← spdot x.T (col y) true
  let xtxi ← laInv xtx
  let betas ← npDot xtxi xty
  let predy ← spdot x betas true
  .ok { xtx := xtx.val, xtxi := xtxi.val, betas := fun j => betas.val j (), predy := fun i => predy.val i (),
        u := fun i => y i - predy.val i () }

/-- `BaseTSLS.__init__`, twosls.py:149-193 with `q` and without `h`, for `x`, `yend` and `q` stored in any way. -/
noncomputable def baseTSLS {kx ke kq : Type} [Fintype kx] [Fintype ke] [Fintype kq] [DecidableEq kx] [DecidableEq ke] [DecidableEq kq]
    (x : Arr n kx) (yend : Arr n ke) (q : Arr n kq) (y : n → ℝ) : Py (TSLSFit n (kx ⊕ ke) (kx ⊕ kq)) := do
  let z ← sphstack x yend false
  let h ← sphstack x q false
  let hth ← spdot h.T h true
  let hthi ← match laInv hth with
    | .ok i => .ok i
    | .error _ => .error PyErr.exception
  let zth ← spdot z.T h true
  let hty ← spdot h.T (col y) true
  let f1 ← npDot zth hthi
  let f2 ← npDot f1 zth.T
  let varb ← match laInv f2 with
    | .ok i => .ok i
    | .error _ => .error PyErr.exception
  let f3 ← npDot varb f1
  let betas ← npDot f3 hty
  let predy ← spdot z betas true
  .ok { betas := fun j => betas.val j (), predy := fun i => predy.val i (), u := fun i => y i - predy.val i (),
        hthi := hthi.val, varb := varb.val, zthhthi := f1.val }

/-- `robust_vm` of an OLS regression without kernel weights, robust.py:105-119; `kk` as in `Lin.psi0White`. -/
noncomputable def robustOLS [DecidableEq n] (x : Arr n k) (f : OLSFit n k) (dof : Option ℕ) : Py (Matrix k k ℝ) := do
  let xu ← spbroadcast x (col f.u) false
  let psi0 ← spdot xu.T xu true
  let psi0 : Arr k k := match dof with
    | none => psi0
    | some kk => { psi0 with val := ((1.0 * (Fintype.card n : ℝ)) / ((Fintype.card n : ℝ) - kk)) • psi0.val }
  let r ← npDot psi0 { fmt := .dense, val := f.xtxi }
  let psi ← spdot { fmt := .dense, val := f.xtxi } r true
  .ok psi.val

/-- `robust_vm` with kernel weights `gwk`, robust.py:105-119; `lag_spatial(gwk, xu)` is `gwk.sparse @ xu`. -/
noncomputable def hacOLS [DecidableEq n] (x : Arr n k) (f : OLSFit n k) (gwk : Matrix n n ℝ) : Py (Matrix k k ℝ) := do
  let xu ← spbroadcast x (col f.u) false
  let gwkxu : Arr n k := { fmt := matFmt .csr xu.fmt, val := gwk * xu.val }
  let psi0 ← spdot xu.T gwkxu true
  let r ← npDot psi0 { fmt := .dense, val := f.xtxi }
  let psi ← spdot { fmt := .dense, val := f.xtxi } r true
  .ok psi.val

end Spreg.Sputils
