import Verif.Model.Linear
import Verif.Model.Basic
import Mathlib.LinearAlgebra.Matrix.Charpoly.Basic
import Mathlib.LinearAlgebra.Matrix.Block
import Mathlib.Analysis.SpecialFunctions.Complex.Log
import Mathlib.Analysis.SpecialFunctions.Log.Basic
import Mathlib.Analysis.SpecialFunctions.Pow.Real
/-
Model of maximum likelihood estimation: ml_lag.py, ml_error.py, w_utils.py.

The optimiser (`minimize_scalar`) is not modelled: its result is an arbitrary `rho`. `log` of a number that
is not positive (NaN or -inf in NumPy) is `none`.
-/
namespace Spreg.ML
open Matrix Spreg.Lin

variable {n k : Type} [Fintype n] [Fintype k] [DecidableEq n] [DecidableEq k]

/-- libpysal's transform "r": original weights divided by their row sums. -/
noncomputable def rowStd (A : Matrix n n ℝ) : Matrix n n ℝ := Matrix.of fun i j => A i j / ∑ l, A i l

open Classical in
/-- libpysal's transform "b": one for every neighbour (weights listed with value zero are left out of the
model). -/
noncomputable def binary (A : Matrix n n ℝ) : Matrix n n ℝ := Matrix.of fun i j => if A i j ≠ 0 then 1 else 0

/-- `symmetrize(w)`, w_utils.py:18-26, where `A` are the original weights: `d` is the square root of the row sums
of the *binary* weights, the matrix in the middle the row-standardised *original* weights. -/
noncomputable def symmetrize (A : Matrix n n ℝ) : Matrix n n ℝ :=
  let d : n → ℝ := fun i => Real.sqrt (∑ j, binary A i j)
  diagonal d * rowStd A * diagonal fun i => 1 / d i

/-- The transforms of a libpysal weights object that the code uses: original, binary, row-standardised. -/
inductive Transform where
  | o | b | r
  deriving DecidableEq

/-- Side effect of `symmetrize` on `w.transform`, w_utils.py:18-25: `current` is saved and never restored. -/
def symmetrizeTransform (t : Transform) : Transform := Id.run do
  let mut tr := t
  let _current := tr
  tr := .b
  tr := .r
  return tr

/-- `w.full()[0]` under a transform. -/
noncomputable def weightsOf (A : Matrix n n ℝ) : Transform → Matrix n n ℝ
  | .o => A
  | .b => binary A
  | .r => rowStd A

/-- `w.asymmetry(intrinsic=False) == []`: the binary weights are symmetric (ml_lag.py:238). -/
def patternSymm (A : Matrix n n ℝ) : Prop := (binary A)ᵀ = binary A

/-- `a = -rho * W; spfill_diagonal(a, 1.0)`, ml_lag.py:287-288, 708-709. -/
def filledA (W : Matrix n n ℝ) (rho : ℝ) : Matrix n n ℝ := Matrix.of fun i j => if i = j then 1 else -rho * W i j

/-- `np.log` of a real. -/
noncomputable def nplog (x : ℝ) : Option ℝ := if 0 < x then some (Real.log x) else none

/-- Jacobian term of method full, ml_lag.py:708-710, ml_error.py:561-563. -/
noncomputable def jacFull (W : Matrix n n ℝ) (rho : ℝ) : Option ℝ := nplog (filledA W rho).det

/-- What SuperLU returns for `a`: permutations of rows and columns, a unit lower triangular `L` and an
upper triangular `U`. -/
structure IsLU {m : ℕ} (a L U : Matrix (Fin m) (Fin m) ℝ) : Prop where
  perm : ∃ pr pc : Equiv.Perm (Fin m), a.submatrix pr pc = L * U
  lower : ∀ i j, i < j → L i j = 0
  unit : ∀ i, L i i = 1
  upper : ∀ i j, j < i → U i j = 0

/-- Jacobian term of method LU, ml_lag.py:724-726, ml_error.py:600-605: from the diagonal of `U`. -/
noncomputable def jacLU {m : ℕ} (U : Matrix (Fin m) (Fin m) ℝ) : ℝ := ∑ i, Real.log |U i i|

/-- The symmetric matrix that `la.eigvalsh` (UPLO='L') reads from its argument. -/
def lowerSym {m : ℕ} (A : Matrix (Fin m) (Fin m) ℝ) : Matrix (Fin m) (Fin m) ℝ :=
  Matrix.of fun i j => if j ≤ i then A i j else A j i

/-- `ev = la.eigvalsh(A)`: the eigenvalues, with multiplicity, of the symmetric matrix read. -/
def IsEigvalsh {m : ℕ} (A : Matrix (Fin m) (Fin m) ℝ) (ev : Fin m → ℝ) : Prop :=
  (lowerSym A).charpoly = ∏ i, (Polynomial.X - Polynomial.C (ev i))

/-- `ev = la.eigvals(W)`: the complex eigenvalues with multiplicity. -/
def IsEigvals {m : ℕ} (W : Matrix (Fin m) (Fin m) ℝ) (ev : Fin m → ℂ) : Prop :=
  (W.map ((↑) : ℝ → ℂ)).charpoly = ∏ i, (Polynomial.X - Polynomial.C (ev i))

/-- Jacobian term of method ord with real eigenvalues, ml_lag.py:736-737. -/
noncomputable def jacOrd {m : ℕ} (ev : Fin m → ℝ) (rho : ℝ) : Option ℝ :=
  if ∀ i, 0 < 1 - rho * ev i then some (∑ i, Real.log (1 - rho * ev i)) else none

/-- Jacobian term of method ord with complex eigenvalues, ml_lag.py:736-739. -/
noncomputable def jacOrdC {m : ℕ} (ev : Fin m → ℂ) (rho : ℝ) : ℝ :=
  (∑ i, Complex.log (1 - (rho : ℂ) * ev i)).re

/-! ### Spatial lag -/

/-- Quantities of `BaseML_Lag` before the optimisation, ml_lag.py:195-210, given `xtxi`. -/
structure LagPre (n k : Type) where
  xtxi : Matrix k k ℝ
  b0 : k → ℝ
  b1 : k → ℝ
  e0 : n → ℝ
  e1 : n → ℝ

/-- ml_lag.py:195-210. -/
noncomputable def lagPre (y : n → ℝ) (x : Matrix n k ℝ) (W : Matrix n n ℝ) : Option (LagPre n k) :=
  (inv? (xᵀ * x)).map fun xtxi =>
    let ylag := W *ᵥ y
    let b0 := xtxi *ᵥ (xᵀ *ᵥ y)
    let b1 := xtxi *ᵥ (xᵀ *ᵥ ylag)
    { xtxi := xtxi, b0 := b0, b1 := b1, e0 := y - x *ᵥ b0, e1 := ylag - x *ᵥ b1 }

/-- The concentrated negative log-likelihood without constant, ml_lag.py:703-713 (716-728, 731-742 with
the other Jacobian terms), given the Jacobian term. -/
noncomputable def lagCLoglik (p : LagPre n k) (rho : ℝ) (jacob : ℝ) : ℝ :=
  let er := p.e0 - rho • p.e1
  let sig2 := er ⬝ᵥ er / Fintype.card n
  (Fintype.card n : ℝ) / 2 * Real.log sig2 - jacob

/-- Attributes of `BaseML_Lag` after the optimisation. -/
structure LagFit (n k : Type) where
  b : k → ℝ
  rho : ℝ
  u : n → ℝ
  predy : n → ℝ
  sig2 : ℝ
  logll : ℝ

/-- ml_lag.py:260-283 for the optimiser's result `rho`; `fun` is the value of the objective there. -/
noncomputable def lagFit (p : LagPre n k) (y : n → ℝ) (rho jacob : ℝ) : LagFit n k :=
  let b := p.b0 - rho • p.b1
  let u := p.e0 - rho • p.e1
  { b := b, rho := rho, u := u, predy := y - u, sig2 := sig2n u,
    logll := -(lagCLoglik p rho jacob) - (Fintype.card n : ℝ) / 2 * Real.log (2 * Real.pi)
      - (Fintype.card n : ℝ) / 2 }

/-- The three traces, ml_lag.py:287-297, ml_error.py:258-268: `W` is the matrix of the method chosen. -/
noncomputable def traces (W : Matrix n n ℝ) (rho : ℝ) : Option (ℝ × ℝ × ℝ) :=
  (inv? (filledA W rho)).map fun ai =>
    let wai := W * ai
    (wai.trace, (wai * wai).trace, (waiᵀ * wai).trace)

/-- The information matrix of ML_Lag, ml_lag.py:306-314. `wpy` is `wpredy`. Index: regressors, rho, sig2. -/
noncomputable def lagInfo (x : Matrix n k ℝ) (wpy : n → ℝ) (sig2 : ℝ) (t : ℝ × ℝ × ℝ) :
    Matrix (k ⊕ (Unit ⊕ Unit)) (k ⊕ (Unit ⊕ Unit)) ℝ :=
  Matrix.of fun
    | .inl i, .inl j => (xᵀ * x) i j / sig2
    | .inl i, .inr (.inl _) => (xᵀ *ᵥ wpy) i / sig2
    | .inl _, .inr (.inr _) => 0
    | .inr (.inl _), .inl j => (xᵀ *ᵥ wpy) j / sig2
    | .inr (.inl _), .inr (.inl _) => t.2.1 + t.2.2 + wpy ⬝ᵥ wpy / sig2
    | .inr (.inl _), .inr (.inr _) => t.1 / sig2
    | .inr (.inr _), .inl _ => 0
    | .inr (.inr _), .inr (.inl _) => t.1 / sig2
    | .inr (.inr _), .inr (.inr _) => (Fintype.card n : ℝ) / (2 * sig2 ^ 2)

/-! ### Spatial error -/

/-- Attributes of `BaseML_Error`, ml_error.py:235-250. -/
structure ErrFit (n k : Type) where
  b : k → ℝ
  lam : ℝ
  xsxsi : Matrix k k ℝ
  u : n → ℝ
  predy : n → ℝ
  eFiltered : n → ℝ
  sig2 : ℝ
  logll : ℝ

/-- `sig2` inside the objective, ml_error.py:548-559, 618-627 (`ee = ysys - x2`). -/
noncomputable def errSig2 (xsxsi : Matrix k k ℝ) (xs : Matrix n k ℝ) (ys : n → ℝ) : ℝ :=
  let xsys := xsᵀ *ᵥ ys
  (ys ⬝ᵥ ys - xsys ⬝ᵥ (xsxsi *ᵥ xsys)) / Fintype.card n

/-- ml_error.py:225-250 for the optimiser's result `lam`. -/
noncomputable def errFit (y : n → ℝ) (x : Matrix n k ℝ) (W : Matrix n n ℝ) (lam jacob : ℝ) : Option (ErrFit n k) :=
  let ys := y - lam • (W *ᵥ y)
  let xs := x - lam • (W * x)
  (inv? (xsᵀ * xs)).map fun xsxsi =>
    let b := xsxsi *ᵥ (xsᵀ *ᵥ ys)
    let u := y - x *ᵥ b
    let ef := u - lam • (W *ᵥ u)
    let clik := (Fintype.card n : ℝ) / 2 * Real.log (errSig2 xsxsi xs ys) - jacob
    { b := b, lam := lam, xsxsi := xsxsi, u := u, predy := y - u, eFiltered := ef,
      sig2 := ef ⬝ᵥ ef / Fintype.card n,
      logll := -clik - (Fintype.card n : ℝ) / 2 * Real.log (2 * Real.pi) - (Fintype.card n : ℝ) / 2 }

/-- The information matrix of (lambda, sig2), ml_error.py:270-273. -/
noncomputable def errInfo (nobs : ℕ) (sig2 : ℝ) (t : ℝ × ℝ × ℝ) : Matrix (Fin 2) (Fin 2) ℝ :=
  !![t.2.1 + t.2.2, t.1 / sig2; t.1 / sig2, (nobs : ℝ) / (2 * sig2 ^ 2)]

/-- The covariance of the coefficients of ML_Error, ml_error.py:275-281: block diagonal with the first entry
of the inverse of `errInfo`. -/
noncomputable def errVm (nobs : ℕ) (sig2 : ℝ) (xsxsi : Matrix k k ℝ) (t : ℝ × ℝ × ℝ) :
    Option (Matrix (k ⊕ Unit) (k ⊕ Unit) ℝ) :=
  (inv? (errInfo nobs sig2 t)).map fun vm1 =>
    fromBlocks (sig2 • xsxsi) 0 0 (Matrix.of fun _ _ => vm1 0 0)

end Spreg.ML
