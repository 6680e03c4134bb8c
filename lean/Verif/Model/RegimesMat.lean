import Verif.Model.Basic
import Verif.Model.Linear
import Mathlib.Data.Matrix.Block
import Mathlib.Analysis.SpecialFunctions.Pow.Real
/-
Model of the matrix side of regimes.py: Wald tests, the regime-expanded regression, groupwise weights.
-/
namespace Spreg.RegimesMat
open Matrix Spreg Spreg.Lin

variable {n k ρ m : Type} [Fintype n] [Fintype k] [Fintype ρ] [Fintype m]

/-- `wald_test(betas, r, q, vm)` regimes.py:276-306 without the p-value (a function of the statistic and the
number of restrictions); `none` is `LinAlgError`. -/
noncomputable def waldTest [DecidableEq m] (betas : k → ℝ) (r : Matrix m k ℝ) (q : m → ℝ)
    (vm : Matrix k k ℝ) : Option ℝ :=
  let rbq := r *ᵥ betas - q
  (inv? (r * (vm * rᵀ))).map fun rvri => rbq ⬝ᵥ (rvri *ᵥ rbq)

/-- `if not q: q = np.zeros(...)` in `Wald.__init__`, regimes.py:146-148: the vector of constants used for
the argument `q` (`none` is Python's `None`, a list the entries of an array). The truth value of an array with
more than one element raises ValueError. -/
noncomputable def waldQ (rows : ℕ) : Option (List ℝ) → Py (List ℝ)
  | none => .ok (List.replicate rows 0)
  | some [] => .ok (List.replicate rows 0)
  | some [v] => .ok (if v = 0 then List.replicate rows 0 else [v])
  | some (_ :: _ :: _) => .error .valueError

/-- The design with every variable varying: columns `(variable, regime)`. Theorem `C23_x2xsp` shows that this
is the matrix `x2xsp` builds (its column `(j, r)` is column `position of r * k + j`). -/
def expand [DecidableEq ρ] (x : Matrix n k ℝ) (g : n → ρ) : Matrix n (k × ρ) ℝ :=
  Matrix.of fun i c => if g i = c.2 then x i c.1 else 0

/-- `x[regi_ids[r]]`, ols_regimes.py:600-612: rows of one regime. -/
def sub (x : Matrix n k ℝ) (g : n → ρ) (r : ρ) : Matrix {i // g i = r} k ℝ :=
  Matrix.of fun i j => x i.1 j

/-- `y[regi_ids[r]]` -/
def subv (y : n → ℝ) (g : n → ρ) (r : ρ) : {i // g i = r} → ℝ := fun i => y i.1

/-- The estimated variance of regime `r`, regimes.py:706-719: `u_r'u_r / (n_r - x.shape[1])` where `x` is the
design passed in (in `OLS_Regimes` the expanded one), or `u_r'u_r / n_r`. -/
noncomputable def groupVar [DecidableEq ρ] (u : n → ℝ) (g : n → ρ) (r : ρ) (sig2nk : Bool)
    (xcols : ℕ) : ℝ :=
  let nr : ℝ := Fintype.card {i // g i = r}
  let ssr := ∑ i : {i // g i = r}, u i.1 ^ 2
  if sig2nk then ssr / (nr - xcols) else ssr / nr

/-- `_get_weighted_var` regimes.py:704-732 without `yend`: every row is divided by the standard deviation of
its regime. `Real.sqrt` of a negative number is 0, NumPy gives nan; see `C65`. -/
noncomputable def groupWeighted [DecidableEq ρ] (x : Matrix n k ℝ) (y u : n → ℝ) (g : n → ρ)
    (sig2nk : Bool) (xcols : ℕ) : (n → ℝ) × Matrix n k ℝ :=
  let s : n → ℝ := fun i => 1 / Real.sqrt (groupVar u g (g i) sig2nk xcols)
  (fun i => y i / Real.sqrt (groupVar u g (g i) sig2nk xcols), broadcast x s)

end Spreg.RegimesMat
