import Mathlib.Data.Matrix.Basic
import Mathlib.LinearAlgebra.Matrix.NonsingularInverse
import Mathlib.Analysis.SpecialFunctions.Log.Basic
import Mathlib.Analysis.SpecialFunctions.Trigonometric.Basic
import Mathlib.LinearAlgebra.Matrix.Kronecker
/-
Specification of the Gaussian models estimated by maximum likelihood. Nothing here refers to the model of the code.
-/
namespace Spreg.Gauss
open Matrix
open scoped Kronecker

/-- Logarithm of the density of the multivariate normal distribution with mean `m` and covariance matrix `S` at `y`. -/
noncomputable def normalLL {ι : Type} [Fintype ι] [DecidableEq ι] (m : ι → ℝ) (S : Matrix ι ι ℝ) (y : ι → ℝ) : ℝ :=
  -(Fintype.card ι : ℝ) / 2 * Real.log (2 * Real.pi) - 1 / 2 * Real.log S.det
    - 1 / 2 * ((y - m) ⬝ᵥ (S⁻¹ *ᵥ (y - m)))

variable {τ n k : Type} [Fintype τ] [Fintype n] [Fintype k] [DecidableEq τ] [DecidableEq n]

/-- Log-likelihood of the spatial lag model `y = rho W y + m + v`, `v ~ N(0, s2 C)`. -/
noncomputable def lagLL (W C : Matrix n n ℝ) (rho s2 : ℝ) (m y : n → ℝ) : ℝ :=
  normalLL ((1 - rho • W)⁻¹ *ᵥ m) (s2 • ((1 - rho • W)⁻¹ * C * ((1 - rho • W)⁻¹)ᵀ)) y

/-- Log-likelihood of the spatial error model `y = m + u`, `u = lam W u + v`, `v ~ N(0, s2 I)`. -/
noncomputable def errLL (W : Matrix n n ℝ) (lam s2 : ℝ) (m y : n → ℝ) : ℝ :=
  normalLL m (s2 • ((1 - lam • W)⁻¹ * ((1 - lam • W)⁻¹)ᵀ)) y

/-- Weights of a panel: observation `(s, i)` is unit `i` in period `s`; the weights act within each period. -/
def panelW (τ : Type) [DecidableEq τ] (W : Matrix n n ℝ) : Matrix (τ × n) (τ × n) ℝ :=
  Matrix.of fun a b => if a.1 = b.1 then W a.2 b.2 else 0

/-- Covariance of `mu_i + v_it` divided by the variance of `v`: `1` on the diagonal plus `r` for observations of the same
unit. -/
def reCov (τ n : Type) [DecidableEq τ] [DecidableEq n] (r : ℝ) : Matrix (τ × n) (τ × n) ℝ :=
  Matrix.of fun a b => (if a = b then 1 else 0) + if a.2 = b.2 then r else 0

/-- Covariance of `mu_i + u_it`, `u_t = lam W u_t + v_t`, divided by the variance of `v`; `r` is the variance ratio. -/
noncomputable def reErrCov (τ : Type) [DecidableEq τ] (W : Matrix n n ℝ) (lam r : ℝ) : Matrix (τ × n) (τ × n) ℝ :=
  Matrix.of fun a b => (if a.1 = b.1 then ((1 - lam • W)⁻¹ * ((1 - lam • W)⁻¹)ᵀ : Matrix n n ℝ) a.2 b.2 else 0) +
    if a.2 = b.2 then r else 0

/-- Covariance of the errors of several equations, observation `(r, i)` being unit `i` in equation `r`: `u_r = lam_r W u_r + v_r`
where `v_ri` and `v_tj` have covariance `S r t` if `i = j` and 0 otherwise. -/
noncomputable def surErrCov {R : Type} (W : Matrix n n ℝ) (lam : R → ℝ) (S : Matrix R R ℝ) : Matrix (R × n) (R × n) ℝ :=
  Matrix.of fun a b => S a.1 b.1 * ((1 - lam a.1 • W)⁻¹ * ((1 - lam b.1 • W)⁻¹)ᵀ : Matrix n n ℝ) a.2 b.2

end Spreg.Gauss
