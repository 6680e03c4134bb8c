import Verif.Spec.Gauss
import Mathlib.Analysis.Calculus.Deriv.Basic
/-
Specification of the expected (Fisher) information of a Gaussian model. Nothing here refers to the code.
-/
namespace Spreg.Gauss
open Matrix

/-- A finite probability distribution of vectors with mean zero and covariance matrix `S`. -/
structure Dist {ι : Type} (S : Matrix ι ι ℝ) where
  Ω : Type
  fin : Fintype Ω
  p : Ω → ℝ
  eps : Ω → ι → ℝ
  nonneg : ∀ w, 0 ≤ p w
  total : ∑ w, p w = 1
  mean : ∀ i, ∑ w, p w * eps w i = 0
  cov : ∀ i j, ∑ w, p w * (eps w i * eps w j) = S i j

attribute [instance] Dist.fin

/-- Expected information about `t` at 0 in the Gaussian model with mean `m t` and covariance matrix `C t`: minus the expected
second derivative of the log-likelihood when the data have mean `m 0` and covariance matrix `C 0`. With several parameters,
`t` runs along a direction in parameter space and this is the quadratic form of the information matrix in that direction. -/
noncomputable def fisherInfo {ι : Type} [Fintype ι] [DecidableEq ι] (m : ℝ → ι → ℝ) (C : ℝ → Matrix ι ι ℝ) (P : Dist (C 0)) : ℝ :=
  ∑ w, P.p w * -(deriv (deriv fun t => normalLL (m t) (C t) (m 0 + P.eps w)) 0)

/-- Mean of the spatial lag model `y = rho W y + x beta + v`. -/
noncomputable def sarMean {n k : Type} [Fintype n] [DecidableEq n] [Fintype k] (W : Matrix n n ℝ) (x : Matrix n k ℝ) (beta : k → ℝ)
    (rho : ℝ) : n → ℝ :=
  (1 - rho • W)⁻¹ *ᵥ (x *ᵥ beta)

/-- Covariance matrix of `u = rho W u + v`, `v` uncorrelated with variance `s2`. -/
noncomputable def sarCov {n : Type} [Fintype n] [DecidableEq n] (W : Matrix n n ℝ) (rho s2 : ℝ) : Matrix n n ℝ :=
  s2 • ((1 - rho • W)⁻¹ * ((1 - rho • W)⁻¹)ᵀ)

/-- Covariance matrix of the panel `y = rho W y + x beta + mu + v` with individual effects `mu_i`. `s2` is the variance of `v`;
`1 / phi^2 = 1 + T * (variance of mu) / s2`. -/
noncomputable def reLagCov {n : Type} [Fintype n] [DecidableEq n] (τ : Type) [Fintype τ] [DecidableEq τ] (W : Matrix n n ℝ)
    (rho phi s2 : ℝ) : Matrix (τ × n) (τ × n) ℝ :=
  s2 • ((1 - rho • panelW τ W)⁻¹ * reCov τ n ((1 / phi ^ 2 - 1) / Fintype.card τ) * ((1 - rho • panelW τ W)⁻¹)ᵀ)

/-- Covariance matrix of the panel `y = x beta + mu + u`, `u_t = lam W u_t + v_t`; `sm` is the variance of the individual effects
`mu_i`, `s2` that of `v`. -/
noncomputable def reErrCov2 {n : Type} [Fintype n] [DecidableEq n] (τ : Type) [DecidableEq τ] (W : Matrix n n ℝ)
    (lam sm s2 : ℝ) : Matrix (τ × n) (τ × n) ℝ :=
  Matrix.of fun a b => (if a.2 = b.2 then sm else 0) +
    if a.1 = b.1 then s2 * ((1 - lam • W)⁻¹ * ((1 - lam • W)⁻¹)ᵀ : Matrix n n ℝ) a.2 b.2 else 0

end Spreg.Gauss
