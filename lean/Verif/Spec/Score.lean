import Mathlib.Analysis.SpecialFunctions.Log.Deriv
import Mathlib.Analysis.SpecialFunctions.Trigonometric.Basic
import Mathlib.LinearAlgebra.Matrix.NonsingularInverse
/-
Specification of score (Lagrange multiplier) statistics for the spatial models nested in
  y = rho W y + x beta + z gamma + u,   u = lambda W u + eps,   eps Gaussian with variance s2.
Nothing here refers to the code.
-/
namespace Spreg.Score
open Matrix

variable {n k q : Type} [Fintype n] [Fintype k] [Fintype q] [DecidableEq n]

/-- Gaussian log-likelihood of the model above. -/
noncomputable def loglik (x : Matrix n k ℝ) (z : Matrix n q ℝ) (W : Matrix n n ℝ) (y : n → ℝ)
    (beta : k → ℝ) (gamma : q → ℝ) (rho lam s2 : ℝ) : ℝ :=
  -((Fintype.card n : ℝ) / 2) * Real.log (2 * Real.pi * s2)
    + Real.log |((1 : Matrix n n ℝ) - rho • W).det| + Real.log |((1 : Matrix n n ℝ) - lam • W).det|
    - (∑ i, (((1 : Matrix n n ℝ) - lam • W) *ᵥ
        (((1 : Matrix n n ℝ) - rho • W) *ᵥ y - x *ᵥ beta - z *ᵥ gamma)) i ^ 2) / (2 * s2)

/-- A direction in parameter space: components for beta, gamma, rho, lambda and the variance. -/
structure Dir (k q : Type) where
  a : k → ℝ
  g : q → ℝ
  c : ℝ
  d : ℝ
  e : ℝ

/-- The log-likelihood along a direction, from the null model `(beta, 0, 0, 0, s2)`. -/
noncomputable def along (x : Matrix n k ℝ) (z : Matrix n q ℝ) (W : Matrix n n ℝ) (y : n → ℝ)
    (beta : k → ℝ) (s2 : ℝ) (v : Dir k q) (t : ℝ) : ℝ :=
  loglik x z W y (beta + t • v.a) (t • v.g) (t * v.c) (t * v.d) (s2 + t * v.e)

/-- The score in direction `v`: derivative of the log-likelihood at the null. -/
noncomputable def score (x : Matrix n k ℝ) (z : Matrix n q ℝ) (W : Matrix n n ℝ) (y : n → ℝ)
    (beta : k → ℝ) (s2 : ℝ) (v : Dir k q) : ℝ :=
  deriv (along x z W y beta s2 v) 0

/-- A finite probability distribution of errors with mean zero, variance `s2` and no correlation. -/
structure Errors (n : Type) (s2 : ℝ) [DecidableEq n] where
  Ω : Type
  fin : Fintype Ω
  p : Ω → ℝ
  eps : Ω → n → ℝ
  total : ∑ w, p w = 1
  mean : ∀ i, ∑ w, p w * eps w i = 0
  cov : ∀ i j, ∑ w, p w * (eps w i * eps w j) = if i = j then s2 else 0

attribute [instance] Errors.fin

/-- Expected information in direction `v`: minus the expected second derivative of the log-likelihood when
the data come from the null model with the given parameters and errors. -/
noncomputable def info (x : Matrix n k ℝ) (z : Matrix n q ℝ) (W : Matrix n n ℝ)
    (beta : k → ℝ) (s2 : ℝ) (P : Errors n s2) (v : Dir k q) : ℝ :=
  ∑ w, P.p w * -(deriv (deriv (along x z W (x *ᵥ beta + P.eps w) beta s2 v)) 0)

/-- `S` is the score statistic of the hypothesis that leaves free exactly the directions in `D`: the largest
value, over these directions, of the squared score divided by the information. -/
def IsScoreStat (x : Matrix n k ℝ) (z : Matrix n q ℝ) (W : Matrix n n ℝ) (y : n → ℝ)
    (beta : k → ℝ) (s2 : ℝ) (P : Errors n s2) (D : Set (Dir k q)) (S : ℝ) : Prop :=
  (∀ v ∈ D, score x z W y beta s2 v ^ 2 ≤ S * info x z W beta s2 P v) ∧
  ∃ v ∈ D, 0 < info x z W beta s2 P v ∧ score x z W y beta s2 v ^ 2 = S * info x z W beta s2 P v

end Spreg.Score
