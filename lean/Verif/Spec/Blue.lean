import Verif.Spec.Errors
/-
Specification of best linear unbiased estimation. Nothing here refers to the model of the code.
-/
namespace Spreg
open MeasureTheory ProbabilityTheory Matrix

variable {Ω n k : Type} [MeasurableSpace Ω] [Fintype n] [Fintype k]

/-- Random errors with mean zero and covariance matrix `V`. -/
structure HasCov (P : Measure Ω) (v : Ω → n → ℝ) (V : Matrix n n ℝ) : Prop where
  prob : IsProbabilityMeasure P
  sq : ∀ i, MemLp (fun ω => v ω i) 2 P
  mean : ∀ i, ∫ ω, v ω i ∂P = 0
  cov : ∀ i j, ∫ ω, v ω i * v ω j ∂P = V i j

/-- The estimator `l · y + c` of `a · beta` is right on average, whatever the true `beta` in `y = x beta + v`. -/
def UnbiasedLinear (P : Measure Ω) (x : Matrix n k ℝ) (v : Ω → n → ℝ) (a : k → ℝ) (l : n → ℝ) (c : ℝ) : Prop :=
  ∀ beta : k → ℝ, ∫ ω, (l ⬝ᵥ (x *ᵥ beta + v ω) + c) ∂P = a ⬝ᵥ beta

/-- Mean squared error of the estimator `est` of `a · beta` in `y = x beta + v`. -/
noncomputable def mse (P : Measure Ω) (x : Matrix n k ℝ) (v : Ω → n → ℝ) (a : k → ℝ) (est : (n → ℝ) → ℝ) (beta : k → ℝ) : ℝ :=
  ∫ ω, (est (x *ᵥ beta + v ω) - a ⬝ᵥ beta) ^ 2 ∂P

/-- `est` is the best linear unbiased estimator of `a · beta` in `y = x beta + v`. -/
structure BestLinearUnbiased (P : Measure Ω) (x : Matrix n k ℝ) (v : Ω → n → ℝ) (a : k → ℝ) (est : (n → ℝ) → ℝ) : Prop where
  linear : ∃ l : n → ℝ, (∀ y, est y = l ⬝ᵥ y) ∧ UnbiasedLinear P x v a l 0
  best : ∀ l c, UnbiasedLinear P x v a l c → ∀ beta, mse P x v a est beta ≤ mse P x v a (fun y => l ⬝ᵥ y + c) beta
  unique : ∀ l c, UnbiasedLinear P x v a l c → ∀ beta, mse P x v a (fun y => l ⬝ᵥ y + c) beta ≤ mse P x v a est beta →
    ∀ y, l ⬝ᵥ y + c = est y

end Spreg
