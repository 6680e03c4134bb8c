import Mathlib.MeasureTheory.Function.LpSeminorm.Basic
import Mathlib.MeasureTheory.Function.L2Space
import Mathlib.LinearAlgebra.Matrix.NonsingularInverse
import Verif.Spec.Errors
/-
Specification of the regularity conditions of asymptotic theory for spatial error models. Nothing here refers to the model of the code.
-/
namespace Spreg
open MeasureTheory

/-- Row and column sums of absolute values do not exceed `r`. -/
def Sums {n : Type} [Fintype n] (A : Matrix n n ℝ) (r : ℝ) : Prop := (∀ i, ∑ j, |A i j| ≤ r) ∧ ∀ j, ∑ i, |A i j| ≤ r

/-- Covariance matrix of uncorrelated errors with variances `s`. -/
def covOf {n : Type} [DecidableEq n] (s : n → ℝ) (i j : n) : ℝ := if i = j then s i else 0

/-- Products of two errors, centred, have variances of at most `V`, and products of different pairs are uncorrelated. Independent errors with variances
`s` and bounded fourth moments are so. -/
structure PairErrors {Ω n : Type} [MeasurableSpace Ω] [DecidableEq n] (P : Measure Ω) (e : Ω → n → ℝ) (s : n → ℝ) (V : ℝ) : Prop where
  sq : ∀ i j, MemLp (fun ω => e ω i * e ω j - covOf s i j) 2 P
  var : ∀ i j, ∫ ω, (e ω i * e ω j - covOf s i j) ^ 2 ∂P ≤ V
  cov : ∀ i j k l, ¬ ((k = i ∧ l = j) ∨ (k = j ∧ l = i)) → ∫ ω, (e ω i * e ω j - covOf s i j) * (e ω k * e ω l - covOf s k l) ∂P = 0

/-- A linear regression with spatially autoregressive errors, `y = x beta + v`, `v = lam W v + e` with variances `s` of the errors, in a growing experiment, with the regularity conditions of Kelejian and
Prucha: experiment `t` has `n t` observations. -/
structure ErrorModel {Ω : ℕ → Type} [∀ t, MeasurableSpace (Ω t)] (P : ∀ t, Measure (Ω t)) {k : Type} [Fintype k] (n : ℕ → Type) [∀ t, Fintype (n t)]
    [∀ t, DecidableEq (n t)] (W : ∀ t, Matrix (n t) (n t) ℝ) (x : ∀ t, Matrix (n t) k ℝ) (y v e : ∀ t, Ω t → n t → ℝ) (beta : k → ℝ) (lam : ℝ) (s : ∀ t, n t → ℝ) : Prop where
  y_eq : ∀ t ω i, y t ω i = ∑ l, x t i l * beta l + v t ω i
  v_eq : ∀ t ω i, v t ω i = lam * ∑ j, W t i j * v t ω j + e t ω i
  err : ∀ t, Errors (P t) (e t) (s t)
  var : ∃ S, ∀ t i, s t i ≤ S
  pairs : ∃ V, ∀ t, PairErrors (P t) (e t) (s t) V
  size : Filter.Tendsto (fun t => (Fintype.card (n t) : ℝ)) Filter.atTop Filter.atTop
  pos : ∀ t, 0 < Fintype.card (n t)
  reg : ∀ t, IsUnit (1 - lam • W t).det
  diag : ∀ t i, W t i i = 0
  sumsW : ∃ r, ∀ t, Sums (W t) r
  sumsR : ∃ r, ∀ t, Sums (1 - lam • W t)⁻¹ r
  bdd : ∃ C, ∀ t i l, |x t i l| ≤ C
  box : |lam| ≤ 0.99

/-- Averages of products of spatial lags of the regressors converge: `q a b` is the limit for lag `a` of one and lag `b` of the other regressor. -/
def RegLimits {k : Type} (n : ℕ → Type) [∀ t, Fintype (n t)] [∀ t, DecidableEq (n t)] (W : ∀ t, Matrix (n t) (n t) ℝ) (x : ∀ t, Matrix (n t) k ℝ)
    (q : Fin 2 → Fin 2 → Matrix k k ℝ) : Prop :=
  ∀ a b i j, Filter.Tendsto (fun t => (∑ o, (W t ^ a.1 * x t : Matrix (n t) k ℝ) o i * (W t ^ b.1 * x t : Matrix (n t) k ℝ) o j) / (Fintype.card (n t) : ℝ)) Filter.atTop (nhds (q a b i j))

/-- Expected averages of products of spatial lags (of order 0, 1 and 2) of the disturbances `v` converge to `m a b`, and the average of the squared weights to `tau`. -/
def ErrLimits {Ω : ℕ → Type} [∀ t, MeasurableSpace (Ω t)] (P : ∀ t, Measure (Ω t)) (n : ℕ → Type) [∀ t, Fintype (n t)] [∀ t, DecidableEq (n t)]
    (W : ∀ t, Matrix (n t) (n t) ℝ) (v : ∀ t, Ω t → n t → ℝ) (m : Fin 3 → Fin 3 → ℝ) (tau : ℝ) : Prop :=
  (∀ a b, Filter.Tendsto (fun t => (∫ ω, ∑ o, ((W t ^ a.1).mulVec (v t ω)) o * ((W t ^ b.1).mulVec (v t ω)) o ∂P t) / Fintype.card (n t)) Filter.atTop (nhds (m a b))) ∧
  Filter.Tendsto (fun t => (∑ i, ∑ j, W t i j ^ 2) / Fintype.card (n t)) Filter.atTop (nhds tau)

end Spreg
