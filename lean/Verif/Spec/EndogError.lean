import Verif.Spec.Pairs
import Verif.Spec.MeanBdd
/-
Specification of a regression with endogenous regressors and spatially autoregressive errors, with regularity conditions. Nothing here refers to the model of the
code.
-/
namespace Spreg
open MeasureTheory

/-- `y = z theta + v`, `v = lam W v + e` in a growing experiment; experiment `t` has `n t` observations. The regressors `z` are random and may be
correlated with the errors `e`; `h` are instruments, and `s` is the variance of the errors. -/
structure EndogErrorModel {Ω : ℕ → Type} [∀ t, MeasurableSpace (Ω t)] (P : ∀ t, Measure (Ω t)) {k l : Type} [Fintype k] (n : ℕ → Type) [∀ t, Fintype (n t)]
    [∀ t, DecidableEq (n t)] (W : ∀ t, Matrix (n t) (n t) ℝ) (z : ∀ t, Ω t → Matrix (n t) k ℝ) (h : ∀ t, Matrix (n t) l ℝ) (y v e : ∀ t, Ω t → n t → ℝ)
    (theta : k → ℝ) (lam s : ℝ) : Prop where
  y_eq : ∀ t ω i, y t ω i = ∑ j, z t ω i j * theta j + v t ω i
  v_eq : ∀ t ω i, v t ω i = lam * ∑ j, W t i j * v t ω j + e t ω i
  err : ∀ t, Errors (P t) (e t) (fun _ => s)
  pairs : ∃ V, ∀ t, PairErrors (P t) (e t) (fun _ => s) V
  size : Filter.Tendsto (fun t => (Fintype.card (n t) : ℝ)) Filter.atTop Filter.atTop
  pos : ∀ t, 0 < Fintype.card (n t)
  reg : ∀ t, IsUnit (1 - lam • W t).det
  diag : ∀ t i, W t i i = 0
  sumsW : ∃ r, ∀ t, Sums (W t) r
  sumsR : ∃ r, ∀ t, Sums (1 - lam • W t)⁻¹ r
  box : |lam| ≤ 0.99
  /-- The instruments are bounded, and the regressors have averages of squares that stay bounded. -/
  bddH : ∃ C, ∀ t i a, |h t i a| ≤ C
  bddZ : ∀ j, MeanBdd P fun t ω => (∑ i, z t ω i j ^ 2) / Fintype.card (n t)

/-- Averages of products of the instruments with themselves, with the regressors and with spatial lags of the regressors converge to `B`, `Q0` and `Q1`. -/
def InstrLimits {Ω : ℕ → Type} [∀ t, MeasurableSpace (Ω t)] (P : ∀ t, Measure (Ω t)) {k l : Type} (n : ℕ → Type) [∀ t, Fintype (n t)]
    (W : ∀ t, Matrix (n t) (n t) ℝ) (z : ∀ t, Ω t → Matrix (n t) k ℝ) (h : ∀ t, Matrix (n t) l ℝ) (B : Matrix l l ℝ) (Q0 Q1 : Matrix l k ℝ) : Prop :=
  (∀ a b, Filter.Tendsto (fun t => (∑ i, h t i a * h t i b) / Fintype.card (n t)) Filter.atTop (nhds (B a b))) ∧
  (∀ a j, ConvP P (fun t ω => (∑ i, h t i a * z t ω i j) / Fintype.card (n t)) (Q0 a j)) ∧
  ∀ a j, ConvP P (fun t ω => (∑ i, h t i a * ∑ i', W t i i' * z t ω i' j) / Fintype.card (n t)) (Q1 a j)

end Spreg
