import Verif.Spec.Pairs
/-
Specification of the spatial lag model with spatially autoregressive errors, with the regularity conditions of Kelejian and Prucha. Nothing here refers to the
model of the code.
-/
namespace Spreg
open MeasureTheory

/-- `y = a + x b + rho W y + v`, `v = lam W v + e` in a growing experiment; experiment `t` has `n t` observations; `s` is the variance of the errors `e`. -/
structure ComboModel {Ω : ℕ → Type} [∀ t, MeasurableSpace (Ω t)] (P : ∀ t, Measure (Ω t)) {k : Type} [Fintype k] (n : ℕ → Type) [∀ t, Fintype (n t)]
    [∀ t, DecidableEq (n t)] (W : ∀ t, Matrix (n t) (n t) ℝ) (x : ∀ t, Matrix (n t) k ℝ) (y v e : ∀ t, Ω t → n t → ℝ) (a : ℝ) (b : k → ℝ) (rho lam s : ℝ) :
    Prop where
  y_eq : ∀ t ω i, y t ω i = a + ∑ j, x t i j * b j + rho * ∑ i', W t i i' * y t ω i' + v t ω i
  v_eq : ∀ t ω i, v t ω i = lam * ∑ j, W t i j * v t ω j + e t ω i
  err : ∀ t, Errors (P t) (e t) (fun _ => s)
  pairs : ∃ V, ∀ t, PairErrors (P t) (e t) (fun _ => s) V
  size : Filter.Tendsto (fun t => (Fintype.card (n t) : ℝ)) Filter.atTop Filter.atTop
  pos : ∀ t, 0 < Fintype.card (n t)
  regLag : ∀ t, IsUnit (1 - rho • W t).det
  regErr : ∀ t, IsUnit (1 - lam • W t).det
  diag : ∀ t i, W t i i = 0
  sumsW : ∃ r, ∀ t, Sums (W t) r
  sumsLag : ∃ r, ∀ t, Sums (1 - rho • W t)⁻¹ r
  sumsErr : ∃ r, ∀ t, Sums (1 - lam • W t)⁻¹ r
  bdd : ∃ C, ∀ t i j, |x t i j| ≤ C
  box : |lam| ≤ 0.99

end Spreg
