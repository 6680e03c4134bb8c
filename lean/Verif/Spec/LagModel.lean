import Verif.Spec.Pairs
/-
Specification of the spatial lag model with the regularity conditions of Kelejian and Prucha. Nothing here refers to the model of the code.
-/
namespace Spreg
open MeasureTheory

/-- A spatial lag model `y = a + x b + rho W y + e` in a growing experiment; experiment `t` has `n t` observations, whose errors have variances `s t`. -/
structure LagModel {Ω : ℕ → Type} [∀ t, MeasurableSpace (Ω t)] (P : ∀ t, Measure (Ω t)) {k : Type} [Fintype k] (n : ℕ → Type) [∀ t, Fintype (n t)]
    [∀ t, DecidableEq (n t)] (W : ∀ t, Matrix (n t) (n t) ℝ) (x : ∀ t, Matrix (n t) k ℝ) (y e : ∀ t, Ω t → n t → ℝ) (a : ℝ) (b : k → ℝ) (rho : ℝ)
    (s : ∀ t, n t → ℝ) : Prop where
  y_eq : ∀ t ω i, y t ω i = a + ∑ j, x t i j * b j + rho * ∑ i', W t i i' * y t ω i' + e t ω i
  err : ∀ t, Errors (P t) (e t) (s t)
  var : ∃ S, ∀ t i, s t i ≤ S
  pairs : ∃ V, ∀ t, PairErrors (P t) (e t) (s t) V
  size : Filter.Tendsto (fun t => (Fintype.card (n t) : ℝ)) Filter.atTop Filter.atTop
  pos : ∀ t, 0 < Fintype.card (n t)
  reg : ∀ t, IsUnit (1 - rho • W t).det
  sumsW : ∃ r, ∀ t, Sums (W t) r
  sumsR : ∃ r, ∀ t, Sums (1 - rho • W t)⁻¹ r
  bdd : ∃ C, ∀ t i j, |x t i j| ≤ C

end Spreg
