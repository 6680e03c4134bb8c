import Verif.Spec.Consistent
/-
Specification of averages that need not converge. Nothing here refers to the model of the code.
-/
namespace Spreg
open MeasureTheory

/-- A random number in a growing experiment stays, but for a part that vanishes in probability, between fixed bounds. It need not converge. -/
def MeanBdd {Ω : ℕ → Type} [∀ t, MeasurableSpace (Ω t)] (P : ∀ t, Measure (Ω t)) (X : ∀ t, Ω t → ℝ) : Prop :=
  ∃ (a : ℕ → ℝ) (C : ℝ), (∀ t, |a t| ≤ C) ∧ ConvP P (fun t ω => X t ω - a t) 0

end Spreg
