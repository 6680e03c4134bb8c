import Mathlib.MeasureTheory.Integral.Bochner.Basic
/-
Estimators centred at the truth when errors are as likely as their opposites. Nothing here refers to the model of the code.
-/
namespace Spreg
open MeasureTheory

/-- The errors are as likely as their opposites. -/
def SymmetricErrors {Ω : Type} [MeasurableSpace Ω] [Neg Ω] (P : Measure Ω) : Prop := P.map (fun e => -e) = P

/-- `est e` is what is reported when the errors are `e`: coefficients and other results (of type `α`), or nothing when the estimation fails. The
estimator is centred at `beta`: jointly with the other results, it overshoots and undershoots by any amount equally often; in particular, when
the mean exists, the estimate is right on average, and its error is uncorrelated with every function of the other results. -/
structure Centred {Ω κ α : Type} [MeasurableSpace Ω] (P : Measure Ω) (est : Ω → Option ((κ → ℝ) × α)) (beta : κ → ℝ) : Prop where
  law : ∀ S : Set ((κ → ℝ) × α), P {e | ∃ f, est e = some f ∧ (f.1 - beta, f.2) ∈ S} = P {e | ∃ f, est e = some f ∧ (beta - f.1, f.2) ∈ S}
  mean : ∀ (g : α → ℝ) (j : κ) (err : Ω → ℝ), (∀ e, err e = (est e).elim 0 fun f => g f.2 * (f.1 j - beta j)) → Integrable err P → ∫ e, err e ∂P = 0

end Spreg
