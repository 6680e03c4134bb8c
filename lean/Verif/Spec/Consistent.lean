import Mathlib.MeasureTheory.Measure.MeasureSpace
import Mathlib.Topology.Instances.ENNReal.Lemmas
import Mathlib.Data.Real.Basic
/-
Specification of consistency. Nothing here refers to the model of the code.
-/
namespace Spreg
open MeasureTheory Filter Topology

/-- A random number in a growing experiment (experiment `t` has its own probability space) converges in probability to `c`: the probability of a
deviation of `ε` or more vanishes. -/
def ConvP {Ω : ℕ → Type} [∀ t, MeasurableSpace (Ω t)] (P : ∀ t, Measure (Ω t)) (X : ∀ t, Ω t → ℝ) (c : ℝ) : Prop :=
  ∀ ε > 0, Tendsto (fun t => P t {ω | ε ≤ |X t ω - c|}) atTop (𝓝 0)

/-- An estimator, which may fail (`none`), is consistent: the probability that it fails or misses the true value of some parameter by `ε` or more
vanishes. -/
def Consistent {Ω : ℕ → Type} [∀ t, MeasurableSpace (Ω t)] (P : ∀ t, Measure (Ω t)) {k : Type} (est : ∀ t, Ω t → Option (k → ℝ)) (truth : k → ℝ) : Prop :=
  ∀ ε > 0, Tendsto (fun t => P t {ω | ¬ ∃ b, est t ω = some b ∧ ∀ j, |b j - truth j| < ε}) atTop (𝓝 0)

end Spreg
