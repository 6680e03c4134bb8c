import Verif.Spec.Pairs
/-
Specification of the further conditions for spatial error models with errors of unknown, different variances. Nothing here refers to the model of the code.
-/
namespace Spreg
open MeasureTheory

/-- The squared errors less their variances are uncorrelated with bounded variances, and so are products of two of them. Independent errors with bounded
eighth moments are so. -/
def SquaredErrors {Ω : ℕ → Type} [∀ t, MeasurableSpace (Ω t)] (P : ∀ t, Measure (Ω t)) (n : ℕ → Type) [∀ t, DecidableEq (n t)]
    (e : ∀ t, Ω t → n t → ℝ) (s : ∀ t, n t → ℝ) : Prop :=
  ∃ (κ : ∀ t, n t → ℝ) (K V : ℝ), (∀ t i, 0 ≤ κ t i ∧ κ t i ≤ K) ∧ (∀ t, Errors (P t) (fun ω i => e t ω i ^ 2 - s t i) (κ t)) ∧
    ∀ t, PairErrors (P t) (fun ω i => e t ω i ^ 2 - s t i) (κ t) V

/-- The two arrays of the moment conditions: `W'W` with zeros on the diagonal, and `W`. -/
def hetA {n : Type} [Fintype n] [DecidableEq n] (W : Matrix n n ℝ) (a : Fin 2) : Matrix n n ℝ :=
  if a = 0 then Matrix.of fun i j => if i = j then 0 else ∑ o, W o i * W o j else W

/-- Averages that converge: the expected moments of the disturbances `v` to `G`, their variances to `Psi`, and those of products of spatial lags of the regressors
and the variances of the errors to `L`. -/
structure HetLimits {Ω : ℕ → Type} [∀ t, MeasurableSpace (Ω t)] (P : ∀ t, Measure (Ω t)) {k : Type} (n : ℕ → Type) [∀ t, Fintype (n t)] [∀ t, DecidableEq (n t)]
    (W : ∀ t, Matrix (n t) (n t) ℝ) (x : ∀ t, Matrix (n t) k ℝ) (v : ∀ t, Ω t → n t → ℝ) (s : ∀ t, n t → ℝ) (G Psi : Matrix (Fin 2) (Fin 2) ℝ)
    (L : Fin 2 → Fin 2 → Matrix k k ℝ) : Prop where
  lin : ∀ a, Filter.Tendsto (fun t => (∫ ω, ∑ i, v t ω i * ((hetA (W t) a + (hetA (W t) a).transpose).mulVec ((W t).mulVec (v t ω))) i ∂P t) / Fintype.card (n t))
    Filter.atTop (nhds (G a 0))
  quad : ∀ a, Filter.Tendsto (fun t => -(∫ ω, ∑ i, (W t).mulVec (v t ω) i * ((hetA (W t) a).mulVec ((W t).mulVec (v t ω))) i ∂P t) / Fintype.card (n t))
    Filter.atTop (nhds (G a 1))
  psi : ∀ a b, Filter.Tendsto (fun t => (∑ i, ∑ j, (hetA (W t) a i j + hetA (W t) a j i) * (hetA (W t) b i j + hetA (W t) b j i) * (s t i * s t j)) /
    (2 * Fintype.card (n t))) Filter.atTop (nhds (Psi a b))
  reg : ∀ a b i j, Filter.Tendsto (fun t => (∑ o, s t o * ((W t ^ a.1 * x t : Matrix (n t) k ℝ) o i * (W t ^ b.1 * x t : Matrix (n t) k ℝ) o j)) /
    Fintype.card (n t)) Filter.atTop (nhds (L a b i j))

end Spreg
