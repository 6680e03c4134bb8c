import Verif.Spec.HetErrors
import Mathlib.LinearAlgebra.Matrix.Trace
/-
Specification of the limits of spatial error models with errors of equal variances, estimated from moments that use equality. Nothing here refers to the model of the code.
-/
namespace Spreg
open MeasureTheory

/-- The two arrays of the moment conditions under the names that users choose: `"hom"`, `W'W - (tr W'W / n) I`; `"hom_sc"`, the same divided by `1 + (tr W'W / n)^2`;
`"het"`, `W'W` with zeros on the diagonal; and `(W + W') / 2`. -/
noncomputable def homA {n : Type} [Fintype n] [DecidableEq n] (a1 : String) (W : Matrix n n ℝ) (a : Fin 2) : Matrix n n ℝ :=
  if a = 1 then (1 / 2 : ℝ) • (W + W.transpose)
  else if a1 = "het" then hetA W 0
  else (if a1 = "hom_sc" then 1 / (1 + ((W.transpose * W).trace / Fintype.card n) ^ 2) else 1) •
    (W.transpose * W - ((W.transpose * W).trace / Fintype.card n) • (1 : Matrix n n ℝ))

/-- Averages that converge: the expected moments of the disturbances `v` to `G`, fourth powers of the errors to `mu4`, and the variances of the moments, with equal
variances `s` of the errors, to `Psi`. -/
structure HomLimits {Ω : ℕ → Type} [∀ t, MeasurableSpace (Ω t)] (P : ∀ t, Measure (Ω t)) (n : ℕ → Type) [∀ t, Fintype (n t)] [∀ t, DecidableEq (n t)]
    (W : ∀ t, Matrix (n t) (n t) ℝ) (v e : ∀ t, Ω t → n t → ℝ) (s : ℝ) (a1 : String) (G Psi : Matrix (Fin 2) (Fin 2) ℝ) (mu4 : ℝ) : Prop where
  lin : ∀ a, Filter.Tendsto (fun t => (∫ ω, 2 * ∑ i, (W t).mulVec (v t ω) i * ((homA a1 (W t) a).mulVec (v t ω)) i ∂P t) / Fintype.card (n t)) Filter.atTop (nhds (G a 0))
  quad : ∀ a, Filter.Tendsto (fun t => -(∫ ω, ∑ i, (W t).mulVec (v t ω) i * ((homA a1 (W t) a).mulVec ((W t).mulVec (v t ω))) i ∂P t) / Fintype.card (n t))
    Filter.atTop (nhds (G a 1))
  fourth : Filter.Tendsto (fun t => (∫ ω, ∑ i, e t ω i ^ 4 ∂P t) / Fintype.card (n t)) Filter.atTop (nhds mu4)
  psi : ∀ a b, Filter.Tendsto (fun t => (2 * s ^ 2 * (∑ i, ∑ j, homA a1 (W t) a i j * homA a1 (W t) b i j) +
    (mu4 - 3 * s ^ 2) * ∑ i, homA a1 (W t) a i i * homA a1 (W t) b i i) / Fintype.card (n t)) Filter.atTop (nhds (Psi a b))

end Spreg
