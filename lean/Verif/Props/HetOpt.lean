import Verif.Props.GMErrorConsist
import Verif.Props.TSLSVar
import Verif.Model.GMIter
import Verif.Spec.HetErrors
import Mathlib.LinearAlgebra.Matrix.PosDef
set_option linter.unusedSectionVars false
/-
C187: minimisers of weighted sums of two squared moments.
-/
namespace Spreg.Consist
open Spreg Spreg.Lin Spreg.GM Spreg.Sampling Matrix MeasureTheory Filter Topology

variable {Ω : ℕ → Type} [∀ t, MeasurableSpace (Ω t)] {P : ∀ t, Measure (Ω t)}

/-- Deviations from the two moment equations. -/
def dev (M : Moments (Fin 2) (Fin 2)) (l : ℝ) (i : Fin 2) : ℝ := M.g i - (M.G i 0 * l + M.G i 1 * l ^ 2)

/-- What `optim_moments` is meant to do for two moment equations: find a number between -0.99 and 0.99 where the sum of squared deviations is least, weighted by the inverse
of the second argument if there is one. It is required only if a coefficient of the second equation is negative (otherwise the code can divide by a scale
that is zero) and the weights are those of a positive definite array. -/
def Minimises2 (opt : Moments (Fin 2) (Fin 2) → Option (Matrix (Fin 2) (Fin 2) ℝ) → Py ℝ) : Prop :=
  ∀ M : Moments (Fin 2) (Fin 2), M.G 1 0 < 0 ∨ M.G 1 1 < 0 →
    (∃ l, opt M none = .ok l ∧ |l| ≤ 0.99 ∧ ∀ l', |l'| ≤ 0.99 → ∑ i, dev M l i ^ 2 ≤ ∑ i, dev M l' i ^ 2) ∧
    ∀ V : Matrix (Fin 2) (Fin 2) ℝ, V.PosDef → ∃ l, opt M (some V) = .ok l ∧ |l| ≤ 0.99 ∧ ∀ l', |l'| ≤ 0.99 →
      dev M l ⬝ᵥ (V⁻¹ *ᵥ dev M l) ≤ dev M l' ⬝ᵥ (V⁻¹ *ᵥ dev M l')

/-- A bound on one coordinate. -/
theorem posdef_coord {V : Matrix (Fin 2) (Fin 2) ℝ} (hV : V.PosDef) (r : Fin 2 → ℝ) (i : Fin 2) : r i ^ 2 ≤ V i i * (r ⬝ᵥ (V⁻¹ *ᵥ r)) := by
  have hu : IsUnit V.det := isUnit_iff_ne_zero.2 hV.det_pos.ne'
  have hvi : 0 < V i i := hV.diag_pos
  have hsym : V⁻¹ᵀ = V⁻¹ := by
    have := hV.inv.isHermitian
    rwa [IsHermitian, conjTranspose_eq_transpose_of_trivial] at this
  set c := r i / V i i with hc
  have hcol : V⁻¹ *ᵥ (V *ᵥ Pi.single i c) = Pi.single i c := by rw [mulVec_mulVec, nonsing_inv_mul _ hu, one_mulVec]
  have h := hV.inv.posSemidef.dotProduct_mulVec_nonneg (r - V *ᵥ Pi.single i c)
  rw [star_trivial, mulVec_sub, hcol, sub_dotProduct, dotProduct_sub, dotProduct_sub] at h
  have e1 : r ⬝ᵥ Pi.single i c = r i * c := dotProduct_single _ _ _
  have e2 : (V *ᵥ Pi.single i c) ⬝ᵥ (V⁻¹ *ᵥ r) = r i * c := by
    rw [dotProduct_mulVec, ← mulVec_transpose, hsym, hcol, dotProduct_comm, e1]
  have e3 : (V *ᵥ Pi.single i c) ⬝ᵥ Pi.single i c = V i i * c * c := by
    rw [dotProduct_single, mulVec_single]
    simp
  rw [e1, e2, e3] at h
  have e4 : V i i * c = r i := by rw [hc]; field_simp
  have : r i * c ≤ r ⬝ᵥ (V⁻¹ *ᵥ r) := by rw [e4] at h; linarith
  calc r i ^ 2 = V i i * (r i * c) := by rw [mul_left_comm, e4, sq]
    _ ≤ _ := mul_le_mul_of_nonneg_left this hvi.le

/-- Weighted minimisers are consistent if the moment equations hold in the limit and identify the parameter. -/
theorem conv_opt2 (M : ∀ t, Ω t → Moments (Fin 2) (Fin 2)) (G0 : Matrix (Fin 2) (Fin 2) ℝ) (hdet : G0.det ≠ 0)
    (hG : ∀ i j, ConvP P (fun t ω => (M t ω).G i j) (G0 i j)) (V : ∀ t, Ω t → Matrix (Fin 2) (Fin 2) ℝ) (V0 : Matrix (Fin 2) (Fin 2) ℝ) (hV0 : V0.PosDef)
    (hV : ∀ i j, ConvP P (fun t ω => V t ω i j) (V0 i j)) (lam : ℝ) (hlam : |lam| ≤ 0.99) (hr : ∀ i, ConvP P (fun t ω => dev (M t ω) lam i) 0)
    (lh : ∀ t, Ω t → ℝ) (bad : ∀ t, Set (Ω t)) (hbad : Tendsto (fun t => P t (bad t)) atTop (𝓝 0))
    (hl : ∀ t ω, ω ∉ bad t → (V t ω).PosDef ∧ ∀ l', |l'| ≤ 0.99 →
      dev (M t ω) (lh t ω) ⬝ᵥ ((V t ω)⁻¹ *ᵥ dev (M t ω) (lh t ω)) ≤ dev (M t ω) l' ⬝ᵥ ((V t ω)⁻¹ *ᵥ dev (M t ω) l')) :
    ConvP P lh lam := by
  have hq : ConvP P (fun t ω => dev (M t ω) lam ⬝ᵥ ((V t ω)⁻¹ *ᵥ dev (M t ω) lam)) 0 := by
    have h1 := conv_sum (P := P) (fun t ω i => dev (M t ω) lam i * ((V t ω)⁻¹ *ᵥ dev (M t ω) lam) i) (fun _ => 0 * 0) fun i =>
      conv_mul (hr i) (conv_solve V V0 hV0.det_pos.ne' hV (fun t ω => dev (M t ω) lam) hr i)
    simp only [mul_zero, Finset.sum_const_zero] at h1
    exact h1
  have hrhat : ∀ i, ConvP P (fun t ω => dev (M t ω) (lh t ω) i) 0 := by
    classical
    intro i
    have h2 := conv_mul (hV i i) hq
    rw [mul_zero] at h2
    have h3 : ConvP P (fun t ω => if ω ∈ bad t then 0 else dev (M t ω) (lh t ω) i) 0 := by
      refine conv_sqrt (conv_le h2 fun t ω => ?_)
      by_cases hb : ω ∈ bad t
      · rw [if_pos hb, zero_pow two_ne_zero, abs_zero]; exact abs_nonneg _
      · rw [if_neg hb]
        obtain ⟨hp, hm⟩ := hl t ω hb
        rw [abs_of_nonneg (sq_nonneg _)]
        refine ((posdef_coord hp _ i).trans ?_).trans (le_abs_self _)
        exact mul_le_mul_of_nonneg_left (hm lam hlam) (hp.diag_pos).le
    exact conv_except h3 bad hbad fun t ω hω => (if_neg hω).symm
  have hY : ConvP P (fun t ω => lam + ∑ i, ((M t ω).G⁻¹) 0 i * (dev (M t ω) lam i - dev (M t ω) (lh t ω) i)) lam := by
    have h1 := conv_sum (P := P) (fun t ω i => ((M t ω).G⁻¹) 0 i * (dev (M t ω) lam i - dev (M t ω) (lh t ω) i)) (fun i => G0⁻¹ 0 i * (0 - 0)) fun i =>
      conv_mul (conv_matinv (fun t ω => (M t ω).G) G0 hdet hG 0 i) (conv_sub (hr i) (hrhat i))
    simp only [sub_zero, mul_zero, Finset.sum_const_zero] at h1
    exact conv_add (P := P) (fun _ => lam) lam tendsto_const_nhds _ h1
  refine conv_except hY _ (conv_det (fun t ω => (M t ω).G) G0 hdet hG) fun t ω hω => ?_
  simp only [Set.mem_ofPred_eq] at hω
  have hd : (fun i => dev (M t ω) lam i - dev (M t ω) (lh t ω) i) = (M t ω).G *ᵥ ![lh t ω - lam, lh t ω ^ 2 - lam ^ 2] := by
    funext i
    have e1 : ∀ w : Fin 2 → ℝ, ((M t ω).G *ᵥ w) i = (M t ω).G i 0 * w 0 + (M t ω).G i 1 * w 1 := fun w => by
      rw [mulVec, dotProduct, Fin.sum_univ_two]
    rw [e1]
    simp only [dev, Matrix.cons_val_zero, Matrix.cons_val_one]
    ring
  have h3 : (∑ i, ((M t ω).G⁻¹) 0 i * (dev (M t ω) lam i - dev (M t ω) (lh t ω) i)) = ((M t ω).G⁻¹ *ᵥ fun i => dev (M t ω) lam i - dev (M t ω) (lh t ω) i) 0 := rfl
  rw [h3, hd, mulVec_mulVec, nonsing_inv_mul _ (isUnit_iff_ne_zero.2 hω), one_mulVec]
  simp

/-- Positive definite arrays of order two. -/
theorem posdef2 (V : Matrix (Fin 2) (Fin 2) ℝ) (hs : V 0 1 = V 1 0) (h0 : 0 < V 0 0) (hd : 0 < V.det) : V.PosDef := by
  refine PosDef.of_dotProduct_mulVec_pos ?_ fun z hz => ?_
  · rw [IsHermitian, conjTranspose_eq_transpose_of_trivial]
    ext i j
    fin_cases i <;> fin_cases j <;> simp [hs]
  · rw [det_fin_two] at hd
    rw [star_trivial, dotProduct, Fin.sum_univ_two]
    simp only [mulVec, dotProduct, Fin.sum_univ_two]
    have e : V 0 0 * (z 0 * (V 0 0 * z 0 + V 0 1 * z 1) + z 1 * (V 1 0 * z 0 + V 1 1 * z 1)) =
        (V 0 0 * z 0 + V 0 1 * z 1) ^ 2 + (V 0 0 * V 1 1 - V 0 1 * V 1 0) * z 1 ^ 2 := by rw [← hs]; ring
    have hp : 0 < (V 0 0 * z 0 + V 0 1 * z 1) ^ 2 + (V 0 0 * V 1 1 - V 0 1 * V 1 0) * z 1 ^ 2 := by
      by_cases h1 : z 1 = 0
      · have h2 : z 0 ≠ 0 := fun h2 => hz (by funext i; fin_cases i; exacts [h2, h1])
        rw [h1]
        have : 0 < (V 0 0 * z 0) ^ 2 := by positivity
        simpa using this
      · have : 0 < z 1 ^ 2 := by positivity
        nlinarith [sq_nonneg (V 0 0 * z 0 + V 0 1 * z 1), mul_pos hd this]
    rw [← e] at hp
    exact pos_of_mul_pos_right hp h0.le |> fun h => h

/-- The probability that an array that tends to a positive definite one is not positive definite vanishes. -/
theorem conv_posdef (V : ∀ t, Ω t → Matrix (Fin 2) (Fin 2) ℝ) (hs : ∀ t ω, V t ω 0 1 = V t ω 1 0) (V0 : Matrix (Fin 2) (Fin 2) ℝ) (hV0 : V0.PosDef)
    (hV : ∀ i j, ConvP P (fun t ω => V t ω i j) (V0 i j)) : Tendsto (fun t => P t {ω | ¬ (V t ω).PosDef}) atTop (𝓝 0) := by
  have hc : Continuous fun c : Fin 2 × Fin 2 → ℝ => (cM c).det := cM_cont.matrix_det
  have h1 : ∀ᶠ c in 𝓝 (fun p : Fin 2 × Fin 2 => V0 p.1 p.2), 0 < c (0, 0) ∧ 0 < (cM c).det :=
    (continuousAt_const.eventually_lt (continuous_apply (A := fun _ : Fin 2 × Fin 2 => ℝ) (0, 0)).continuousAt hV0.diag_pos).and
      (continuousAt_const.eventually_lt hc.continuousAt (show 0 < V0.det from hV0.det_pos))
  have hh : ∀ p : Fin 2 × Fin 2, ConvP P (fun t ω => (fun (t : ℕ) (ω : Ω t) (p : Fin 2 × Fin 2) => V t ω p.1 p.2) t ω p) ((fun p : Fin 2 × Fin 2 => V0 p.1 p.2) p) :=
    fun p => hV p.1 p.2
  have := nhds_conv (ι := Fin 2 × Fin 2) (P := P) (fun (t : ℕ) (ω : Ω t) (p : Fin 2 × Fin 2) => V t ω p.1 p.2) (fun p => V0 p.1 p.2) hh _ h1
  refine tendsto_of_tendsto_of_tendsto_of_le_of_le tendsto_const_nhds this (fun _ => zero_le) fun t => measure_mono fun ω hω => ?_
  simp only [Set.mem_ofPred_eq] at hω ⊢
  intro hcon
  simp only [cM_eq] at hcon
  exact hω (posdef2 _ (hs t ω) hcon.1 hcon.2)

/-- A choice between two numbers with the same limit. -/
theorem conv_ite {X Y : ∀ t, Ω t → ℝ} {c : ℝ} (hX : ConvP P X c) (hY : ConvP P Y c) (p : ∀ t, Ω t → Prop) [∀ t ω, Decidable (p t ω)] :
    ConvP P (fun t ω => if p t ω then X t ω else Y t ω) c := by
  intro ε hε
  have := (hX ε hε).add (hY ε hε)
  rw [add_zero] at this
  refine tendsto_of_tendsto_of_tendsto_of_le_of_le tendsto_const_nhds this (fun _ => zero_le) fun t => ?_
  refine (measure_mono (t := {ω | ε ≤ |X t ω - c|} ∪ {ω | ε ≤ |Y t ω - c|}) fun ω hω => ?_).trans (measure_union_le _ _)
  simp only [Set.mem_ofPred_eq, Set.mem_union] at hω ⊢
  split_ifs at hω
  · exact Or.inl hω
  · exact Or.inr hω

end Spreg.Consist
