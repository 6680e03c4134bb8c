import Verif.Props.GMHomConsist
import Verif.Props.GMHetConsistEx
set_option linter.unusedSectionVars false
/-
The conditions of C188 are met by normal errors on copies of a map.
-/
namespace Spreg.Consist
open Spreg Spreg.Lin Spreg.GM Spreg.Sampling Matrix MeasureTheory Filter Topology ProbabilityTheory

section rep
variable {m kx : Type} [Fintype m] [DecidableEq m] [Nonempty m] [Fintype kx] [DecidableEq kx]

theorem repW_homA (a1 : String) (W0 : Matrix m m ℝ) (t : ℕ) (a : Fin 2) : homA a1 (repW W0 t) a = repW (homA a1 W0 a) t := by
  have ht : ((repW W0 t)ᵀ * repW W0 t).trace / (Fintype.card (m × Fin (t + 1)) : ℝ) = (W0ᵀ * W0).trace / Fintype.card m := by
    rw [repW_tr, repW_mul]
    have := rep_avg (fun i => (W0ᵀ * W0) i i) t
    rw [trace, trace]
    simp only [diag_apply, repW_diag]
    exact this
  have hs : ∀ (c : ℝ) (A : Matrix m m ℝ), c • repW A t = repW (c • A) t := fun c A => by
    ext i j
    simp only [repW, Matrix.smul_apply, blockDiagonal_apply, smul_eq_mul]
    split_ifs <;> simp
  have h1 : (1 : Matrix (m × Fin (t + 1)) (m × Fin (t + 1)) ℝ) = repW 1 t := blockDiagonal_one.symm
  have hsub : ∀ A B : Matrix m m ℝ, repW A t - repW B t = repW (A - B) t := fun A B => (blockDiagonal_sub _ _).symm
  rw [homA, homA, ht]
  split_ifs
  · rw [repW_tr, repW_add, hs]
  · exact repW_hetA W0 t 0
  · rw [repW_tr, repW_mul, h1, hs, hsub, hs]
  · rw [repW_tr, repW_mul, h1, hs, hsub, hs]

/-- Limits for copies of a map. -/
theorem rep_hom (a1 : String) (W0 : Matrix m m ℝ) (x0 : Matrix m kx ℝ) (beta : kx → ℝ) (lam : ℝ) (hlam : |lam| ≤ 0.99) (hreg : IsUnit (1 - lam • W0).det)
    (hd : ∀ i, W0 i i = 0) :
    HomLimits (Ω := fun t => m × Fin (t + 1) → ℝ) (fun t => Measure.pi fun _ => gaussianReal 0 1) (fun t => m × Fin (t + 1)) (repW W0)
      (fun t e => (1 - lam • repW W0 t)⁻¹ *ᵥ fun i => 1 * e i) (fun _ e i => 1 * e i) (1 ^ 2 * 1) a1
      (Matrix.of fun a b => if b = 0 then
          (∑ i, ((W0 * (1 - lam • W0)⁻¹)ᵀ * (((homA a1 W0 a + homA a1 W0 a)) * (1 - lam • W0)⁻¹) : Matrix m m ℝ) i i) / Fintype.card m
        else -(∑ i, ((W0 * (1 - lam • W0)⁻¹)ᵀ * (homA a1 W0 a * W0 * (1 - lam • W0)⁻¹) : Matrix m m ℝ) i i) / Fintype.card m)
      (Matrix.of fun a b => (2 * (1 ^ 2 * 1) ^ 2 * (∑ i, ∑ j, homA a1 W0 a i j * homA a1 W0 b i j) +
        ((∫ z, z ^ 4 ∂(gaussianReal 0 1)) - 3 * (1 ^ 2 * 1) ^ 2) * ∑ i, homA a1 W0 a i i * homA a1 W0 b i i) / Fintype.card m)
      (∫ z, z ^ 4 ∂(gaussianReal 0 1)) where
  lin a := by
    refine tendsto_const_nhds.congr fun t => ?_
    have hm := em_mean (rep_model_het W0 x0 beta lam (fun _ => 1) hlam hreg hd) t (repW W0 t) (homA a1 (repW W0 t) a + homA a1 (repW W0 t) a)
    rw [(rep_inv W0 lam hreg t).2, repW_homA, repW_add, repW_mul, repW_mul, repW_tr, repW_mul] at hm
    simp only [repW_diag, one_pow, one_mul] at hm
    rw [of_apply, if_pos rfl]
    refine (rep_avg (fun i => ((W0 * (1 - lam • W0)⁻¹)ᵀ * (((homA a1 W0 a + homA a1 W0 a)) * (1 - lam • W0)⁻¹) : Matrix m m ℝ) i i) t).symm.trans ?_
    refine congrArg (· / (Fintype.card (m × Fin (t + 1)) : ℝ)) (hm.symm.trans ?_)
    congr 1
    funext ω
    rw [(rep_inv W0 lam hreg t).2, repW_homA]
    simp only [one_mul]
    show _ = 2 * (_ ⬝ᵥ _)
    rw [two_mul, ← dotProduct_add, ← add_mulVec, repW_add]
  quad a := by
    refine tendsto_const_nhds.congr fun t => ?_
    have hm := em_mean (rep_model_het W0 x0 beta lam (fun _ => 1) hlam hreg hd) t (repW W0 t) (homA a1 (repW W0 t) a * repW W0 t)
    rw [(rep_inv W0 lam hreg t).2, repW_homA, repW_mul, repW_mul, repW_mul, repW_tr, repW_mul] at hm
    simp only [repW_diag, one_pow, one_mul] at hm
    rw [of_apply, if_neg (by decide), neg_div, neg_div]
    congr 1
    refine (rep_avg (fun i => ((W0 * (1 - lam • W0)⁻¹)ᵀ * (homA a1 W0 a * W0 * (1 - lam • W0)⁻¹) : Matrix m m ℝ) i i) t).symm.trans ?_
    refine congrArg (· / (Fintype.card (m × Fin (t + 1)) : ℝ)) (hm.symm.trans ?_)
    congr 1
    funext ω
    rw [(rep_inv W0 lam hreg t).2, repW_homA, mulVec_mulVec _ (repW (homA a1 W0 a) t), repW_mul]
    simp only [one_mul]
    rfl
  fourth := by
    refine tendsto_const_nhds.congr fun t => ?_
    have hi : ∀ i : m × Fin (t + 1), ∫ ω, (1 * ω i) ^ 4 ∂(Measure.pi fun _ : m × Fin (t + 1) => gaussianReal 0 1) = ∫ z, z ^ 4 ∂(gaussianReal 0 1) := fun i => by
      simp only [one_mul]
      exact integral_comp_eval (μ := fun _ : m × Fin (t + 1) => gaussianReal 0 1) (i := i) (f := fun z => z ^ 4) (by fun_prop)
    have hin : ∀ i : m × Fin (t + 1), Integrable (fun ω : m × Fin (t + 1) → ℝ => (1 * ω i) ^ 4) (Measure.pi fun _ : m × Fin (t + 1) => gaussianReal 0 1) := fun i => by
      simp only [one_mul]
      have := (gauss_memLp 4).integrable_norm_pow (by norm_num)
      have h4 : Integrable (fun z : ℝ => z ^ 4) (gaussianReal 0 1) := by
        refine this.congr (Eventually.of_forall fun z => ?_)
        simp only [Real.norm_eq_abs]
        exact (Even.pow_abs (by decide) z)
      exact (measurePreserving_eval (fun _ : m × Fin (t + 1) => gaussianReal 0 1) i).integrable_comp_of_integrable h4
    rw [integral_finsetSum _ fun i _ => hin i]
    simp only [hi, Finset.sum_const, Finset.card_univ, nsmul_eq_mul]
    have hc : (Fintype.card (m × Fin (t + 1)) : ℝ) ≠ 0 := by exact_mod_cast Fintype.card_ne_zero
    field_simp
  psi a b := by
    refine tendsto_const_nhds.congr fun t => ?_
    rw [repW_homA, repW_homA, of_apply, add_div, add_div, mul_div_assoc, mul_div_assoc, mul_div_assoc _ _ (Fintype.card (m × Fin (t + 1)) : ℝ),
      mul_div_assoc _ _ (Fintype.card (m × Fin (t + 1)) : ℝ)]
    simp only [repW_diag]
    rw [rep_frob, rep_avg (fun i => homA a1 W0 a i i * homA a1 W0 b i i) t]
end rep

theorem gauss_four : 1 ≤ ∫ z, z ^ 4 ∂(gaussianReal 0 1) := by
  have i1 : Integrable (fun z : ℝ => z ^ 2 - 1) (gaussianReal 0 1) := (gauss_sq_memLp.sub (memLp_const _)).integrable (by norm_num)
  have i2 : Integrable (fun z : ℝ => (z ^ 2 - 1) ^ 2) (gaussianReal 0 1) := (gauss_sq_memLp.sub (memLp_const _)).integrable_sq
  have h0 : ∫ z, (z ^ 2 - 1) ∂(gaussianReal 0 1) = 0 := by
    rw [integral_sub (gauss_sq_memLp.integrable (by norm_num)) (integrable_const _), gauss_sq]; simp
  have e : (fun z : ℝ => z ^ 4) = fun z => (z ^ 2 - 1) ^ 2 + (2 * (z ^ 2 - 1) + 1) := by funext z; ring
  have hn : 0 ≤ ∫ z, (z ^ 2 - 1) ^ 2 ∂(gaussianReal 0 1) := integral_nonneg fun z => sq_nonneg _
  have i3 : Integrable (fun z : ℝ => 2 * (z ^ 2 - 1) + 1) (gaussianReal 0 1) := (i1.const_mul 2).add (integrable_const 1)
  have h3 : ∫ z, (2 * (z ^ 2 - 1) + 1) ∂(gaussianReal 0 1) = 1 := by
    rw [integral_add (i1.const_mul 2) (integrable_const 1), integral_const_mul, h0]; simp
  rw [e, integral_add i2 i3, h3]
  linarith

/-- The conditions of C188 are met: copies of a path of three regions with lambda 1/2, a constant and a dummy, normal errors, and any optimiser that minimises; there is one. -/
theorem C188_example (beta : Fin 2 → ℝ) : (∃ opt, Minimises2 opt) ∧ ∀ opt, Minimises2 opt →
    Consistent (Ω := fun t => Fin 3 × Fin (t + 1) → ℝ) (fun t => Measure.pi fun _ => gaussianReal 0 1)
      (fun t e => (gmErrorHom opt (repW path3 t) (repX x32 t) (repX x32 t *ᵥ beta + (1 - (1 / 2 : ℝ) • repW path3 t)⁻¹ *ᵥ e) 1 0.00001 "hom").toOption.map fun f => f.betas) beta ∧
    Consistent (Ω := fun t => Fin 3 × Fin (t + 1) → ℝ) (fun t => Measure.pi fun _ => gaussianReal 0 1)
      (fun t e => (gmErrorHom opt (repW path3 t) (repX x32 t) (repX x32 t *ᵥ beta + (1 - (1 / 2 : ℝ) • repW path3 t)⁻¹ *ᵥ e) 1 0.00001 "hom").toOption.map fun f (_ : Unit) => f.lam)
      (fun _ => 1 / 2) := by
  refine ⟨minimises2_exists, fun opt hopt => ?_⟩
  have hd : ∀ i, path3 i i = 0 := by intro i; fin_cases i <;> simp [path3]
  have hl : |(1 / 2 : ℝ)| ≤ 0.99 := by rw [abs_of_pos] <;> norm_num
  have a0 : homA "hom" path3 0 = !![-7 / 12, 0, 1 / 4; 0, 7 / 6, 0; 1 / 4, 0, -7 / 12] := by
    rw [homA, if_neg (by decide), if_neg (by decide), if_neg (by decide), one_smul]
    ext i j
    fin_cases i <;> fin_cases j <;> simp [path3, Fin.sum_univ_three, trace, mul_apply] <;> norm_num
  have b1 : homA "hom" path3 1 = !![0, 3 / 4, 0; 3 / 4, 0, 3 / 4; 0, 3 / 4, 0] := by
    rw [homA, if_pos rfl]
    ext i j
    fin_cases i <;> fin_cases j <;> simp [path3] <;> norm_num
  have hm := rep_hom "hom" path3 x32 beta (1 / 2) hl path3_reg hd
  have hG : ∀ A : Fin 2 → Matrix (Fin 3) (Fin 3) ℝ, A 0 = !![-7 / 12, 0, 1 / 4; 0, 7 / 6, 0; 1 / 4, 0, -7 / 12] → A 1 = !![0, 3 / 4, 0; 3 / 4, 0, 3 / 4; 0, 3 / 4, 0] →
      (Matrix.of fun a b : Fin 2 => if b = 0 then
          (∑ i, ((path3 * (1 - (1 / 2 : ℝ) • path3)⁻¹)ᵀ * ((A a + A a) * (1 - (1 / 2 : ℝ) • path3)⁻¹) : Matrix (Fin 3) (Fin 3) ℝ) i i) / Fintype.card (Fin 3)
        else -(∑ i, ((path3 * (1 - (1 / 2 : ℝ) • path3)⁻¹)ᵀ * (A a * path3 * (1 - (1 / 2 : ℝ) • path3)⁻¹) : Matrix (Fin 3) (Fin 3) ℝ) i i) / Fintype.card (Fin 3)) =
        (!![4 / 9, -2 / 27; 10 / 3, -4 / 3] : Matrix (Fin 2) (Fin 2) ℝ) := by
    intro A a0 a1
    rw [path3_R]
    ext i j
    fin_cases i <;> fin_cases j <;> simp [a0, a1, path3, mul_apply, Fin.sum_univ_three, -mul_eq_mul_left_iff, -mul_eq_mul_right_iff] <;> norm_num
  have hP : ∀ (μ4 : ℝ) (A : Fin 2 → Matrix (Fin 3) (Fin 3) ℝ), A 0 = !![-7 / 12, 0, 1 / 4; 0, 7 / 6, 0; 1 / 4, 0, -7 / 12] → A 1 = !![0, 3 / 4, 0; 3 / 4, 0, 3 / 4; 0, 3 / 4, 0] →
      (Matrix.of fun a b : Fin 2 => (2 * (1 ^ 2 * 1) ^ 2 * (∑ i, ∑ j, A a i j * A b i j) + (μ4 - 3 * (1 ^ 2 * 1) ^ 2) * ∑ i, A a i i * A b i i) / Fintype.card (Fin 3)) =
      (!![13 / 9 + (μ4 - 3) * (49 / 72), 0; 0, 3 / 2] : Matrix (Fin 2) (Fin 2) ℝ) := by
    intro μ4 A a0 a1
    ext i j
    fin_cases i <;> fin_cases j <;> simp [a0, a1, Fin.sum_univ_three, -mul_eq_mul_left_iff, -mul_eq_mul_right_iff] <;> ring
  rw [hG _ a0 b1, hP _ _ a0 b1] at hm
  have h4 := gauss_four
  revert hm h4
  generalize (∫ z, z ^ 4 ∂(gaussianReal 0 1)) = μ4
  intro hm h4
  have := C188_gmErrorHom (rep_model_het path3 x32 beta (1 / 2) (fun _ => 1) hl path3_reg hd)
    (gauss_squared (Ix := fun t => Fin 3 × Fin (t + 1)) (fun _ _ => 1) 1 fun t i => by simp)
    hm (Or.inl rfl) ?_ (Or.inr ?_) (posdef2 _ ?_ ?_ ?_) (rep_reg path3 x32) ?_ ?_ hopt 1 zero_lt_one 0.00001 (by norm_num)
  · simp only [one_mul] at this
    exact ⟨this.1, this.2.1⟩
  · rw [det_fin_two]; simp; norm_num
  · simp; norm_num
  · simp
  · simp; linarith
  · rw [det_fin_two]; simp; linarith
  · rw [det_fin_two]
    simp [x32, mul_apply, Fin.sum_univ_three]
    norm_num
  · rw [det_fin_two]
    simp [x32, path3, mul_apply, Fin.sum_univ_three]
    norm_num
end Spreg.Consist
