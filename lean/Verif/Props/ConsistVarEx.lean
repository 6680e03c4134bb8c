import Verif.Props.ConsistVar
import Verif.Props.ConsistEx
set_option linter.unusedSectionVars false
/-
The conditions of C183 are met by normal errors.
-/
namespace Spreg.Consist
open Spreg Spreg.Lin Spreg.Sampling Matrix MeasureTheory Filter Topology ProbabilityTheory

/-- Functions of independent standard normal numbers. -/
theorem iid_errors {m : Type} [Fintype m] [DecidableEq m] (f : m → ℝ → ℝ) (hf : ∀ i, Measurable (f i)) (h2 : ∀ i, MemLp (f i) 2 (gaussianReal 0 1))
    (h0 : ∀ i, ∫ z, f i z ∂(gaussianReal 0 1) = 0) :
    Errors (Measure.pi fun _ : m => gaussianReal 0 1) (fun u i => f i (u i)) fun i => ∫ z, f i z ^ 2 ∂(gaussianReal 0 1) where
  prob := inferInstance
  sq i := (h2 i).comp_measurePreserving (measurePreserving_eval (fun _ : m => gaussianReal 0 1) i)
  mean i := (integral_comp_eval (μ := fun _ : m => gaussianReal 0 1) (i := i) (f := f i) (h2 i).aestronglyMeasurable).trans (h0 i)
  cov i j := by
    split
    · rename_i e
      subst e
      have := integral_comp_eval (μ := fun _ : m => gaussianReal 0 1) (i := i) (f := fun z => f i z ^ 2) (h2 i).integrable_sq.aestronglyMeasurable
      rw [← this]
      exact integral_congr_ae (.of_forall fun u => (sq _).symm)
    · rename_i e
      have hi : iIndepFun (fun i (u : m → ℝ) => f i (u i)) (Measure.pi fun _ : m => gaussianReal 0 1) :=
        iIndepFun_pi (μ := fun _ : m => gaussianReal 0 1) (X := f) fun i => (hf i).aemeasurable
      have hm : ∀ i, ∫ u, f i (u i) ∂(Measure.pi fun _ : m => gaussianReal 0 1) = 0 := fun i =>
        (integral_comp_eval (μ := fun _ : m => gaussianReal 0 1) (i := i) (f := f i) (h2 i).aestronglyMeasurable).trans (h0 i)
      have := (hi.indepFun e).integral_fun_mul_eq_mul_integral ((hf i).comp (measurable_pi_apply i)).aestronglyMeasurable
        ((hf j).comp (measurable_pi_apply j)).aestronglyMeasurable
      rw [this, hm i, zero_mul]

theorem gauss_memLp (p : NNReal) : MemLp (fun z : ℝ => z) p (gaussianReal 0 1) := memLp_id_gaussianReal p

theorem gauss_sq : ∫ z, z ^ 2 ∂(gaussianReal 0 1) = 1 := by
  have := variance_id_gaussianReal (μ := 0) (v := 1)
  rw [variance_eq_sub (memLp_id_gaussianReal 2)] at this
  simpa using this

theorem gauss_sq_memLp : MemLp (fun z : ℝ => z ^ 2) 2 (gaussianReal 0 1) := by
  have h4 := gauss_memLp 4
  have e : ((4 : NNReal) : ENNReal)⁻¹ + ((4 : NNReal) : ENNReal)⁻¹ = (2 : ENNReal)⁻¹ := by
    rw [← two_mul, show ((4 : NNReal) : ENNReal) = 2 * 2 by norm_num, ENNReal.mul_inv (by simp) (by simp), ← mul_assoc,
      ENNReal.mul_inv_cancel (by simp) (by simp), one_mul]
  have := MemLp.mul (r := 2) h4 h4 (hpqr := ⟨e⟩)
  simp only [sq]
  exact this

/-- Standard deviations 1 and 2. -/
def sd2 : Fin 2 → ℝ := ![1, 2]
/-- A constant and a dummy. -/
def x2 : Matrix (Fin 2) (Fin 2) ℝ := !![1, 0; 1, 1]

theorem hetero (t : ℕ) :
    Errors (Measure.pi fun _ : Fin 2 × Fin (t + 1) => gaussianReal 0 1) (fun u i => sd2 i.1 * u i) (fun i => sd2 i.1 ^ 2) ∧
    Errors (Measure.pi fun _ : Fin 2 × Fin (t + 1) => gaussianReal 0 1) (fun u i => (sd2 i.1 * u i) ^ 2 - sd2 i.1 ^ 2)
      (fun i => ∫ z, ((sd2 i.1 * z) ^ 2 - sd2 i.1 ^ 2) ^ 2 ∂(gaussianReal 0 1)) := by
  constructor
  · have := iid_errors (m := Fin 2 × Fin (t + 1)) (fun i z => sd2 i.1 * z) (fun i => by fun_prop) (fun i => (gauss_memLp 2).const_mul _)
      (fun i => by rw [integral_const_mul]; simp)
    convert this using 2 with i
    simp only [mul_pow, integral_const_mul, gauss_sq, mul_one]
  · refine iid_errors (m := Fin 2 × Fin (t + 1)) (fun i z => (sd2 i.1 * z) ^ 2 - sd2 i.1 ^ 2) (fun i => by fun_prop) (fun i => ?_) (fun i => ?_)
    · simp only [mul_pow]
      exact (gauss_sq_memLp.const_mul _).sub (memLp_const _)
    · simp only [mul_pow]
      rw [integral_sub ((gauss_sq_memLp.integrable (by norm_num)).const_mul _) (integrable_const _), integral_const_mul, gauss_sq]
      simp

/-- The conditions of C183 are met: a constant and a dummy; the errors of the second group have variance 4. -/
theorem C183_example : ∃ V, Consistent (Ω := fun t => Fin 2 × Fin (t + 1) → ℝ) (fun t => Measure.pi fun _ => gaussianReal 0 1)
    (fun t u => (ols (repX x2 t) (repX x2 t *ᵥ (fun _ => 1) + fun i => sd2 i.1 * u i)).map fun f (p : Fin 2 × Fin 2) =>
      Fintype.card (Fin 2 × Fin (t + 1)) * sandwichOLS f.xtxi (psi0White (repX x2 t) f.u none) p.1 p.2) V ∧ V (0, 0) = 2 ∧ V (0, 1) = -2 ∧ V (1, 1) = 10 := by
  refine ⟨_, C183_white (n := fun t => Fin 2 × Fin (t + 1)) (S := 4) (V := ∑ i, ∫ z, ((sd2 i * z) ^ 2 - sd2 i ^ 2) ^ 2 ∂(gaussianReal 0 1))
    (fun t => (hetero t).1) (fun t i => ?_) (fun t => (hetero t).2) (fun t i => ?_) ?_ (fun t => Fintype.card_pos)
    (repX x2) 1 (fun t i j => ?_) (fun t => ?_) (fun _ => 1) !![1, 1 / 2; 1 / 2, 1 / 2] !![5 / 2, 2; 2, 2] ?_ (fun i j => ?_) (fun i j => ?_) none, ?_⟩
  · obtain ⟨i, a⟩ := i
    fin_cases i <;> simp [sd2] <;> norm_num
  · exact Finset.single_le_sum (f := fun i => ∫ z, ((sd2 i * z) ^ 2 - sd2 i ^ 2) ^ 2 ∂(gaussianReal 0 1))
      (fun i _ => integral_nonneg fun z => sq_nonneg _) (Finset.mem_univ i.1)
  · have : (fun t : ℕ => ((Fintype.card (Fin 2 × Fin (t + 1)) : ℕ) : ℝ)) = fun t : ℕ => (2 : ℝ) * ((t : ℝ) + 1) := by
      funext t; rw [Fintype.card_prod, Fintype.card_fin, Fintype.card_fin]; push_cast; rfl
    rw [this]
    exact (tendsto_atTop_add_const_right _ _ tendsto_natCast_atTop_atTop).const_mul_atTop (by norm_num)
  · obtain ⟨i, a⟩ := i
    fin_cases i <;> fin_cases j <;> simp [repX, x2]
  · rw [isUnit_iff_ne_zero, det_fin_two]
    simp [mul_apply, Fintype.sum_prod_type, repX, x2]
    have : (t : ℝ) + 1 ≠ 0 := by positivity
    intro h
    apply this
    nlinarith
  · rw [det_fin_two]; norm_num
  · refine tendsto_const_nhds.congr fun t => ((rep_avg (fun o => x2 o i * x2 o j) t).trans ?_).symm
    fin_cases i <;> fin_cases j <;> simp [x2] <;> norm_num
  · refine tendsto_const_nhds.congr fun t => ((rep_avg (fun o => x2 o i * x2 o j * sd2 o ^ 2) t).trans ?_).symm
    fin_cases i <;> fin_cases j <;> simp [x2, sd2] <;> norm_num
  · have : (!![1, 1 / 2; 1 / 2, 1 / 2] : Matrix (Fin 2) (Fin 2) ℝ)⁻¹ = !![2, -2; -2, 4] := by
      refine inv_eq_right_inv ?_
      ext i j; fin_cases i <;> fin_cases j <;> simp [mul_apply, Fin.sum_univ_two] <;> norm_num
    simp only [this]
    refine ⟨?_, ?_, ?_⟩ <;> simp [mul_apply, Fin.sum_univ_two] <;> norm_num

/-- The conditions of C183 for the variance estimates are met: independent standard normal errors with the same regressors. -/
theorem C183_vm_example : ∃ V, Consistent (Ω := fun t => Fin 2 × Fin (t + 1) → ℝ) (fun t => Measure.pi fun _ => gaussianReal 0 1)
    (fun t u => (ols (repX x2 t) (repX x2 t *ᵥ (fun _ => 1) + u)).map fun f (p : Fin 2 × Fin 2) =>
      Fintype.card (Fin 2 × Fin (t + 1)) * vmClassic (sig2nk f.u (Fintype.card (Fin 2))) f.xtxi p.1 p.2) V ∧ V (0, 0) = 2 ∧ V (0, 1) = -2 ∧ V (1, 1) = 4 := by
  have h1 : ∀ t : ℕ, Errors (Measure.pi fun _ : Fin 2 × Fin (t + 1) => gaussianReal 0 1) (fun u => u) fun _ => (1 : ℝ) := by
    intro t
    have := iid_errors (m := Fin 2 × Fin (t + 1)) (fun _ z => z) (fun i => by fun_prop) (fun i => gauss_memLp 2) (fun i => by simp)
    simpa only [gauss_sq] using this
  have h2 : ∀ t : ℕ, Errors (Measure.pi fun _ : Fin 2 × Fin (t + 1) => gaussianReal 0 1) (fun u i => u i ^ 2 - 1)
      (fun _ => ∫ z, (z ^ 2 - 1) ^ 2 ∂(gaussianReal 0 1)) := by
    intro t
    refine iid_errors (m := Fin 2 × Fin (t + 1)) (fun _ z => z ^ 2 - 1) (fun i => by fun_prop) (fun i => gauss_sq_memLp.sub (memLp_const _)) (fun i => ?_)
    rw [integral_sub (gauss_sq_memLp.integrable (by norm_num)) (integrable_const _), gauss_sq]
    simp
  refine ⟨_, C183_vm (n := fun t => Fin 2 × Fin (t + 1)) h1 h2 (fun t i => le_refl _) ?_ (fun t => Fintype.card_pos)
    (repX x2) (fun t => ?_) (fun _ => 1) !![1, 1 / 2; 1 / 2, 1 / 2] ?_ (fun i j => ?_), ?_⟩
  · have : (fun t : ℕ => ((Fintype.card (Fin 2 × Fin (t + 1)) : ℕ) : ℝ)) = fun t : ℕ => (2 : ℝ) * ((t : ℝ) + 1) := by
      funext t; rw [Fintype.card_prod, Fintype.card_fin, Fintype.card_fin]; push_cast; rfl
    rw [this]
    exact (tendsto_atTop_add_const_right _ _ tendsto_natCast_atTop_atTop).const_mul_atTop (by norm_num)
  · rw [isUnit_iff_ne_zero, det_fin_two]
    simp [mul_apply, Fintype.sum_prod_type, repX, x2]
    have : (t : ℝ) + 1 ≠ 0 := by positivity
    intro h
    apply this
    nlinarith
  · rw [det_fin_two]; norm_num
  · refine tendsto_const_nhds.congr fun t => ((rep_avg (fun o => x2 o i * x2 o j) t).trans ?_).symm
    fin_cases i <;> fin_cases j <;> simp [x2] <;> norm_num
  · have : (!![1, 1 / 2; 1 / 2, 1 / 2] : Matrix (Fin 2) (Fin 2) ℝ)⁻¹ = !![2, -2; -2, 4] := by
      refine inv_eq_right_inv ?_
      ext i j; fin_cases i <;> fin_cases j <;> simp [mul_apply, Fin.sum_univ_two] <;> norm_num
    simp only [this]
    refine ⟨?_, ?_, ?_⟩ <;> simp
end Spreg.Consist
