import Verif.Props.GMRegimes
import Verif.Props.GMIter3
/-
C145: an example of two passes.
-/
namespace Spreg.GM
open Matrix Spreg.Lin

/-- An optimiser that returns -1/2 in the first step and 0 with a weighting matrix. -/
noncomputable def opt145 : Moments (Fin 2) (Fin 2) → Option (Matrix (Fin 2) (Fin 2) ℝ) → Py ℝ := fun _ v =>
  if v.isNone then .ok (-1 / 2) else .ok 0
def w145 : Matrix (Fin 3) (Fin 3) ℝ := !![0, 1, 0; 1, 0, 0; 1, 0, 0]
def x145 : Matrix (Fin 3) Unit ℝ := Matrix.of fun i (_ : Unit) => (![-2, 2, 1] : Fin 3 → ℝ) i
def y145 : Fin 3 → ℝ := ![-2, -2, 7]

/-- C145: two passes on the same data with the same optimiser, framing that leaves the design as it is: `GM_Error_Hom` ends with
the coefficient 7/9 of the regression filtered with the updated lambda, its regime version with the coefficient 0 of the first
pass. -/
theorem C145_example : ∃ f f', gmErrorHomRegimes opt145 (fun x => x) w145 x145 y145 2 (1 / 100000) "hom" = .ok f ∧
    gmErrorHom opt145 w145 x145 y145 2 (1 / 100000) "hom" = .ok f' ∧ f.iteration = 2 ∧ f'.iteration = 2 ∧ f.lam = f'.lam ∧
    f.betas () = 0 ∧ f'.betas () = 7 / 9 := by
  have unit1 : ∀ a : ℝ, a ≠ 0 → (Matrix.of fun (_ _ : Unit) => a) * (Matrix.of fun _ _ => 1 / a) = 1 := by
    intro a ha; ext i j; simp [mul_apply, ha]
  have unit1' : ∀ a : ℝ, a ≠ 0 → ∀ A : Matrix Unit Unit ℝ, A = (Matrix.of fun (_ _ : Unit) => a) → 
      invE A = .ok (Matrix.of fun _ _ => 1 / a) := by
    intro a ha A hA
    rw [hA, invE_of_isUnit (isUnit_det_of_right_inverse (unit1 a ha)), inv_eq_right_inv (unit1 a ha)]
  have diag2 : ∀ a b : ℝ, a ≠ 0 → b ≠ 0 → invE (!![a, 0; 0, b] : Matrix (Fin 2) (Fin 2) ℝ) = .ok !![1 / a, 0; 0, 1 / b] := by
    intro a b ha hb
    have : (!![a, 0; 0, b] : Matrix (Fin 2) (Fin 2) ℝ) * !![1 / a, 0; 0, 1 / b] = 1 := by
      ext i j; fin_cases i <;> fin_cases j <;> simp [mul_apply, Fin.sum_univ_two, ha, hb]
    rw [invE_of_isUnit (isUnit_det_of_right_inverse this), inv_eq_right_inv this]
  have hxx : x145ᵀ * x145 = Matrix.of fun _ _ => 9 := by
    ext i j; simp [x145, mul_apply, Fin.sum_univ_three]; norm_num
  have hd : IsUnit (x145ᵀ * x145).det := by rw [hxx]; exact isUnit_det_of_right_inverse (unit1 9 (by norm_num))
  have ho : olsE x145 y145 = .ok (olsWith x145 y145 (x145ᵀ * x145)⁻¹) := by unfold olsE; rw [ols_of_isUnit _ _ hd]
  have hob : (olsWith x145 y145 (x145ᵀ * x145)⁻¹).betas = fun _ => 7 / 9 := by
    have : (olsWith x145 y145 (x145ᵀ * x145)⁻¹).betas = (x145ᵀ * x145)⁻¹ *ᵥ (x145ᵀ *ᵥ y145) := rfl
    rw [this, hxx, inv_eq_right_inv (unit1 9 (by norm_num))]
    funext j
    simp [x145, y145, mulVec, dotProduct, Fin.sum_univ_three, vecHead, vecTail]; norm_num
  set xs : Matrix (Fin 3) Unit ℝ := Matrix.of fun i (_ : Unit) => (![-1, 1, 0] : Fin 3 → ℝ) i with hxs
  set us : Fin 3 → ℝ := ![-3, -3, 6] with hus
  have hF : spFilterM w145 (-1 / 2) x145 = xs := by
    ext i j; fin_cases i <;> simp [spFilterM, hxs, x145, w145, mul_apply, Fin.sum_univ_three, vecHead, vecTail] <;> norm_num
  have hFy : spFilter w145 (-1 / 2) y145 = us := by
    ext i; fin_cases i <;> simp [spFilter, hus, y145, w145, mulVec, dotProduct, Fin.sum_univ_three] <;> norm_num
  have hF0 : ∀ {κ : Type} (A : Matrix (Fin 3) κ ℝ), spFilterM w145 0 A = A := fun A => by simp [spFilterM]
  have hF0' : ∀ v, spFilter w145 0 v = v := fun v => by simp [spFilter]
  have hxsx : xsᵀ * xs = Matrix.of fun _ _ => 2 := by
    ext i j; simp [hxs, mul_apply, Fin.sum_univ_three]; norm_num
  have hds : IsUnit (xsᵀ * xs).det := by rw [hxsx]; exact isUnit_det_of_right_inverse (unit1 2 (by norm_num))
  have hos : olsE xs us = .ok (olsWith xs us (xsᵀ * xs)⁻¹) := by unfold olsE; rw [ols_of_isUnit _ _ hds]
  have hxy : xsᵀ *ᵥ us = 0 := by
    ext j; simp [hxs, hus, mulVec, dotProduct, Fin.sum_univ_three]
  have hb : (olsWith xs us (xsᵀ * xs)⁻¹).betas = 0 := by
    have : (olsWith xs us (xsᵀ * xs)⁻¹).betas = (xsᵀ * xs)⁻¹ *ᵥ (xsᵀ *ᵥ us) := rfl
    rw [this, hxy, mulVec_zero]
  have hA1 : A1hom w145 false = !![1, 0, 0; 0, 0, 0; 0, 0, -1] := by
    unfold A1hom
    ext i j
    fin_cases i <;> fin_cases j <;>
      simp [w145, mul_apply, Fin.sum_univ_three, Matrix.diagonal, N] <;> norm_num
  have hA2 : A2hom w145 = !![0, 1, 1/2; 1, 0, 0; 1/2, 0, 0] := by
    unfold A2hom
    ext i j
    fin_cases i <;> fin_cases j <;> simp [w145] <;> norm_num
  set A1 : Matrix (Fin 3) (Fin 3) ℝ := !![1, 0, 0; 0, 0, 0; 0, 0, -1] with hA1d
  set A2 : Matrix (Fin 3) (Fin 3) ℝ := !![0, 1, 1/2; 1, 0, 0; 1/2, 0, 0] with hA2d
  have hbd : chooseA1 "hom" w145 = .ok A1 := by unfold chooseA1; rw [if_pos rfl, hA1]
  -- the variance matrix at lambda = 0
  set u1 : Fin 3 → ℝ := y145 - x145 *ᵥ (fun _ => 7 / 9) with hu1
  have hu1' : u1 = ![-4 / 9, -32 / 9, 56 / 9] := by
    funext i; fin_cases i <;> simp [hu1, y145, x145, mulVec, dotProduct, vecHead, vecTail] <;> norm_num
  have hvm : ∀ u : Fin 3 → ℝ, (u = y145 ∨ u = u1) →
      ∃ vm, omegaHomOls w145 A1 A2 x145 u 0 (momentsHom w145 A1 A2 u).G = .ok vm := by
    intro u hu
    have hpsi : ∃ a b : ℝ, 0 < a ∧ 0 < b ∧ vcHom A1 A2 u 0 0 = !![a, 0; 0, b] := by
      refine ⟨vcHom A1 A2 u 0 0 0 0, vcHom A1 A2 u 0 0 1 1, ?_, ?_, ?_⟩
      · rcases hu with rfl | rfl
        · simp [vcHom, m2, m3, m4, y145, hA1d, hA2d, mul_apply, Fin.sum_univ_three, N, dotProduct]; norm_num
        · rw [hu1']
          simp [vcHom, m2, m3, m4, hA1d, hA2d, mul_apply, Fin.sum_univ_three, N, dotProduct]; norm_num
      · rcases hu with rfl | rfl
        · simp [vcHom, m2, m3, m4, y145, hA1d, hA2d, mul_apply, Fin.sum_univ_three, N, dotProduct]; norm_num
        · rw [hu1']
          simp [vcHom, m2, m3, m4, hA1d, hA2d, mul_apply, Fin.sum_univ_three, N, dotProduct]; norm_num
      · ext i j
        fin_cases i <;> fin_cases j <;> simp [vcHom, hA1d, hA2d, mul_apply, Fin.sum_univ_three]
    obtain ⟨a, b, ha, hb, hpsi⟩ := hpsi
    have hG : ∃ p q : ℝ, p ≠ 0 ∧ jac (momentsHom w145 A1 A2 u).G 0 = Matrix.of fun i (_ : Unit) => ![p, q] i := by
      refine ⟨jac (momentsHom w145 A1 A2 u).G 0 0 (), jac (momentsHom w145 A1 A2 u).G 0 1 (), ?_, ?_⟩
      · rcases hu with rfl | rfl
        · simp [jac, momentsHom, w145, hA1d, hA2d, y145, mul_apply, mulVec, vecMul, dotProduct, Fin.sum_univ_three, Fin.sum_univ_two, N]
          norm_num
        · rw [hu1']
          simp [jac, momentsHom, w145, hA1d, hA2d, mul_apply, mulVec, vecMul, dotProduct, Fin.sum_univ_three, Fin.sum_univ_two, N]
          norm_num
      · ext i j; fin_cases i <;> rfl
    obtain ⟨p, q, hp, hG⟩ := hG
    have hjj : (Matrix.of fun i (_ : Unit) => (![p, q] : Fin 2 → ℝ) i)ᵀ *
        ((!![1 / a, 0; 0, 1 / b] : Matrix (Fin 2) (Fin 2) ℝ) * (Matrix.of fun i (_ : Unit) => (![p, q] : Fin 2 → ℝ) i))
        = Matrix.of fun _ _ => p ^ 2 / a + q ^ 2 / b := by
      ext i j; simp [mul_apply, Fin.sum_univ_two, vecHead, vecTail]; ring
    have hne : p ^ 2 / a + q ^ 2 / b ≠ 0 := by
      have h1 : 0 < p ^ 2 / a := div_pos (by positivity) ha
      have h2 : 0 ≤ q ^ 2 / b := div_nonneg (sq_nonneg q) hb.le
      linarith
    have hpx : (1 / N (Fin 3)) • (Matrix.of fun (_ _ : Unit) => (9 : ℝ)) = Matrix.of fun _ _ => 3 := by
      ext i j; simp [N]; norm_num
    unfold omegaHomOls
    simp only
    rw [hF0, hF0', hxx, unit1' 3 (by norm_num) _ hpx, hpsi, hG, diag2 a b ha.ne' hb.ne', unit1' 9 (by norm_num) _ rfl]
    simp only [bind, Except.bind]
    rw [unit1' _ hne _ hjj]
    exact ⟨_, rfl⟩
  have s1 : ∀ a, homStepR opt145 (fun x => x) w145 A1 A2 x145 y145 (-1 / 2) a =
      .ok ⟨0, x145 *ᵥ 0, y145, momentsHom w145 A1 A2 y145, 0⟩ := by
    intro a
    unfold homStepR
    rw [hF, hFy, hos]
    simp only [bind, Except.bind, hb, pure, Except.pure, opt145]
    have : y145 - x145 *ᵥ (0 : Unit → ℝ) = y145 := by rw [mulVec_zero, sub_zero]
    rw [this]
    rfl
  have s2 : homStep opt145 w145 A1 A2 x145 y145 (-1 / 2) = .ok ⟨0, x145 *ᵥ 0, y145, momentsHom w145 A1 A2 y145, 0⟩ := by
    unfold homStep
    rw [hF, hFy, hos]
    simp only [bind, Except.bind, hb, pure, Except.pure, opt145]
    have : y145 - x145 *ᵥ (0 : Unit → ℝ) = y145 := by rw [mulVec_zero, sub_zero]
    rw [this]
    rfl
  have s3 : homStep opt145 w145 A1 A2 x145 y145 0 =
      .ok ⟨fun _ => 7 / 9, x145 *ᵥ (fun _ => 7 / 9), u1, momentsHom w145 A1 A2 u1, 0⟩ := by
    unfold homStep
    rw [hF0, hF0', ho]
    simp only [bind, Except.bind, hob, pure, Except.pure, opt145]
    rfl
  obtain ⟨vm, hv⟩ := hvm y145 (.inl rfl)
  obtain ⟨vm', hv'⟩ := hvm u1 (.inr rfl)
  refine ⟨⟨0, 0, x145 *ᵥ 0, y145, y145 - (0 : ℝ) • (w145 *ᵥ y145), vm, 2, iterMsg 2 2⟩,
    ⟨fun _ => 7 / 9, 0, x145 *ᵥ (fun _ => 7 / 9), u1, u1 - (0 : ℝ) • (w145 *ᵥ u1), vm', 2, iterMsg 2 2⟩, ?_, ?_, rfl, rfl, rfl,
    rfl, rfl⟩
  · unfold gmErrorHomRegimes
    rw [hbd]
    show (olsE x145 y145 >>= _) = _
    rw [ho, hA2]
    simp only [bind, Except.bind, show ∀ M, opt145 M none = .ok (-1 / 2) from fun M => rfl, gmLoop]
    rw [if_pos (by norm_num), s1]
    simp only
    rw [if_pos (by norm_num), s1]
    simp only [bound, pure, Except.pure]
    rw [hv]
  · unfold gmErrorHom
    rw [hbd]
    show (olsE x145 y145 >>= _) = _
    rw [ho, hA2]
    simp only [bind, Except.bind, show ∀ M, opt145 M none = .ok (-1 / 2) from fun M => rfl, gmLoop]
    rw [if_pos (by norm_num), s2]
    simp only
    rw [if_pos (by norm_num), s3]
    simp only [bound, pure, Except.pure]
    rw [hv']

end Spreg.GM
