import Verif.Props.PanelML3
import Verif.Props.PanelML5
import Verif.Props.PanelML6
import Mathlib.Data.Fin.VecNotation
/-
Non-vacuity of C95-C100: two neighbours, two periods, one regressor.
-/
namespace Spreg.PanelML
open Matrix Spreg.Lin Spreg.ML Spreg.Gauss

/-- Two neighbours. -/
def exW : Matrix (Fin 2) (Fin 2) ℝ := !![0, 1; 1, 0]
/-- Dependent variable: 0 in the first period, 1 in the second. -/
def exY : Fin 2 × Fin 2 → ℝ := fun a => ![0, 1] a.1
/-- Regressor: 1 for the first unit in the second period. -/
def exX : Matrix (Fin 2 × Fin 2) Unit ℝ := Matrix.of fun a _ => if a = (1, 0) then 1 else 0

theorem exA (rho : ℝ) (h : |rho| ≤ 99 / 100) : IsUnit (1 - rho • exW).det := by
  rw [isUnit_iff_ne_zero, det_fin_two]
  have := abs_le.1 h
  simp [exW]
  nlinarith

theorem ex_bigW (v : Fin 2 × Fin 2 → ℝ) (a : Fin 2 × Fin 2) : (bigW (Fin 2) exW *ᵥ v) a = v (a.1, 1 - a.2) := by
  rw [bigW_eq, mix_apply]
  obtain ⟨s, i⟩ := a
  fin_cases i <;> simp [exW, Fin.sum_univ_two]

theorem ex_quasi (phi : ℝ) (v : Fin 2 × Fin 2 → ℝ) (a : Fin 2 × Fin 2) :
    (quasi (Fin 2) (Fin 2) phi *ᵥ v) a = v a - (1 - phi) * ((v (0, a.2) + v (1, a.2)) / 2) := by
  rw [quasi_eq, mix_apply]
  obtain ⟨s, i⟩ := a
  fin_cases i <;> simp [Fin.sum_univ_two, one_apply] <;> ring

theorem ex_wy : bigW (Fin 2) exW *ᵥ exY = exY := by
  funext a; rw [ex_bigW]; rfl

theorem ex_yd (phi : ℝ) : quasi (Fin 2) (Fin 2) phi *ᵥ exY = fun a => ![-(1 - phi) / 2, (1 + phi) / 2] a.1 := by
  funext a
  rw [ex_quasi]
  obtain ⟨s, i⟩ := a
  fin_cases s <;> simp [exY] <;> ring

theorem ex_xd (phi : ℝ) : quasi (Fin 2) (Fin 2) phi * exX =
    Matrix.of fun a _ => if a.2 = 0 then ![-(1 - phi) / 2, (1 + phi) / 2] a.1 else 0 := by
  ext a j
  have : (quasi (Fin 2) (Fin 2) phi * exX) a j = (quasi (Fin 2) (Fin 2) phi *ᵥ fun a => exX a ()) a := rfl
  rw [this, ex_quasi]
  obtain ⟨s, i⟩ := a
  fin_cases s <;> fin_cases i <;> simp [exX] <;> ring

theorem ex_gram (phi : ℝ) : IsUnit ((quasi (Fin 2) (Fin 2) phi * exX)ᵀ * (quasi (Fin 2) (Fin 2) phi * exX)).det := by
  rw [det_unique, isUnit_iff_ne_zero, ex_xd]
  simp [Matrix.mul_apply, Fintype.sum_prod_type, Fin.sum_univ_two]
  nlinarith [sq_nonneg phi]

/-- The residuals of the second unit do not vanish. -/
theorem ex_resid (phi rho : ℝ) (h : |rho| ≤ 99 / 100) (c : Unit → ℝ) :
    quasi (Fin 2) (Fin 2) phi *ᵥ (exY - rho • (bigW (Fin 2) exW *ᵥ exY) - exX *ᵥ c) ≠ 0 := by
  intro e
  have h1 := congrFun e (1, 1)
  have h0 := congrFun e (0, 1)
  have hr := abs_le.1 h
  rw [ex_quasi, ex_wy] at h0 h1
  simp [exY, exX, mulVec, dotProduct] at h0 h1
  rcases h0 with h0 | h0
  · rw [h0] at h1; linarith
  · linarith

/-- The hypotheses of `C95_lagFE`, `C99_lagFE_violated` are met. -/
theorem ex_lagFE : ∃ f, lagFE exY exX exW (1 / 2) = some f ∧ IsUnit (1 - (1 / 2 : ℝ) • exW).det ∧ f.u ≠ 0 ∧
    ∑ s : Fin 2, ∑ j, exW 0 j * exY (s, j) ≠ 0 := by
  have hh : |(1 / 2 : ℝ)| ≤ 99 / 100 := by rw [abs_of_pos (by norm_num)]; norm_num
  obtain ⟨p, hp⟩ : ∃ p, lagPre (quasi (Fin 2) (Fin 2) 0 *ᵥ exY) (quasi (Fin 2) (Fin 2) 0 * exX) (bigW (Fin 2) exW) =
      some p := by
    unfold lagPre; rw [inv?_of_isUnit (ex_gram 0), Option.map_some]; exact ⟨_, rfl⟩
  obtain ⟨-, e1, -⟩ := lagPre_some hp (1 / 2)
  unfold lagFE
  dsimp only
  rw [hp, Option.map_some]
  refine ⟨_, rfl, exA _ hh, ?_, by simp [exW, exY, Fin.sum_univ_two]⟩
  dsimp only
  have hres : ∀ (X : Matrix (Fin 2 × Fin 2) Unit ℝ) Y B, (olsWith X Y B).u = Y - X *ᵥ (olsWith X Y B).betas := fun _ _ _ => rfl
  exact fun h => ex_resid 0 (1 / 2) hh _
    ((quasi_resid exY exX exW 0 (1 / 2) _).trans ((hres _ _ _).symm.trans (e1.symm.trans h)))

/-- The hypotheses of `C96_lagRE` are met (`phi = 1/2`, ratio of variances 3/2). -/
theorem ex_lagRE : ∃ f, lagRE exY exX exW (1 / 2) (1 / 2) = some f ∧ IsUnit (1 - (1 / 2 : ℝ) • exW).det ∧ f.u ≠ 0 ∧
    (1 / 2 : ℝ) ^ 2 * (1 + Fintype.card (Fin 2) * (3 / 2)) = 1 := by
  have hh : |(1 / 2 : ℝ)| ≤ 99 / 100 := by rw [abs_of_pos (by norm_num)]; norm_num
  obtain ⟨p, hp⟩ : ∃ p, lagPre (quasi (Fin 2) (Fin 2) (1 / 2) *ᵥ exY) (quasi (Fin 2) (Fin 2) (1 / 2) * exX) (bigW (Fin 2) exW) =
      some p := by
    unfold lagPre; rw [inv?_of_isUnit (ex_gram (1 / 2)), Option.map_some]; exact ⟨_, rfl⟩
  obtain ⟨-, e1, -⟩ := lagPre_some hp (1 / 2)
  unfold lagRE rePre
  dsimp only
  rw [hp, Option.map_some]
  refine ⟨_, rfl, exA _ hh, ?_, by norm_num⟩
  dsimp only
  have hres : ∀ (X : Matrix (Fin 2 × Fin 2) Unit ℝ) Y B, (olsWith X Y B).u = Y - X *ᵥ (olsWith X Y B).betas := fun _ _ _ => rfl
  exact fun h => ex_resid (1 / 2) (1 / 2) hh _
    ((quasi_resid exY exX exW (1 / 2) (1 / 2) _).trans ((hres _ _ _).symm.trans (e1.symm.trans h)))

/-- The hypotheses of `C98_ascent` are met. -/
example : ∃ (optPhi : ℝ → (Unit → ℝ) → ℝ) (optRho : LagPre (Fin 2 × Fin 2) Unit → ℝ),
      (∀ rho b phi, |rho| ≤ 99 / 100 → 0 < phi → phi ≤ 1 → 0 < optPhi rho b ∧ optPhi rho b ≤ 1 ∧
        phiObj exY exX exW rho b (optPhi rho b) ≤ phiObj exY exX exW rho b phi) ∧
      (∀ phi p rho, 0 < phi → rePre exY exX exW phi = some p → |rho| ≤ 99 / 100 → |optRho p| ≤ 99 / 100 ∧
        lagObj exW p (optRho p) ≤ lagObj exW p rho) ∧
      (∀ (rho : ℝ) (c : Unit → ℝ), |rho| ≤ 99 / 100 → exY - rho • (bigW (Fin 2) exW *ᵥ exY) - exX *ᵥ c ≠ 0) :=
  optimisers_exist exY exX exW (fun rho c h => ex_resid 0 rho h c) exA

theorem gram_trans (A : Matrix (Fin 2 × Fin 2) (Fin 2 × Fin 2) ℝ) (hA : IsUnit A.det) :
    IsUnit ((A * exX)ᵀ * (A * exX)).det := by
  rw [xtx_isUnit_iff]
  intro b hb
  have h1 : exX *ᵥ b = 0 := by
    rw [← one_mulVec (exX *ᵥ b), ← nonsing_inv_mul _ hA, ← mulVec_mulVec, mulVec_mulVec b A, hb, mulVec_zero]
  have := congrFun h1 (1, 0)
  simp [exX, mulVec, dotProduct] at this
  funext i
  exact this

theorem trans_ne (A : Matrix (Fin 2 × Fin 2) (Fin 2 × Fin 2) ℝ) (hA : IsUnit A.det) (b : Unit → ℝ) :
    A *ᵥ (exY - exX *ᵥ b) ≠ 0 := by
  intro hb
  have h2 : exY - exX *ᵥ b = 0 := by
    rw [← one_mulVec (exY - _), ← nonsing_inv_mul _ hA, ← mulVec_mulVec, hb, mulVec_zero]
  have := congrFun h2 (1, 1)
  simp [exX, exY, mulVec, dotProduct] at this

theorem trans_ne' (A : Matrix (Fin 2 × Fin 2) (Fin 2 × Fin 2) ℝ) (hA : IsUnit A.det) (b : Unit → ℝ) :
    A *ᵥ exY - (A * exX) *ᵥ b ≠ 0 := by
  rw [← mulVec_mulVec, ← mulVec_sub]
  exact trans_ne A hA b

/-- The hypotheses of `C95_errFE`, `C99_errFE`, `C100_errFE` are met. -/
theorem ex_errFE : ∃ f, errFE true exY exX exW (1 / 2) = some f ∧ IsUnit (1 - (1 / 2 : ℝ) • exW).det ∧ f.eFiltered ≠ 0 := by
  have hh : |(1 / 2 : ℝ)| ≤ 99 / 100 := by rw [abs_of_pos (by norm_num)]; norm_num
  have hA := det_bigW_isUnit (τ := Fin 2) exW (1 / 2) (exA _ hh)
  have hxs : quasi (Fin 2) (Fin 2) 0 * exX - (1 / 2 : ℝ) • (bigW (Fin 2) exW * (quasi (Fin 2) (Fin 2) 0 * exX)) =
      (1 - (1 / 2 : ℝ) • bigW (Fin 2) exW) * (quasi (Fin 2) (Fin 2) 0 * exX) := by
    rw [Matrix.sub_mul, Matrix.one_mul, Matrix.smul_mul]
  have hu : IsUnit (((1 - (1 / 2 : ℝ) • bigW (Fin 2) exW) * (quasi (Fin 2) (Fin 2) 0 * exX))ᵀ *
      ((1 - (1 / 2 : ℝ) • bigW (Fin 2) exW) * (quasi (Fin 2) (Fin 2) 0 * exX))).det := by
    rw [xtx_isUnit_iff]
    intro b hb
    have h1 : (quasi (Fin 2) (Fin 2) 0 * exX) *ᵥ b = 0 := by
      rw [← one_mulVec ((quasi (Fin 2) (Fin 2) 0 * exX) *ᵥ b), ← nonsing_inv_mul _ hA, ← mulVec_mulVec,
        mulVec_mulVec b (1 - (1 / 2 : ℝ) • bigW (Fin 2) exW), hb, mulVec_zero]
    exact (xtx_isUnit_iff _).1 (ex_gram 0) b h1
  unfold errFE
  simp only [hxs]
  rw [inv?_of_isUnit hu, Option.map_some]
  refine ⟨_, rfl, exA _ hh, ?_⟩
  dsimp only
  intro e
  rw [← sub_smul_bigW] at e
  have h1 : ∀ b : Unit → ℝ, (1 - (1 / 2 : ℝ) • bigW (Fin 2) exW) *ᵥ (quasi (Fin 2) (Fin 2) 0 *ᵥ exY -
      (quasi (Fin 2) (Fin 2) 0 * exX) *ᵥ b) = 0 → False := by
    intro b hb
    have h2 : quasi (Fin 2) (Fin 2) 0 *ᵥ exY - (quasi (Fin 2) (Fin 2) 0 * exX) *ᵥ b = 0 := by
      rw [← one_mulVec (quasi (Fin 2) (Fin 2) 0 *ᵥ exY - _), ← nonsing_inv_mul _ hA, ← mulVec_mulVec, hb, mulVec_zero]
    refine ex_resid 0 0 (by norm_num) b ?_
    rw [quasi_resid, zero_smul, sub_zero, h2]
  exact h1 _ e

/-- Orthonormal eigenvectors of the two neighbours. -/
noncomputable def exE : Matrix (Fin 2) (Fin 2) ℝ :=
  !![1 / Real.sqrt 2, 1 / Real.sqrt 2; 1 / Real.sqrt 2, -(1 / Real.sqrt 2)]

/-- The hypotheses of `C97_errRE_partial` are met. -/
theorem ex_errRE : ∃ f d, exEᵀ * exE = 1 ∧ exW = exE * diagonal ![1, -1] * exEᵀ ∧
    (∀ i, 0 < 1 - (1 / 2 : ℝ) * (![1, -1] : Fin 2 → ℝ) i) ∧
    omegaBetween (Fin 2) exW (1 / 2) (1 ^ 2) = exE * diagonal d * exEᵀ ∧
    errRE exY exX exW ![1, -1] exE d exE (1 / 2) 1 = some f ∧ f.eFiltered ≠ 0 := by
  have hh : |(1 / 2 : ℝ)| ≤ 99 / 100 := by rw [abs_of_pos (by norm_num)]; norm_num
  have h2 : (Real.sqrt 2)⁻¹ * (Real.sqrt 2)⁻¹ = 1 / 2 := by
    rw [← mul_inv, Real.mul_self_sqrt (by norm_num)]; norm_num
  have hE : exEᵀ * exE = 1 := by
    ext i j
    rw [Matrix.mul_apply, Fin.sum_univ_two]
    fin_cases i <;> fin_cases j <;> simp [exE, h2] <;> norm_num
  have hcj : ∀ a b : ℝ, exE * diagonal ![a, b] * exEᵀ = !![(a + b) / 2, (a - b) / 2; (a - b) / 2, (a + b) / 2] := by
    intro a b
    ext i j
    rw [Matrix.mul_apply, Fin.sum_univ_two, mul_diagonal, mul_diagonal]
    fin_cases i <;> fin_cases j <;> simp [exE] <;>
      first | linear_combination (a + b) * h2 | linear_combination (a - b) * h2
  have hW : exW = exE * diagonal ![1, -1] * exEᵀ := by
    rw [hcj]; ext i j; fin_cases i <;> fin_cases j <;> simp [exW]
  have hB : (1 - (1 / 2 : ℝ) • exW)ᵀ * (1 - (1 / 2 : ℝ) • exW) = !![5/4, -1; -1, 5/4] := by
    ext i j
    rw [Matrix.mul_apply, Fin.sum_univ_two]
    fin_cases i <;> fin_cases j <;> simp [exW] <;> norm_num
  have hO : omegaBetween (Fin 2) exW (1 / 2) (1 ^ 2) = exE * diagonal ![6, 22/9] * exEᵀ := by
    unfold omegaBetween
    have hi : (!![5/4, -1; -1, 5/4] : Matrix (Fin 2) (Fin 2) ℝ)⁻¹ = !![20/9, 16/9; 16/9, 20/9] := by
      apply Matrix.inv_eq_right_inv
      ext i j; fin_cases i <;> fin_cases j <;> simp [Matrix.mul_apply, Fin.sum_univ_two] <;> norm_num
    rw [hB, hi, hcj]
    ext i j; fin_cases i <;> fin_cases j <;> simp <;> norm_num
  have hEd : IsUnit exE.det := by
    have := congrArg Matrix.det hE
    rw [det_mul, det_one, det_transpose] at this
    exact IsUnit.of_mul_eq_one _ this
  have hPo : IsUnit (objP (Fin 2) ![1, -1] exE (1 / 2) 1).det := by
    unfold objP
    rw [det_mul, det_transpose, det_diagonal]
    refine IsUnit.mul (isUnit_iff_ne_zero.2 (Finset.prod_ne_zero_iff.2 fun i _ => inv_ne_zero ?_)) hEd
    have : (0 : ℝ) < Fintype.card (Fin 2) * 1 ^ 2 + 1 / (1 - 1 / 2 * (![1, -1] : Fin 2 → ℝ) i) ^ 2 := by
      have : (0 : ℝ) ≤ 1 / (1 - 1 / 2 * (![1, -1] : Fin 2 → ℝ) i) ^ 2 := by positivity
      simp only [Fintype.card_fin]
      push_cast
      linarith
    exact (Real.sqrt_pos.2 this).ne'
  have hP : IsUnit (exE * (diagonal (fun i => (Real.sqrt ((![6, 22/9] : Fin 2 → ℝ) i))⁻¹) * exEᵀ)).det := by
    rw [det_mul, det_mul, det_transpose, det_diagonal]
    refine hEd.mul (IsUnit.mul (isUnit_iff_ne_zero.2 (Finset.prod_ne_zero_iff.2 fun i _ => inv_ne_zero ?_)) hEd)
    fin_cases i <;> simp
  have hAd : ∀ P : Matrix (Fin 2) (Fin 2) ℝ, IsUnit P.det → IsUnit (reTrans (Fin 2) exW P (1 / 2)).det := by
    intro P hP
    rw [reTrans_eq, det_mix _ _ (exA _ hh)]
    exact hP.mul ((exA _ hh).pow _)
  have hex : ∃ f, errRE exY exX exW ![1, -1] exE ![6, 22/9] exE (1 / 2) 1 = some f ∧ f.eFiltered ≠ 0 := by
    unfold errRE errREObj
    dsimp only
    rw [inv?_of_isUnit (gram_trans _ (hAd _ hPo)), Option.map_some, Option.bind_some,
      inv?_of_isUnit (gram_trans _ (hAd _ hP)), Option.map_some]
    refine ⟨_, rfl, ?_⟩
    dsimp only
    first
      | exact trans_ne _ (hAd _ hP) _
      | exact trans_ne' _ (hAd _ hP) _
  obtain ⟨f, hf, hne⟩ := hex
  refine ⟨f, _, hE, hW, fun i => ?_, hO, hf, hne⟩
  fin_cases i <;> norm_num

end Spreg.PanelML
