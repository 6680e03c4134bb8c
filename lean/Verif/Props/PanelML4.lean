import Verif.Props.PanelML3
import Mathlib.Data.Fin.VecNotation
/-
C97: the counterexample for weights that are not symmetric.
-/
namespace Spreg.PanelML
open Matrix Spreg.Lin Spreg.ML Spreg.Gauss
open scoped Kronecker

variable {τ n k : Type} [Fintype τ] [Fintype n] [Fintype k] [DecidableEq τ] [DecidableEq n] [DecidableEq k]

theorem mix_unit [Nonempty τ] (P B : Matrix n n ℝ) (v : n → ℝ) :
    mix τ P B *ᵥ (fun a => v a.2) = fun a => (P *ᵥ v) a.2 := by
  have hT : (Fintype.card τ : ℝ) ≠ 0 := by exact_mod_cast Fintype.card_ne_zero
  funext a
  rw [mix_apply]
  simp only [Finset.sum_const, Finset.card_univ, nsmul_eq_mul, mul_div_cancel_left₀ _ hT, ← Finset.sum_add_distrib]
  exact Finset.sum_congr rfl fun j _ => by ring

theorem mix_unit_mul [Nonempty τ] (P B : Matrix n n ℝ) (v : n → ℝ) :
    mix τ P B * (Matrix.of fun (a : τ × n) (_ : Unit) => v a.2) = Matrix.of fun a _ => (P *ᵥ v) a.2 := by
  ext a j
  exact congrFun (mix_unit P B v) a

/-- Row-standardised weights of three places on a line. -/
noncomputable def pathW : Matrix (Fin 3) (Fin 3) ℝ := !![0, 1, 0; 1/2, 0, 1/2; 0, 1, 0]
/-- Its eigenvalues. -/
def pathEv : Fin 3 → ℝ := ![1, 0, -1]
/-- Its eigenvectors, of length one, in the columns. -/
noncomputable def pathE : Matrix (Fin 3) (Fin 3) ℝ :=
  !![1 / Real.sqrt 3, 1 / Real.sqrt 2, 1 / Real.sqrt 3;
     1 / Real.sqrt 3, 0, -(1 / Real.sqrt 3);
     1 / Real.sqrt 3, -(1 / Real.sqrt 2), 1 / Real.sqrt 3]

/-- `pathEv`, `pathE` are what `la.eig` may return for `pathW`: real eigenvalues and eigenvectors of length one. -/
theorem path_eig : pathW * pathE = pathE * diagonal pathEv ∧ ∀ j, ∑ i, pathE i j ^ 2 = 1 := by
  have h3 : Real.sqrt 3 ^ 2 = 3 := Real.sq_sqrt (by norm_num)
  have h2 : Real.sqrt 2 ^ 2 = 2 := Real.sq_sqrt (by norm_num)
  constructor
  · ext i j
    rw [mul_diagonal, Matrix.mul_apply, Fin.sum_univ_three]
    fin_cases i <;> fin_cases j <;> simp [pathW, pathE, pathEv] <;> ring
  · intro j
    rw [Fin.sum_univ_three]
    fin_cases j <;> simp [pathE, inv_pow, h3, h2] <;> norm_num

/-- The data: `y` is 0, 1, 0 in both periods, the regressor is the constant. -/
def pathY : Fin 2 × Fin 3 → ℝ := fun a => ![0, 1, 0] a.2
/-- The constant. -/
def pathX : Matrix (Fin 2 × Fin 3) Unit ℝ := Matrix.of fun a _ => (fun _ => 1 : Fin 3 → ℝ) a.2

theorem gram_unit (v w : Fin 3 → ℝ) :
    (Matrix.of fun (a : Fin 2 × Fin 3) (_ : Unit) => v a.2)ᵀ * (Matrix.of fun (a : Fin 2 × Fin 3) (_ : Unit) => w a.2) =
      Matrix.of fun _ _ => 2 * (v ⬝ᵥ w) := by
  ext i j
  simp only [Matrix.mul_apply, transpose_apply, of_apply, Fintype.sum_prod_type, dotProduct, Fin.sum_univ_two]
  ring

theorem gram_unit_vec (v w : Fin 3 → ℝ) :
    (Matrix.of fun (a : Fin 2 × Fin 3) (_ : Unit) => v a.2)ᵀ *ᵥ (fun a => w a.2) = fun _ => 2 * (v ⬝ᵥ w) := by
  ext i
  simp only [mulVec, dotProduct, transpose_apply, of_apply, Fintype.sum_prod_type, Fin.sum_univ_two]
  ring

theorem inv_unit (c : ℝ) (hc : c ≠ 0) : inv? (Matrix.of fun _ _ => c : Matrix Unit Unit ℝ) = some (Matrix.of fun _ _ => c⁻¹) := by
  have hu : IsUnit (Matrix.of fun _ _ => c : Matrix Unit Unit ℝ).det := by
    rw [det_unique]; exact isUnit_iff_ne_zero.2 hc
  rw [inv?_of_isUnit hu]
  congr 1
  apply Matrix.inv_eq_right_inv
  ext i j
  simp [Matrix.mul_apply, hc]

/-- C97 fails for weights that are not symmetric: for row-standardised weights of three places on a line, lambda = 0 and
ratio of variances 4, the reported `logll` is larger than the log-likelihood of the model at all coefficients and variances. The
matrix of eigenvectors that the objective uses as if it were orthogonal is not. -/
theorem C97_rowstandardised_violated :
    ∃ f, errRE pathY pathX pathW pathEv pathE (fun _ => 9) 1 0 2 = some f ∧ f.eFiltered ≠ 0 ∧
      omegaBetween (Fin 2) pathW 0 (2 ^ 2) = 1 * diagonal (fun _ => 9) * (1 : Matrix (Fin 3) (Fin 3) ℝ)ᵀ ∧
      ∀ (c : Unit → ℝ) (s2 : ℝ), 0 < s2 →
        normalLL (fun a => ∑ j, pathX a j * c j) (s2 • reErrCov (Fin 2) pathW 0 f.phi) pathY < f.logll := by
  have h3 : Real.sqrt 3 ^ 2 = 3 := Real.sq_sqrt (by norm_num)
  have h3i : (Real.sqrt 3)⁻¹ ^ 2 = 1 / 3 := by rw [inv_pow, h3]; norm_num
  have h9 : Real.sqrt 9 = 3 := by rw [show (9 : ℝ) = 3 ^ 2 by norm_num]; exact Real.sqrt_sq (by norm_num)
  have hPo : objP (Fin 2) pathEv pathE 0 2 = (1 / 3 : ℝ) • pathEᵀ := by
    unfold objP
    ext i j
    rw [diagonal_mul, Matrix.smul_apply, smul_eq_mul]
    congr 1
    norm_num [h9]
  have hP : (1 : Matrix (Fin 3) (Fin 3) ℝ) * (diagonal (fun _ => (Real.sqrt 9)⁻¹) * 1ᵀ) = (1 / 3 : ℝ) • 1 := by
    rw [h9, Matrix.one_mul, transpose_one, Matrix.mul_one]
    ext i j
    by_cases h : i = j <;> simp [h]
  set s := (Real.sqrt 3)⁻¹ with hs
  have hss : s * s = 1 / 3 := by rw [← sq, h3i]
  have hPx : ((1 / 3 : ℝ) • pathEᵀ) *ᵥ (fun _ => 1) = ![s, 0, s / 3] := by
    funext i
    simp only [mulVec, dotProduct, Fin.sum_univ_three, Matrix.smul_apply, transpose_apply]
    fin_cases i <;> simp [pathE, ← hs] <;> ring
  have hPy : ((1 / 3 : ℝ) • pathEᵀ) *ᵥ ![0, 1, 0] = ![s / 3, 0, -s / 3] := by
    funext i
    simp only [mulVec, dotProduct, Fin.sum_univ_three, Matrix.smul_apply, transpose_apply]
    fin_cases i <;> simp [pathE, ← hs] <;> ring
  have hIx : ((1 / 3 : ℝ) • (1 : Matrix (Fin 3) (Fin 3) ℝ)) *ᵥ (fun _ => 1) = fun _ => 1 / 3 := by
    rw [smul_mulVec, one_mulVec]; funext i; simp
  have hIy : ((1 / 3 : ℝ) • (1 : Matrix (Fin 3) (Fin 3) ℝ)) *ᵥ ![0, 1, 0] = ![0, 1 / 3, 0] := by
    rw [smul_mulVec, one_mulVec]; funext i; fin_cases i <;> simp
  have hO : omegaBetween (Fin 2) pathW 0 (2 ^ 2) = 1 * diagonal (fun _ => 9) * (1 : Matrix (Fin 3) (Fin 3) ℝ)ᵀ := by
    unfold omegaBetween
    rw [zero_smul, sub_zero, transpose_one, Matrix.one_mul, inv_one, Matrix.one_mul, Matrix.mul_one]
    ext i j
    by_cases h : i = j
    · norm_num [h]
    · simp [h]
  have hdx : (![s, 0, s / 3] : Fin 3 → ℝ) ⬝ᵥ ![s, 0, s / 3] = 10 / 27 := by
    simp only [dotProduct, Fin.sum_univ_three]
    simp only [cons_val_zero, cons_val_one, cons_val]
    linear_combination (10 / 9 : ℝ) * hss
  have hdxy : (![s, 0, s / 3] : Fin 3 → ℝ) ⬝ᵥ ![s / 3, 0, -s / 3] = 2 / 27 := by
    simp only [dotProduct, Fin.sum_univ_three]
    simp only [cons_val_zero, cons_val_one, cons_val]
    linear_combination (2 / 9 : ℝ) * hss
  have hdy : (![s / 3, 0, -s / 3] : Fin 3 → ℝ) ⬝ᵥ ![s / 3, 0, -s / 3] = 2 / 27 := by
    simp only [dotProduct, Fin.sum_univ_three]
    simp only [cons_val_zero, cons_val_one, cons_val]
    linear_combination (2 / 9 : ℝ) * hss
  have hx : ∀ P, reTrans (Fin 2) pathW P 0 * pathX = Matrix.of fun a _ => (P *ᵥ (fun _ => 1)) a.2 := fun P => by
    rw [reTrans_eq]; exact mix_unit_mul (τ := Fin 2) P _ (fun _ => 1)
  have hy : ∀ P, reTrans (Fin 2) pathW P 0 *ᵥ pathY = fun a => (P *ᵥ ![0, 1, 0]) a.2 := fun P => by
    rw [reTrans_eq]; exact mix_unit (τ := Fin 2) P _ _
  have hobj : errREObj pathY pathX pathW pathEv pathE 0 2 = some (3 * Real.log (16 / 135 / 6) + 3 / 2 * Real.log 9) := by
    unfold errREObj
    simp only [hPo, hx, hy, hPx, hPy]
    rw [gram_unit, hdx, inv_unit _ (by norm_num), Option.map_some]
    congr 1
    unfold errSS
    rw [gram_unit_vec, hdxy]
    have e1 : (fun a : Fin 2 × Fin 3 => (![s / 3, 0, -s / 3] : Fin 3 → ℝ) a.2) ⬝ᵥ (fun a => ![s / 3, 0, -s / 3] a.2) =
        2 * (2 / 27) := by
      rw [← hdy]
      simp only [dotProduct, Fintype.sum_prod_type, Fin.sum_univ_two]
      ring
    rw [e1]
    simp only [mulVec, dotProduct, Finset.univ_unique, Finset.sum_singleton, of_apply, Fintype.card_fin, Finset.sum_const,
      Finset.card_univ, zero_mul, sub_zero, one_pow, mul_one, Real.log_one, smul_zero, mul_zero]
    norm_num
    ring
  have hex : ∃ f, errRE pathY pathX pathW pathEv pathE (fun _ => 9) 1 0 2 = some f ∧ f.eFiltered ≠ 0 ∧ f.phi = 2 ^ 2 ∧
      f.logll = addConst (Fin 2) (Fin 3) (3 * Real.log (16 / 135 / 6) + 3 / 2 * Real.log 9) := by
    unfold errRE
    rw [hobj, Option.bind_some]
    simp only [hP, hx, hy, hIx, hIy]
    rw [gram_unit (fun _ => 1 / 3) (fun _ => 1 / 3), inv_unit _ (by norm_num [dotProduct]), Option.map_some]
    refine ⟨_, rfl, ?_, rfl, rfl⟩
    intro e
    have e1 := (congrFun e (0, 1)).trans (congrFun e (0, 0)).symm
    simp only [Pi.sub_apply, mulVec, dotProduct, of_apply, sub_left_inj] at e1
    norm_num at e1
  obtain ⟨f, hf, hne, hphi, hll⟩ := hex
  refine ⟨f, hf, hne, hO, ?_⟩
  · intro c s2 hs2
    rw [hphi, hll]
    have hA : IsUnit (1 - (0 : ℝ) • pathW).det := by rw [zero_smul, sub_zero, det_one]; exact isUnit_one
    have hOP : omegaBetween (Fin 2) pathW 0 (2 ^ 2) * (((1 / 3 : ℝ) • (1 : Matrix (Fin 3) (Fin 3) ℝ))ᵀ * ((1 / 3 : ℝ) • 1)) = 1 := by
      rw [hO, Matrix.one_mul, transpose_one, Matrix.mul_one, transpose_smul, transpose_one, Matrix.smul_mul, Matrix.one_mul,
        smul_smul]
      ext i j
      by_cases h : i = j
      · subst h; norm_num
      · simp [h]
    rw [normalLL_re pathY _ pathW ((1 / 3 : ℝ) • 1) 0 (2 ^ 2) s2 hs2 hA hOP]
    have hxm : (fun a : Fin 2 × Fin 3 => ∑ j, pathX a j * c j) = pathX *ᵥ c := rfl
    rw [hxm, mulVec_sub, mulVec_mulVec, hx, hy, hIx, hIy]
    set e' := (fun a : Fin 2 × Fin 3 => (![0, 1 / 3, 0] : Fin 3 → ℝ) a.2) -
      (Matrix.of fun (a : Fin 2 × Fin 3) (_ : Unit) => (1 / 3 : ℝ)) *ᵥ c with he'
    have hu' : utu e' = 2 / 9 * (3 * c () ^ 2 - 2 * c () + 1) := by
      simp only [utu, he', Fintype.sum_prod_type, Fin.sum_univ_two, Fin.sum_univ_three, Pi.sub_apply, mulVec, dotProduct,
        Finset.univ_unique, Finset.sum_singleton, of_apply]
      simp only [cons_val_zero, cons_val_one, cons_val, PUnit.default_eq_unit]
      ring
    let e0 : Fin 2 × Fin 3 → ℝ := fun a => (![-1 / 9, 2 / 9, -1 / 9] : Fin 3 → ℝ) a.2
    have hu0 : utu e0 = 4 / 27 := by
      simp only [utu, e0, Fintype.sum_prod_type, Fin.sum_univ_two, Fin.sum_univ_three]
      simp only [cons_val_zero, cons_val_one, cons_val]
      norm_num
    have hmax := gaussLL_max e0 e' (Real.log |((1 / 3 : ℝ) • (1 : Matrix (Fin 3) (Fin 3) ℝ)).det| +
      (Fintype.card (Fin 2) - 1 : ℕ) * Real.log |(1 - (0 : ℝ) • pathW).det|) (by rw [hu0]; norm_num)
      (by rw [hu0, hu']; nlinarith [sq_nonneg (3 * c () - 1)]) s2 hs2
    refine lt_of_le_of_lt hmax.1 ?_
    rw [hmax.2, hu0, zero_smul, sub_zero, det_one, abs_one, Real.log_one, mul_zero, add_zero, det_smul, det_one, mul_one]
    have hcard : (Fintype.card (Fin 2 × Fin 3) : ℝ) = 6 := by simp
    have hl : Real.log (16 / 135 / 6) < Real.log (4 / 27 / 6) := Real.log_lt_log (by norm_num) (by norm_num)
    have hd : Real.log |(1 / 3 : ℝ) ^ Fintype.card (Fin 3)| = -3 * Real.log 3 := by
      rw [abs_pow, Real.log_pow, abs_of_pos (by norm_num), one_div, Real.log_inv]; simp
    have h9l : Real.log 9 = 2 * Real.log 3 := by
      rw [show (9 : ℝ) = 3 ^ 2 by norm_num, Real.log_pow]; norm_num
    rw [hcard, hd, h9l]
    unfold addConst NT
    simp only [Fintype.card_fin]
    push_cast
    linarith

end Spreg.PanelML
