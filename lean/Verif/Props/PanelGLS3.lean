import Verif.Props.PanelGLS6
import Mathlib.Data.Fin.VecNotation
/-
C105: a panel for which the Hausman statistic of PanelRE is negative.
-/
namespace Spreg.PanelGLS
open Matrix Spreg.Lin Spreg.PanelML

/-- Sign of the deviation from the mean in the two periods. -/
def hSgn : Fin 2 → ℝ := ![1, -1]
/-- Means over time of the regressor. -/
def hMean : Fin 3 → ℝ := ![-1, 0, 1]
/-- Deviations of the dependent variable. -/
def hDev : Fin 3 → ℝ := ![1, -1, 0]

/-- A constant and a regressor. -/
def hX : Matrix (Fin 2 × Fin 3) (Fin 2) ℝ := Matrix.of fun a => ![1, hMean a.2 + hSgn a.1]
/-- Dependent variable: the within slope is 0, the between slope `c`. -/
def hY (c : ℝ) : Fin 2 × Fin 3 → ℝ := fun a => c * hMean a.2 + hSgn a.1 * hDev a.2

theorem h_ym (c : ℝ) : unitMean (hY c) = fun i => c * hMean i := by
  funext i; simp [unitMean, hY, hSgn, Fin.sum_univ_two]; ring

theorem h_xm : unitMeanM hX = Matrix.of fun i => ![1, hMean i] := by
  ext i j; fin_cases j <;> simp [unitMeanM, hX, hSgn, Fin.sum_univ_two]; ring

theorem h_xd : hX - tileM (Fin 2) (unitMeanM hX) = Matrix.of fun a => ![0, hSgn a.1] := by
  rw [h_xm]; ext a j; fin_cases j <;> simp [hX, tileM]

theorem h_yd (c : ℝ) : hY c - tile (Fin 2) (unitMean (hY c)) = fun a => hSgn a.1 * hDev a.2 := by
  rw [h_ym]; funext a; simp [hY, tile]

theorem h_var (j : Fin 2) : colVar (Matrix.of fun a => ![0, hSgn a.1] : Matrix (Fin 2 × Fin 3) (Fin 2) ℝ) j = ![0, 1] j := by
  fin_cases j <;> simp [colVar, NT, hSgn, Fintype.sum_prod_type, Fin.sum_univ_two] <;> norm_num

theorem h_valid (j : Fin 2) : Valid (Matrix.of fun a => ![0, hSgn a.1] : Matrix (Fin 2 × Fin 3) (Fin 2) ℝ) j ↔ j = 1 := by
  unfold Valid
  rw [h_var]
  fin_cases j <;> norm_num

/-- The inverse of a 1x1 matrix. -/
theorem inv?_unique {s : Type} [Fintype s] [DecidableEq s] (d : s) (hd : ∀ j, j = d) (M : Matrix s s ℝ) (c : ℝ)
    (hM : M d d = c) (hc : c ≠ 0) : inv? M = some (Matrix.of fun _ _ => c⁻¹) := by
  haveI : Unique s := ⟨⟨d⟩, hd⟩
  have h : M * (Matrix.of fun _ _ => c⁻¹) = 1 := by
    ext i j
    obtain rfl := hd i
    obtain rfl := hd j
    rw [Matrix.mul_apply, Fintype.sum_unique, one_apply_eq, hd default, hM, of_apply, mul_inv_cancel₀ hc]
  rw [inv?_of_isUnit (isUnit_det_of_right_inverse h), inv_eq_right_inv h]

theorem h_within : ∃ w, within (Matrix.of fun a => ![0, hSgn a.1] : Matrix (Fin 2 × Fin 3) (Fin 2) ℝ)
      (fun a => hSgn a.1 * hDev a.2) = some w ∧ w.2 = (fun a => hSgn a.1 * hDev a.2) ∧
      w.1 = some (fun _ => 0, Matrix.of fun _ _ => (6 : ℝ)⁻¹) := by
  classical
  set xd := (Matrix.of fun a => ![0, hSgn a.1] : Matrix (Fin 2 × Fin 3) (Fin 2) ℝ) with hxd
  have hd : ∀ j : {j // Valid xd j}, j = ⟨1, (h_valid 1).2 rfl⟩ := fun j => Subtype.ext ((h_valid j.1).1 j.2)
  unfold within
  rw [if_pos (Fintype.card_pos_iff.2 ⟨⟨1, (h_valid 1).2 rfl⟩⟩)]
  dsimp only
  rw [inv?_unique ⟨1, (h_valid 1).2 rfl⟩ hd _ 6 (by
    simp [Matrix.mul_apply, hxd, hSgn, Fintype.sum_prod_type, Fin.sum_univ_two]; norm_num) (by norm_num), Option.map_some]
  have hz : (xd.submatrix id (Subtype.val : {j // Valid xd j} → Fin 2))ᵀ *ᵥ (fun a => hSgn a.1 * hDev a.2) = 0 := by
    funext j
    rw [hd j]
    simp [mulVec, dotProduct, hxd, hSgn, hDev, Fintype.sum_prod_type, Fin.sum_univ_two, Fin.sum_univ_three]
  refine ⟨_, rfl, ?_, ?_⟩
  · dsimp only
    rw [hz, mulVec_zero, mulVec_zero, sub_zero]
  · dsimp only
    rw [hz, mulVec_zero]
    rfl

theorem h_between (c : ℝ) (pinv : Matrix (Fin 2) (Fin 2) ℝ → Matrix (Fin 2) (Fin 2) ℝ) :
    between pinv (Matrix.of fun i => ![1, hMean i] : Matrix (Fin 3) (Fin 2) ℝ) (fun i => c * hMean i) = ![0, c] := by
  have h : ((Matrix.of fun i => ![1, hMean i] : Matrix (Fin 3) (Fin 2) ℝ)ᵀ * Matrix.of fun i => ![1, hMean i]) *
      !![1 / 3, 0; 0, 1 / 2] = 1 := by
    ext i j
    fin_cases i <;> fin_cases j <;> simp [Matrix.mul_apply, Fin.sum_univ_two, Fin.sum_univ_three, hMean] <;> norm_num
  have hi : inv? ((Matrix.of fun i => ![1, hMean i] : Matrix (Fin 3) (Fin 2) ℝ)ᵀ * Matrix.of fun i => ![1, hMean i]) =
      some !![1 / 3, 0; 0, 1 / 2] := by
    rw [inv?_of_isUnit (isUnit_det_of_right_inverse h), inv_eq_right_inv h]
  unfold between
  rw [hi]
  dsimp only
  funext j
  fin_cases j <;> simp [mulVec, dotProduct, Fin.sum_univ_two, Fin.sum_univ_three, hMean] <;> ring

theorem h_ols (c : ℝ) : ∃ reg, ols hX (hY c) = some reg ∧ reg.betas = ![0, 2 / 5 * c] ∧ reg.xtxi = !![1 / 6, 0; 0, 1 / 10] ∧
    sig2n reg.u = 2 / 3 + 2 / 5 * c ^ 2 := by
  have h : (hXᵀ * hX) * !![1 / 6, 0; 0, 1 / 10] = 1 := by
    ext i j
    fin_cases i <;> fin_cases j <;>
      simp [Matrix.mul_apply, Fintype.sum_prod_type, Fin.sum_univ_two, Fin.sum_univ_three, hX, hMean, hSgn] <;> norm_num
  have hu := isUnit_det_of_right_inverse h
  have hi := inv_eq_right_inv h
  have hb : (olsWith hX (hY c) (hXᵀ * hX)⁻¹).betas = ![0, 2 / 5 * c] := by
    show (hXᵀ * hX)⁻¹ *ᵥ (hXᵀ *ᵥ hY c) = _
    rw [hi]
    funext j
    fin_cases j <;>
      simp [mulVec, dotProduct, Fintype.sum_prod_type, Fin.sum_univ_two, Fin.sum_univ_three, hX, hY, hMean, hSgn, hDev] <;>
      ring
  refine ⟨_, ols_of_isUnit _ _ hu, hb, hi, ?_⟩
  have hue : (olsWith hX (hY c) (hXᵀ * hX)⁻¹).u = hY c - hX *ᵥ ![0, 2 / 5 * c] := by rw [← hb]; rfl
  rw [hue]
  simp [sig2n, utu, mulVec, dotProduct, Fintype.sum_prod_type, Fin.sum_univ_two, Fin.sum_univ_three, hX, hY, hMean, hSgn, hDev]
  ring

theorem h_panel (c : ℝ) (hc : 3 * c ^ 2 ≠ 20) (pinv : Matrix (Fin 2) (Fin 2) ℝ → Matrix (Fin 2) (Fin 2) ℝ) :
    ∃ f, panelRE pinv (hY c) hX = some f ∧ f.sigma2e = 2 ∧ f.sigma2mu = 0 ∧ f.betas = ![0, 2 / 5 * c] ∧ f.hausmanDf = 1 ∧
      f.sig2 = 2 / 3 + 2 / 5 * c ^ 2 ∧ f.hausman = some (12 * c ^ 2 / (20 - 3 * c ^ 2)) := by
  classical
  obtain ⟨w, hw, hw2, hw1⟩ := h_within
  obtain ⟨reg, hreg, hb, hx, hs2⟩ := h_ols c
  have hcard : Fintype.card {j // Valid (Matrix.of fun a => ![0, hSgn a.1] : Matrix (Fin 2 × Fin 3) (Fin 2) ℝ) j} = 1 :=
    Fintype.card_eq_one_iff.2 ⟨⟨1, (h_valid 1).2 rfl⟩, fun j => Subtype.ext ((h_valid j.1).1 j.2)⟩
  have hse : utu (fun a : Fin 2 × Fin 3 => hSgn a.1 * hDev a.2) = 4 := by
    simp [utu, hSgn, hDev, Fintype.sum_prod_type, Fin.sum_univ_two, Fin.sum_univ_three]; norm_num
  have heb : (fun i => c * hMean i) - (Matrix.of fun i => ![1, hMean i] : Matrix (Fin 3) (Fin 2) ℝ) *ᵥ ![0, c] = 0 := by
    funext i; simp [mulVec, dotProduct, Fin.sum_univ_two]
  unfold panelRE
  dsimp only
  have hxd := h_xd
  have hyd := h_yd c
  generalize hX - tileM (Fin 2) (unitMeanM hX) = xd at hxd ⊢
  generalize hY c - tile (Fin 2) (unitMean (hY c)) = yd at hyd ⊢
  subst hxd hyd
  rw [hw, Option.bind_some]
  have hth : ∀ z : ℝ, z = 0 → ols (hX - z • tileM (Fin 2) (unitMeanM hX)) (hY c - z • tile (Fin 2) (unitMean (hY c))) = some reg := by
    rintro _ rfl; rw [zero_smul, zero_smul, sub_zero, sub_zero]; exact hreg
  have e0 : (utu w.2 / (NT (Fin 2) (Fin 3) - (Fintype.card (Fin 3) : ℝ) - (Fintype.card
      {j // Valid (Matrix.of fun a => ![0, hSgn a.1] : Matrix (Fin 2 × Fin 3) (Fin 2) ℝ) j} : ℝ))) = 2 := by
    rw [hw2, hse, hcard]; norm_num [NT]
  have e1 : utu (unitMean (hY c) - unitMeanM hX *ᵥ between pinv (unitMeanM hX) (unitMean (hY c))) = 0 := by
    rw [h_ym, h_xm, h_between, heb]; simp [utu]
  simp only [e0, e1]
  have e2 : (if (0 : ℝ) / ((Fintype.card (Fin 3) : ℝ) - (Fintype.card (Fin 2) : ℝ)) - 2 / (Fintype.card (Fin 2) : ℝ) < 0 then (0 : ℝ)
      else 0 / ((Fintype.card (Fin 3) : ℝ) - (Fintype.card (Fin 2) : ℝ)) - 2 / (Fintype.card (Fin 2) : ℝ)) = 0 := by
    rw [if_pos]; norm_num
  simp only [e2]
  rw [hth _ (by norm_num), Option.map_some]
  refine ⟨_, rfl, rfl, rfl, hb, hcard, hs2, ?_⟩
  dsimp only
  unfold hausman
  rw [hw1, Option.bind_some]
  dsimp only
  rw [hs2, hx, hb, inv?_unique ⟨1, (h_valid 1).2 rfl⟩ (fun j => Subtype.ext ((h_valid j.1).1 j.2)) _ (4 / 15 - c ^ 2 / 25) (by
    simp; ring) (fun h => hc (by linarith)), Option.map_some]
  congr 1
  haveI : Unique {j // Valid (Matrix.of fun a => ![0, hSgn a.1] : Matrix (Fin 2 × Fin 3) (Fin 2) ℝ) j} :=
    ⟨⟨⟨1, (h_valid 1).2 rfl⟩⟩, fun j => Subtype.ext ((h_valid j.1).1 j.2)⟩
  have hdef : ∀ j : {j // Valid (Matrix.of fun a => ![0, hSgn a.1] : Matrix (Fin 2 × Fin 3) (Fin 2) ℝ) j}, j.1 = 1 :=
    fun j => (h_valid j.1).1 j.2
  simp only [dotProduct, mulVec, Fintype.sum_unique, of_apply, Pi.sub_apply, hdef]
  have h1 : (4 / 15 - c ^ 2 / 25 : ℝ) ≠ 0 := fun h => hc (by linarith)
  have h2 : (20 - 3 * c ^ 2 : ℝ) ≠ 0 := fun h => hc (by linarith)
  simp only [Matrix.cons_val_one, Matrix.cons_val_zero, zero_sub]
  rw [show (4 / 15 - c ^ 2 / 25 : ℝ) = (20 - 3 * c ^ 2) / 75 by ring, inv_div]
  field_simp
  ring

/-- C105 fails: for this panel (`c = -5`), whatever the pseudo-inverse, PanelRE reports a negative Hausman statistic, although
the within and random effects coefficients differ (0 and -2): the two variances it subtracts use different variance
estimates. -/
theorem C105_negative_violated (pinv : Matrix (Fin 2) (Fin 2) ℝ → Matrix (Fin 2) (Fin 2) ℝ) :
    ∃ f, panelRE pinv (hY (-5)) hX = some f ∧ f.sigma2e = 2 ∧ f.sigma2mu = 0 ∧ f.betas = ![0, -2] ∧ f.hausmanDf = 1 ∧
      f.hausman = some (-60 / 11) := by
  obtain ⟨f, h1, h2, h3, h4, h5, -, h6⟩ := h_panel (-5) (by norm_num) pinv
  refine ⟨f, h1, h2, h3, by rw [h4]; norm_num, h5, by rw [h6]; norm_num⟩

/-- The hypotheses of `C104_theta`, `C104_gls`, `C104_pooled` and `C105_nonneg_partial` are met (`c = 1`, statistic 12/17). -/
example (pinv : Matrix (Fin 2) (Fin 2) ℝ → Matrix (Fin 2) (Fin 2) ℝ) : ∃ f, panelRE pinv (hY 1) hX = some f ∧ 0 < f.sigma2e ∧
    f.sig2 ≤ f.sigma2e ∧ (∀ j, ¬Valid (hX - tileM (Fin 2) (unitMeanM hX)) j → ∀ a, (hX - tileM (Fin 2) (unitMeanM hX)) a j = 0) ∧
    f.hausman = some (12 / 17) := by
  obtain ⟨f, h1, h2, h3, h4, h5, h7, h6⟩ := h_panel 1 (by norm_num) pinv
  refine ⟨f, h1, by rw [h2]; norm_num, by rw [h2, h7]; norm_num, ?_, by rw [h6]; norm_num⟩
  rw [h_xd]
  intro j hj a
  rw [h_valid] at hj
  fin_cases j
  · rfl
  · exact absurd rfl hj

/-- The regressor without the constant. -/
def hX1 : Matrix (Fin 2 × Fin 3) Unit ℝ := Matrix.of fun a _ => hMean a.2 + hSgn a.1

theorem h1_xd : hX1 - tileM (Fin 2) (unitMeanM hX1) = Matrix.of fun a _ => hSgn a.1 := by
  ext a j
  simp [hX1, tileM, unitMeanM, hSgn, Fin.sum_univ_two]
  try ring

/-- The hypotheses of `C103_lsdv_partial` and `C103_df_violated` are met. -/
theorem fe_example : ∃ f o, panelFE (hY 1) hX1 = some f ∧ ols (withDummies hX1) (hY 1) = some o ∧ o.u ≠ 0 ∧
    Fintype.card (Unit ⊕ Fin 3) < Fintype.card (Fin 2 × Fin 3) := by
  have hu : IsUnit ((hX1 - tileM (Fin 2) (unitMeanM hX1))ᵀ * (hX1 - tileM (Fin 2) (unitMeanM hX1))).det := by
    rw [h1_xd, det_unique, isUnit_iff_ne_zero]
    simp [Matrix.mul_apply, hSgn, Fintype.sum_prod_type, Fin.sum_univ_two]
  have hu2 := hu
  rw [demM_eq] at hu2
  have hD := (dummies_rank hX1).2 hu2
  obtain ⟨f, hf⟩ := Option.isSome_iff_exists.1 ((C103_lsdv_partial (hY 1) hX1).1.2 (by rw [ols_of_isUnit _ _ hD]; rfl))
  refine ⟨f, _, hf, ols_of_isUnit _ _ hD, ?_, by simp⟩
  intro h0
  set o := olsWith (withDummies hX1) (hY 1) ((withDummies hX1)ᵀ * withDummies hX1)⁻¹
  have h1 : hY 1 = withDummies hX1 *ᵥ o.betas := sub_eq_zero.1 h0
  have hb : o.betas = Sum.elim (fun j => o.betas (.inl j)) (fun i => o.betas (.inr i)) := by
    funext c; rcases c with c | c <;> rfl
  rw [hb] at h1
  have e : ∀ a, hY 1 a = _ := fun a => (congrFun h1 a).trans (withDummies_mulVec _ _ _ a)
  have e1 := e (0, 0)
  have e2 := e (1, 0)
  have e3 := e (0, 1)
  have e4 := e (1, 1)
  simp [hY, hX1, hMean, hSgn, hDev, mulVec, dotProduct] at e1 e2 e3 e4
  linarith

/-- The hypotheses of `C104_components` and `C105_statistic` are met. -/
example (pinv : Matrix (Fin 2) (Fin 2) ℝ → Matrix (Fin 2) (Fin 2) ℝ) : ∃ f, panelRE pinv (hY 1) hX = some f ∧
    (∀ j, ¬Varies hX j → ∀ s i, dev (fun a => hX a j) s i = 0) ∧ IsUnit ((unitMeanM hX)ᵀ * unitMeanM hX).det ∧
    f.hausman = some (12 / 17) := by
  obtain ⟨f, h1, h2, h3, h4, h5, h7, h6⟩ := h_panel 1 (by norm_num) pinv
  refine ⟨f, h1, ?_, ?_, by rw [h6]; norm_num⟩
  · intro j hj s i
    unfold Varies at hj
    rw [h_xd, h_valid] at hj
    fin_cases j
    · simp [dev, hX]
    · exact absurd rfl hj
  · rw [h_xm]
    refine isUnit_det_of_right_inverse (B := !![1 / 3, 0; 0, 1 / 2]) ?_
    ext i j
    fin_cases i <;> fin_cases j <;> simp [Matrix.mul_apply, Fin.sum_univ_two, Fin.sum_univ_three, hMean] <;> norm_num

end Spreg.PanelGLS
