import Verif.Props.SURUnits2
import Mathlib.Analysis.Complex.ExponentialBounds
/-
Cases that meet the hypotheses of the theorems on SUR models with spatial errors (C114-C121): two equations with a constant,
four regions in two pairs.
-/
namespace Spreg.SUR
open Matrix Spreg.Lin Spreg.Gauss

/-- The regressors: a constant in both equations. -/
def xOnes : ∀ _ : Fin 2, Matrix (Fin 4) Unit ℝ := fun _ => Matrix.of fun _ _ => 1

/-- The optimisers of the example do not move from zero. -/
def opt0 : ((Fin 2 → ℝ) → ℝ) → (Fin 2 → ℝ) → Fin 2 → ℝ := fun _ l => l

theorem ex_resid (b : ∀ _ : Fin 2, Unit → ℝ) :
    sigOf (surResids (yPairs 1) xOnes b) =
      !![1 / 2 + b 0 () ^ 2, b 0 () * b 1 (); b 0 () * b 1 (), 1 / 2 + b 1 () ^ 2] := by
  ext i j
  fin_cases i <;> fin_cases j <;>
    simp [sigOf, surResids, xOnes, yPairs, Matrix.mul_apply, Fin.sum_univ_four, mulVec, dotProduct] <;> ring

theorem ex_noPerfect : NoPerfectFit wPairs xOnes (yPairs 1) {0} := by
  intro lam hl b
  rw [(filt_zero wPairs xOnes (yPairs 1) _ lam hl).2.2, ex_resid, Matrix.det_fin_two_of, isUnit_iff_ne_zero]
  nlinarith [sq_nonneg (b 0 ()), sq_nonneg (b 1 ())]

theorem ex_start : ∃ e : Est (Fin 2) fun _ => Unit, e.b = 0 ∧ e.sig = !![1 / 2, 0; 0, 1 / 2] ∧
    surEst (crossXX xOnes) (crossXy xOnes (yPairs 1)) (surResids (yPairs 1) xOnes 0) = some e ∧
    surStart xOnes (yPairs 1) = some (0, ⟨e, surResids (yPairs 1) xOnes 0, ∑ r, Real.log (e.sig r r), slogdet e.sig, 0⟩) := by
  have hs : sigOf (surResids (yPairs 1) xOnes 0) = !![1 / 2, 0; 0, 1 / 2] := by rw [ex_resid]; simp
  obtain ⟨e, h1, h2, h3, h4⟩ := ones_start (R := Fin 2) (by norm_num : 0 < 4) (yPairs 1)
    (by intro r; fin_cases r <;> simp [yPairs, Fin.sum_univ_four]) (surResids (yPairs 1) xOnes 0)
    (by intro i r; simp [surResids, xOnes, mulVec, dotProduct])
    (by rw [hs, Matrix.det_fin_two_of]; exact isUnit_iff_ne_zero.2 (by norm_num))
  exact ⟨e, h1, h2.trans hs, h3, h4⟩

theorem ex_base (m : ℕ) (eps : ℝ) (he : 0 ≤ eps) : ∃ f, baseSUR xOnes (yPairs 1) true m eps = some f ∧ f.est.b = 0 ∧
    f.bigE = surResids (yPairs 1) xOnes 0 := by
  obtain ⟨e, h1, h2, h3, h4⟩ := ex_start
  have hd : slogdet e.sig - ∑ r, Real.log (e.sig r r) = 0 := by
    rw [slogdet, h2, Matrix.det_fin_two_of, Fin.sum_univ_two]
    have : (1 / 2 : ℝ) * (1 / 2) - 0 * 0 = 1 / 2 * (1 / 2) := by ring
    rw [this, abs_of_pos (by norm_num), Real.log_mul (by norm_num) (by norm_num)]
    simp
  unfold baseSUR
  rw [h4]
  simp only [Option.bind_some, if_true]
  rw [surLoop, if_neg]
  · exact ⟨_, rfl, h1, by dsimp only; rw [h1]⟩
  · rintro ⟨h, -⟩
    dsimp only at h
    rw [hd, abs_zero] at h
    exact absurd h (not_lt.2 he)

theorem ex_obj (r : Fin 2) : errObjSur wPairs xOnes (yPairs 1) r 0 = 2 * Real.log (1 / 2) := by
  have h := errObjSur_eq wPairs (fun _ => 0) xOnes (yPairs 1) r
  obtain ⟨e1, e2, -⟩ := filt_zero wPairs xOnes (yPairs 1) 0 (fun _ => 0) fun _ => rfl
  have hu : (filtOls wPairs (fun _ => 0) xOnes (yPairs 1) r).u = yPairs 1 r := by
    unfold filtOls olsWith
    dsimp only
    rw [e1, e2]
    have : (xOnes r)ᵀ *ᵥ yPairs 1 r = 0 := by
      funext j
      fin_cases r <;> simp [xOnes, yPairs, mulVec, dotProduct, Fin.sum_univ_four]
    rw [this, mulVec_zero, mulVec_zero, sub_zero]
  rw [h, hu]
  have : utu (yPairs 1 r) / (Fintype.card (Fin 4) : ℝ) = 1 / 2 := by
    rw [utu_eq_dot]
    fin_cases r <;> simp [yPairs, dotProduct, Fin.sum_univ_four] <;> norm_num
  rw [this]
  simp
  norm_num

theorem ex_clik : clikSur wPairs (surResids (yPairs 1) xOnes 0) (fun _ => 0) = 4 * Real.log (1 / 2) := by
  unfold clikSur
  dsimp only
  rw [(filt_zero wPairs xOnes (yPairs 1) _ (fun _ => 0) fun _ => rfl).2.2, ex_resid, slogdet, Matrix.det_fin_two_of]
  have : ((1 / 2 + (0 : ∀ _ : Fin 2, Unit → ℝ) 0 () ^ 2) * (1 / 2 + (0 : ∀ _ : Fin 2, Unit → ℝ) 1 () ^ 2) -
      (0 : ∀ _ : Fin 2, Unit → ℝ) 0 () * (0 : ∀ _ : Fin 2, Unit → ℝ) 1 () *
        ((0 : ∀ _ : Fin 2, Unit → ℝ) 0 () * (0 : ∀ _ : Fin 2, Unit → ℝ) 1 ())) = 1 / 2 * (1 / 2) := by simp
  rw [this, abs_of_pos (by norm_num), Real.log_mul (by norm_num) (by norm_num)]
  simp [jacobSur]
  ring

theorem ex_fit : ∃ f : FitML (Fin 4) (Fin 2) fun _ => Unit,
    BaseSURerrorML (fun _ => 0) opt0 wPairs xOnes (yPairs 1) (1 / 100000) (.ok f) ∧ f.lam = (fun _ => 0) ∧
      f.lamols = (fun _ => 0) ∧ f.bSUR0 = 0 ∧ f.est.b = 0 := by
  obtain ⟨reg0, h0, hb, hE⟩ := ex_base 5 (1 / 100000) (by norm_num)
  obtain ⟨e, h1, h2, h3, -⟩ := ex_start
  obtain ⟨z1, z2, z3⟩ := filt_zero wPairs xOnes (yPairs 1) (surResids (yPairs 1) xOnes 0) (fun _ => 0) fun _ => rfl
  have hlog : Real.log (1 / 2) < -(1 / 2) := by
    have := Real.log_two_gt_d9
    rw [one_div, Real.log_inv]; linarith
  let s1 : StML (Fin 4) (Fin 2) fun _ => Unit :=
    { lam := fun _ => 0, est := some e, bigE := surResids (yPairs 1) xOnes e.b,
      fun0 := (mlInit (fun _ => 0) wPairs xOnes (yPairs 1) reg0).fun1,
      fun1 := clikSur wPairs (surResids (yPairs 1) xOnes e.b) (fun _ => 0) }
  have hf : (mlInit (fun _ => 0) wPairs xOnes (yPairs 1) reg0).fun1 = 4 * Real.log (1 / 2) := by
    simp only [mlInit, ex_obj, Fin.sum_univ_two]; ring
  have hst : mlStep opt0 wPairs xOnes (yPairs 1) (mlInit (fun _ => 0) wPairs xOnes (yPairs 1) reg0) = some s1 := by
    unfold mlStep
    simp only [mlInit]
    rw [hE, z1, z2, z3, h3]
    rfl
  have hrun : MLRun opt0 wPairs xOnes (yPairs 1) (1 / 100000) (mlInit (fun _ => 0) wPairs xOnes (yPairs 1) reg0) (some s1) := by
    refine .pass _ s1 _ ?_ hst (.stop _ ?_)
    · have : (mlInit (fun _ => 0) wPairs xOnes (yPairs 1) reg0).fun0 = 0 := rfl
      rw [this, hf, zero_sub, abs_of_pos (by linarith)]
      linarith
    · have e0 : s1.fun0 - s1.fun1 = 0 := by
        simp only [s1]
        rw [hf, h1, ex_clik]; ring
      rw [e0, abs_zero]; norm_num
  have hB : ∀ res, mlFinish (mlInit (fun _ => 0) wPairs xOnes (yPairs 1) reg0) reg0 (some s1) = res →
      BaseSURerrorML (fun _ => 0) opt0 wPairs xOnes (yPairs 1) (1 / 100000) res := by
    rintro res rfl
    unfold BaseSURerrorML
    rw [h0]
    exact ⟨_, hrun, rfl⟩
  exact ⟨_, hB _ rfl, rfl, rfl, hb, h1⟩

theorem ex_improves : Improves {0} opt0 := ⟨fun _ _ h r => h r, fun _ _ _ => le_rfl⟩

theorem ex_shift : Shift {0} (fun _ => 0) opt0 := ⟨fun _ => rfl, fun _ _ h r => h r, fun _ _ _ _ => rfl, fun _ _ _ _ _ => rfl⟩

theorem ex_isUnit (l : ℝ) (hl : l = 0) : IsUnit (1 - l • wPairs).det := by rw [hl]; simp

/-- The hypotheses of C116, C117 and C118 are met by the example. -/
example : ∃ f : FitML (Fin 4) (Fin 2) fun _ => Unit,
    BaseSURerrorML (fun _ => 0) opt0 wPairs xOnes (yPairs 1) (1 / 100000) (.ok f) ∧
    (∀ r, IsUnit (1 - f.lam r • wPairs).det) ∧ Improves {0} opt0 ∧ NoPerfectFit wPairs xOnes (yPairs 1) {0} ∧
    (∀ l ∈ ({0} : Set ℝ), IsUnit (1 - l • wPairs).det) ∧
    ∃ B, ∀ lam : Fin 2 → ℝ, (∀ r, lam r ∈ ({0} : Set ℝ)) → ∀ b, B ≤ clikSur wPairs (surResids (yPairs 1) xOnes b) lam := by
  obtain ⟨f, hf, hl, -⟩ := ex_fit
  refine ⟨f, hf, fun r => by rw [hl]; exact ex_isUnit _ rfl, ex_improves, ex_noPerfect, fun l hl => ex_isUnit l hl,
    2 * Real.log (1 / 4), fun lam hl b => ?_⟩
  have : lam = fun _ => 0 := funext hl
  subst this
  unfold clikSur
  dsimp only
  rw [(filt_zero wPairs xOnes (yPairs 1) _ (fun _ => 0) fun _ => rfl).2.2, ex_resid, slogdet, Matrix.det_fin_two_of]
  have hp : (1 / 4 : ℝ) ≤ |(1 / 2 + b 0 () ^ 2) * (1 / 2 + b 1 () ^ 2) - b 0 () * b 1 () * (b 0 () * b 1 ())| := by
    rw [abs_of_nonneg (by nlinarith [sq_nonneg (b 0 ()), sq_nonneg (b 1 ())])]
    nlinarith [sq_nonneg (b 0 ()), sq_nonneg (b 1 ())]
  have := Real.log_le_log (by norm_num) hp
  simp [jacobSur] at this ⊢
  linarith

/-- The hypotheses of C119 are met by the example. -/
example : ∃ f : FitML (Fin 4) (Fin 2) fun _ => Unit,
    BaseSURerrorML (fun _ => 0) opt0 wPairs xOnes (yPairs 1) (1 / 100000) (.ok f) ∧
    (∀ r, IsUnit (1 - f.lamols r • wPairs).det) ∧
    (∀ r, IsUnit ((filtX wPairs f.lamols xOnes r)ᵀ * filtX wPairs f.lamols xOnes r).det) ∧
    (∀ b, surResids (filtY wPairs f.lamols (yPairs 1)) (filtX wPairs f.lamols xOnes) b ∈
      {E : Matrix (Fin 4) (Fin 2) ℝ | ∀ r, ∃ i, E i r ≠ 0}) ∧
    IsUnit (sigOf (surResids (yPairs 1) xOnes f.bSUR0)).det := by
  obtain ⟨f, hf, -, hl, hb, -⟩ := ex_fit
  obtain ⟨z1, z2, -⟩ := filt_zero wPairs xOnes (yPairs 1) 0 f.lamols (by rw [hl]; intro _; rfl)
  refine ⟨f, hf, fun r => by rw [hl]; exact ex_isUnit _ rfl, ?_, ?_, ?_⟩
  · intro r
    rw [z1]
    have : (xOnes r)ᵀ * xOnes r = Matrix.of fun _ _ => 4 := by
      ext i j; simp [xOnes, Matrix.mul_apply]
    rw [this, Matrix.det_unique]
    exact isUnit_iff_ne_zero.2 (by norm_num)
  · intro b r
    rw [z1, z2]
    by_contra hc
    push Not at hc
    have h0 := hc 0
    have h1 := hc 1
    fin_cases r <;> simp [surResids, xOnes, yPairs, mulVec, dotProduct] at h0 h1 <;> linarith
  · rw [hb, ex_resid, Matrix.det_fin_two_of, isUnit_iff_ne_zero]; norm_num

/-- The hypotheses of C121 are met by the example. -/
example : Shift {0} (fun _ => 0) opt0 ∧ NoPerfectFit wPairs xOnes (yPairs 1) {0} ∧
    baseSUR xOnes (yPairs 1) true 5 (1 / 100000) ≠ none ∧
    ∃ (f : FitML (Fin 4) (Fin 2) fun _ => Unit) (c : Fin 2 → ℝ), (∀ r, c r ≠ 0) ∧ (∀ r, c r ≠ 1) ∧
      BaseSURerrorML (fun _ => 0) opt0 wPairs xOnes (yPairs 1) (1 / 100000) (.ok f) ∧
      |f.clikerr - Fintype.card (Fin 4) * ∑ r, Real.log (|c r|)| > 1 / 100000 := by
  obtain ⟨f, hf, -, hl, -⟩ := ex_fit
  obtain ⟨reg0, h0, -⟩ := ex_base 5 (1 / 100000) (by norm_num)
  refine ⟨ex_shift, ex_noPerfect, by rw [h0]; simp, f, fun _ => 2, fun _ => by norm_num, fun _ => by norm_num, hf, ?_⟩
  have hc : f.clikerr = -∑ r, errObjSur wPairs xOnes (yPairs 1) r (f.lamols r) := by
    obtain ⟨-, -, -, -, -, -, -, h, -⟩ := fit_cases hf
    exact h
  rw [hc, hl]
  simp only [ex_obj, Fin.sum_univ_two, Fintype.card_fin, abs_two]
  have h2 := Real.log_two_gt_d9
  rw [one_div, Real.log_inv]
  rw [abs_of_neg (by push_cast; linarith)]
  push_cast
  linarith

/-- SURerrorGM fits the example, whatever the moments optimiser does within the values that keep `I - lam W` nonsingular. -/
example : ∃ f, baseSURerrorGM (fun _ => 0) wPairs xOnes (yPairs 1) = some f ∧ (∀ r, f.lam r = 0) ∧
    ∀ r, IsUnit (1 - f.lam r • wPairs).det := by
  obtain ⟨e, h1, h2, h3, h4⟩ := ex_start
  obtain ⟨-, -, -, -, hb, he⟩ := start_inv _ _ _ _ h4
  obtain ⟨z1, z2, z3⟩ := filt_zero wPairs xOnes (yPairs 1) (surResids (yPairs 1) xOnes 0) (fun _ => 0) fun _ => rfl
  unfold baseSURerrorGM
  rw [hb, Option.bind_some]
  dsimp only
  rw [z1, z2, z3, h3]
  exact ⟨_, rfl, fun _ => rfl, fun _ => ex_isUnit _ rfl⟩

end Spreg.SUR
