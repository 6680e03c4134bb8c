import Verif.Props.DGPRandom
import Verif.Props.PanelML
import Verif.Props.DGP
import Verif.Props.ML2
import Verif.Model.Diagnostics
import Mathlib.MeasureTheory.Measure.Lebesgue.Basic
/-
The distribution of generated data and the likelihood that the estimators report (C166).
-/
set_option linter.unusedSectionVars false
namespace Spreg.DGPRandom
open Matrix MeasureTheory ProbabilityTheory Spreg Spreg.Gauss
open scoped NNReal

variable {ι : Type} [Fintype ι] [DecidableEq ι]

omit [DecidableEq ι] in
/-- Independent normal draws have the product density. -/
theorem gauss_pi (v : ℝ≥0) (hv : v ≠ 0) : (Measure.pi fun _ : ι => gaussianReal 0 v) =
    volume.withDensity fun u : ι → ℝ => ENNReal.ofReal (∏ i, gaussianPDFReal 0 v (u i)) := by
  refine Measure.pi_eq fun s hs => ?_
  rw [withDensity_apply _ (MeasurableSet.univ_pi hs), volume_pi, Measure.restrict_pi_pi]
  have hint : ∀ i, Integrable (gaussianPDFReal 0 v) (volume.restrict (s i)) := fun i => (integrable_gaussianPDFReal 0 v).restrict
  rw [← ofReal_integral_eq_lintegral_ofReal (Integrable.fintype_prod (f := fun _ => gaussianPDFReal 0 v) hint)
    (Filter.Eventually.of_forall fun u => Finset.prod_nonneg fun i _ => gaussianPDFReal_nonneg _ _ _),
    integral_fintype_prod_eq_prod (f := fun _ => gaussianPDFReal 0 v),
    ENNReal.ofReal_prod_of_nonneg fun i _ => integral_nonneg fun x => gaussianPDFReal_nonneg _ _ _]
  exact Finset.prod_congr rfl fun i _ => (gaussianReal_apply_eq_integral 0 hv (s i)).symm

theorem exp_gaussLL (u : ι → ℝ) (s2 jac : ℝ) (hs : 0 < s2) :
    Real.exp (ML.gaussLL u s2 jac) = (∏ i, gaussianPDFReal 0 s2.toNNReal (u i)) * Real.exp jac := by
  have h1 : ∀ x, gaussianPDFReal 0 s2.toNNReal x = Real.exp (-(Real.log (2 * Real.pi) + Real.log s2) / 2 - x ^ 2 / (2 * s2)) := by
    intro x
    rw [gaussianPDFReal, Real.coe_toNNReal _ hs.le, sub_zero, sub_eq_add_neg, Real.exp_add, ← neg_div, ← Real.log_mul (by positivity) hs.ne']
    congr 1
    rw [neg_div, Real.exp_neg, Real.exp_half, Real.exp_log (by positivity)]
  simp only [h1]
  rw [← Real.exp_sum, ← Real.exp_add, ML.gaussLL]
  congr 1
  rw [Finset.sum_sub_distrib, Finset.sum_const, Finset.card_univ, nsmul_eq_mul, ← Finset.sum_div]
  ring

theorem normalLL_continuous (m : ι → ℝ) (S : Matrix ι ι ℝ) : Continuous (normalLL m S) := by
  unfold normalLL
  refine Continuous.sub continuous_const (Continuous.mul continuous_const ?_)
  have h : Continuous fun y : ι → ℝ => y - m := continuous_id.sub continuous_const
  exact h.dotProduct (continuous_const.matrix_mulVec h)

/-- An invertible affine transformation of independent normal draws has the multivariate normal density. -/
theorem affine_density (A : Matrix ι ι ℝ) (hA : IsUnit A.det) (m : ι → ℝ) (s2 : ℝ) (hs : 0 < s2) :
    (Measure.pi fun _ : ι => gaussianReal 0 s2.toNNReal).map (fun u => A *ᵥ u + m) =
      volume.withDensity fun y => ENNReal.ofReal (Real.exp (normalLL m (s2 • (A * Aᵀ)) y)) := by
  have hv : s2.toNNReal ≠ 0 := (Real.toNNReal_pos.2 hs).ne'
  have hAi : IsUnit (A⁻¹).det := by
    rw [det_nonsing_inv]; exact hA.ringInverse
  have hS : A * Aᵀ * ((A⁻¹)ᵀ * A⁻¹) = 1 := by
    rw [Matrix.mul_assoc, ← Matrix.mul_assoc Aᵀ, ← transpose_mul, nonsing_inv_mul _ hA, transpose_one, Matrix.one_mul,
      mul_nonsing_inv _ hA]
  have hT : Measurable fun u : ι → ℝ => A *ᵥ u + m := by
    have : Continuous fun u : ι → ℝ => A *ᵥ u := by fun_prop
    exact this.measurable.add_const m
  have hF : Measurable fun y : ι → ℝ => ENNReal.ofReal (Real.exp (normalLL m (s2 • (A * Aᵀ)) y)) :=
    ENNReal.measurable_ofReal.comp (Real.measurable_exp.comp (normalLL_continuous _ _).measurable)
  have hmap : (volume : Measure (ι → ℝ)).map (fun u => A *ᵥ u + m) = ENNReal.ofReal |A.det⁻¹| • volume := by
    have h := Real.map_matrix_volume_pi_eq_smul_volume_pi (M := A) hA.ne_zero
    have e : (fun u => A *ᵥ u + m) = (fun y => y + m) ∘ (toLin' A) := by
      funext u; rfl
    rw [e, ← Measure.map_map (measurable_add_const m) (by fun_prop), h, Measure.map_smul, map_add_right_eq_self]
  have hval : ∀ u, ENNReal.ofReal (Real.exp (normalLL m (s2 • (A * Aᵀ)) (A *ᵥ u + m))) =
      ENNReal.ofReal (∏ i, gaussianPDFReal 0 s2.toNNReal (u i)) * ENNReal.ofReal |A.det⁻¹| := by
    intro u
    rw [PanelML.normalLL_eq A⁻¹ hAi m _ s2 hs (A * Aᵀ) hS, exp_gaussLL _ _ _ hs, Real.exp_log (abs_pos.2 hAi.ne_zero),
      ENNReal.ofReal_mul (Finset.prod_nonneg fun i _ => gaussianPDFReal_nonneg _ _ _), mulVec_add, add_sub_cancel_right,
      mulVec_mulVec, nonsing_inv_mul _ hA, one_mulVec, det_nonsing_inv, Ring.inverse_eq_inv']
  ext S hS'
  rw [Measure.map_apply hT hS', gauss_pi _ hv, withDensity_apply _ (hT hS'), withDensity_apply _ hS']
  have hd : ENNReal.ofReal |A.det| * ENNReal.ofReal |A.det⁻¹| = 1 := by
    rw [← ENNReal.ofReal_mul (abs_nonneg _), ← abs_mul, mul_inv_cancel₀ hA.ne_zero, abs_one, ENNReal.ofReal_one]
  have hvol : (volume : Measure (ι → ℝ)) = ENNReal.ofReal |A.det| • (volume : Measure (ι → ℝ)).map (fun u => A *ᵥ u + m) := by
    rw [hmap, smul_smul, hd, one_smul]
  conv_rhs => rw [hvol, Measure.restrict_smul, lintegral_smul_measure, setLIntegral_map hS' hF hT]
  simp only [hval]
  rw [lintegral_mul_const' _ _ ENNReal.ofReal_ne_top, smul_eq_mul, mul_comm, mul_assoc, mul_comm (ENNReal.ofReal |A.det⁻¹|), hd, mul_one]

/-- What it means that `ll` is the log-likelihood, at the data `y`, of the model whose data are generated by `gen` from independent
normal errors of variance `s2`: `gen` never fails, its outcome has a continuous positive density, and `ll` is the logarithm of that
density at `y`. (A continuous density is unique.) -/
def IsLogLik {n : ℕ} (gen : (Fin n → ℝ) → Py (Option (Fin n → ℝ))) (s2 : ℝ) (y : Fin n → ℝ) (ll : ℝ) : Prop :=
  ∃ (P : Measure (Fin n → ℝ)) (Y : (Fin n → ℝ) → Fin n → ℝ) (g : (Fin n → ℝ) → ℝ),
    makeError n 0 s2 "normal" = .ok (some P) ∧ (∀ u, gen u = .ok (some (Y u))) ∧ Continuous g ∧ (∀ z, 0 < g z) ∧
    P.map Y = volume.withDensity (fun z => ENNReal.ofReal (g z)) ∧ ll = Real.log (g y)

theorem makeError_normal (n : ℕ) (s2 : ℝ) (hs : 0 < s2) :
    makeError n 0 s2 "normal" = .ok (some (Measure.pi fun _ : Fin n => gaussianReal 0 s2.toNNReal)) := by
  have h : msqrt s2 = .ok (Real.sqrt s2) := if_neg (not_lt.2 hs.le)
  simp only [makeError, errorLaw, if_true, h, bind, Except.bind, npNormal, Real.sq_sqrt hs.le]
  rfl

theorem isLogLik_affine {n : ℕ} (gen : (Fin n → ℝ) → Py (Option (Fin n → ℝ))) (A : Matrix (Fin n) (Fin n) ℝ) (hA : IsUnit A.det)
    (m : Fin n → ℝ) (hg : ∀ u, gen u = .ok (some (A *ᵥ u + m))) (s2 : ℝ) (hs : 0 < s2) (y : Fin n → ℝ) (ll : ℝ)
    (hl : ll = normalLL m (s2 • (A * Aᵀ)) y) : IsLogLik gen s2 y ll :=
  ⟨_, _, fun z => Real.exp (normalLL m (s2 • (A * Aᵀ)) z), makeError_normal n s2 hs, hg,
    Real.continuous_exp.comp (normalLL_continuous _ _), fun _ => Real.exp_pos _, affine_density A hA m s2 hs, by
    rw [hl, Real.log_exp]⟩

variable {n : ℕ} {k : Type} [Fintype k] [DecidableEq k]

theorem sig2_pos {u : Fin n → ℝ} {s : ℝ} (hs : s = (∑ i, u i ^ 2) / Fintype.card (Fin n)) (h0 : u ≠ 0) : 0 < s := by
  have hp : 0 < ∑ i, u i ^ 2 := by
    obtain ⟨i, hi⟩ := Function.ne_iff.1 h0
    exact Finset.sum_pos' (fun j _ => sq_nonneg _) ⟨i, Finset.mem_univ _, sq_pos_of_ne_zero hi⟩
  have hn : 0 < Fintype.card (Fin n) := by
    obtain ⟨i, -⟩ := Function.ne_iff.1 h0
    exact Fintype.card_pos_iff.2 ⟨i⟩
  rw [hs]
  exact div_pos hp (Nat.cast_pos.2 hn)

theorem invp_true (W : Matrix (Fin n) (Fin n) ℝ) (c : ℝ) (hA : IsUnit (1 - c • W).det) (v : Fin n → ℝ) :
    DGP.invp W v c .trueInv = .ok ((1 - c • W)⁻¹ *ᵥ v) := by
  unfold DGP.invp Impacts.inverseProd
  simp only [Lin.inv?_of_isUnit hA]
  rfl

theorem jac_det {W : Matrix (Fin n) (Fin n) ℝ} (hW : ∀ i, W i i = 0) {c jac : ℝ} (hj : ML.jacFull W c = some jac) :
    IsUnit (1 - c • W).det ∧ jac = Real.log |(1 - c • W).det| := by
  rw [ML.jacFull, ML.filledA_eq W hW, ML.nplog] at hj
  split at hj
  · rename_i h
    rw [abs_of_pos h]
    exact ⟨isUnit_iff_ne_zero.2 h.ne', (Option.some.inj hj).symm⟩
  · cases hj

/-- **C166.** `ML_Lag` reports the log-likelihood of the process that `dgp_lag` generates. -/
theorem C166_lag (y : Fin n → ℝ) (x : Matrix (Fin n) k ℝ) (W : Matrix (Fin n) (Fin n) ℝ) (hW : ∀ i, W i i = 0) (p : ML.LagPre (Fin n) k)
    (h : ML.lagPre y x W = some p) (rho jac : ℝ) (hj : ML.jacFull W rho = some jac) (h0 : (ML.lagFit p y rho jac).u ≠ 0) :
    IsLogLik (fun u => DGP.dgpLag u ⟨n, x *ᵥ (ML.lagFit p y rho jac).b⟩ ⟨n, W⟩ rho .trueInv false) (ML.lagFit p y rho jac).sig2 y
      (ML.lagFit p y rho jac).logll := by
  obtain ⟨hA, rfl⟩ := jac_det hW hj
  set f := ML.lagFit p y rho (Real.log |(1 - rho • W).det|) with hf
  have hr := ML.C37_lag_residuals y x W p h rho (Real.log |(1 - rho • W).det|)
  have hl := (ML.C37_lag_loglik y x W p h rho (Real.log |(1 - rho • W).det|) h0).1
  rw [← hf] at hr hl
  have hs : 0 < f.sig2 := sig2_pos hr.2.2.2 h0
  have hu : f.u = (1 - rho • W) *ᵥ y - x *ᵥ f.b := by
    funext i
    rw [hr.1 i, sub_mulVec, one_mulVec, smul_mulVec]
    rfl
  refine isLogLik_affine _ (1 - rho • W)⁻¹ (by rw [det_nonsing_inv]; exact hA.ringInverse) ((1 - rho • W)⁻¹ *ᵥ (x *ᵥ f.b)) (fun u => ?_)
    _ hs y _ ?_
  · unfold DGP.dgpLag
    simp only [dite_true, DGP.wcast_rfl, DGP.vadd_rfl, invp_true W rho hA, mulVec_add]
    rfl
  · have := PanelML.lagLL_eq W 1 1 rho f.sig2 hs (x *ᵥ f.b) y hA (by rw [det_one]; exact isUnit_one) (by simp)
    rw [det_one, abs_one, Real.log_one, zero_add, one_mulVec, one_mulVec, ← hu, ← hl, lagLL, Matrix.mul_one] at this
    exact this.symm

/-- **C166.** `ML_Error` reports the log-likelihood of the process that `dgp_sperror` generates. -/
theorem C166_err (y : Fin n → ℝ) (x : Matrix (Fin n) k ℝ) (W : Matrix (Fin n) (Fin n) ℝ) (hW : ∀ i, W i i = 0) (lam jac : ℝ)
    (hj : ML.jacFull W lam = some jac) (f : ML.ErrFit (Fin n) k) (h : ML.errFit y x W lam jac = some f) (h0 : f.eFiltered ≠ 0) :
    IsLogLik (fun u => DGP.dgpSperror u ⟨n, x *ᵥ f.b⟩ ⟨n, W⟩ lam .sar .trueInv false) f.sig2 y f.logll := by
  obtain ⟨hA, rfl⟩ := jac_det hW hj
  obtain ⟨h1, h2, -, -, h5, h6⟩ := ML.C37_err y x W lam _ f h
  have hs : 0 < f.sig2 := sig2_pos h5 h0
  have hl := (h6 h0).1
  have hu : f.eFiltered = (1 - lam • W) *ᵥ y - (1 - lam • W) *ᵥ (x *ᵥ f.b) := by
    funext i
    have e1 : (1 - lam • W) *ᵥ y = y - lam • (W *ᵥ y) := by rw [sub_mulVec, one_mulVec, smul_mulVec]
    have e2 : (1 - lam • W) *ᵥ (x *ᵥ f.b) = (x - lam • (W * x)) *ᵥ f.b := by
      rw [sub_mulVec, one_mulVec, smul_mulVec, mulVec_mulVec, sub_mulVec, smul_mulVec]
    rw [h2 i, e1, e2]
    rfl
  refine isLogLik_affine _ (1 - lam • W)⁻¹ (by rw [det_nonsing_inv]; exact hA.ringInverse) (x *ᵥ f.b) (fun u => ?_) _ hs y _ ?_
  · unfold DGP.dgpSperror
    simp only [dite_true, DGP.wcast_rfl, DGP.vadd_rfl, DGP.errProc, invp_true W lam hA]
    rfl
  · have := PanelML.errLL_eq W lam f.sig2 hs (x *ᵥ f.b) y hA
    rw [← hu, ← hl, errLL] at this
    exact this.symm

/-- **C166.** The log-likelihood of `OLS` is the one of the process that `dgp_ols` generates. -/
theorem C166_ols (y : Fin n → ℝ) (x : Matrix (Fin n) k ℝ) (f : Lin.OLSFit (Fin n) k) (h : Lin.ols x y = some f) (h0 : f.u ≠ 0) :
    IsLogLik (fun u => DGP.dgpOls u ⟨n, x *ᵥ f.betas⟩) (Lin.utu f.u / n) y (Diag.logLikelihood n (Lin.utu f.u)) := by
  obtain ⟨-, rfl⟩ := Lin.ols_eq_some h
  set f := Lin.olsWith x y (xᵀ * x)⁻¹ with hf
  have hs : 0 < Lin.utu f.u / n := by
    have := sig2_pos (s := Lin.utu f.u / n) (u := f.u) (by rw [Fintype.card_fin]; rfl) h0
    exact this
  refine isLogLik_affine _ 1 (by rw [det_one]; exact isUnit_one) (x *ᵥ f.betas) (fun u => ?_) _ hs y _ ?_
  · unfold DGP.dgpOls
    simp only [dite_true, DGP.vadd_rfl, one_mulVec]
  · rw [transpose_one, Matrix.mul_one, PanelML.normalLL_eq 1 (by rw [det_one]; exact isUnit_one) _ y _ hs 1 (by simp), one_mulVec,
      one_mulVec, det_one, abs_one, Real.log_one, ML.gaussLL, Diag.logLikelihood, Fintype.card_fin]
    have e : ∑ i, (y - x *ᵥ f.betas) i ^ 2 = Lin.utu f.u := rfl
    rw [e]
    ring

/-- A ring of three observations. -/
def ring3 : Matrix (Fin 3) (Fin 3) ℝ := fun a b => if b = a + 1 then 1 else 0
def ones3 : Matrix (Fin 3) Unit ℝ := fun _ _ => 1
def y3 : Fin 3 → ℝ := ![1, 0, 0]

/-- A case for `C166_lag`. -/
theorem C166_example : ∃ p jac, ML.lagPre y3 ones3 ring3 = some p ∧ ML.jacFull ring3 (1 / 2) = some jac ∧
    (∀ i, ring3 i i = 0) ∧ (ML.lagFit p y3 (1 / 2) jac).u ≠ 0 := by
  have hW : ∀ i, ring3 i i = 0 := by intro i; fin_cases i <;> simp [ring3]
  have hd : (1 - (1 / 2 : ℝ) • ring3).det = 7 / 8 := by
    rw [det_fin_three]
    simp [ring3]
    norm_num
  have hx : IsUnit (ones3ᵀ * ones3).det := by
    rw [det_unique, mul_apply]
    simp [ones3]
  have hp : ∃ p, ML.lagPre y3 ones3 ring3 = some p := by
    unfold ML.lagPre
    rw [Lin.inv?_of_isUnit hx]
    exact ⟨_, rfl⟩
  obtain ⟨p, hp⟩ := hp
  refine ⟨p, Real.log (7 / 8), hp, ?_, hW, fun h0 => ?_⟩
  · rw [ML.jacFull, ML.filledA_eq _ hW, hd, ML.nplog, if_pos (by norm_num)]
  · have hr := (ML.C37_lag_residuals y3 ones3 ring3 p hp (1 / 2) (Real.log (7 / 8))).1
    have e0 := hr 0
    have e1 := hr 1
    rw [h0] at e0 e1
    simp [y3, ring3, ones3] at e0 e1
    linarith
end Spreg.DGPRandom
