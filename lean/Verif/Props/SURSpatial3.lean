import Verif.Props.SURSpatial2
import Verif.Props.PanelML2
/-
C119, C120, C121: tests and units of the SUR models with spatial errors.
-/
namespace Spreg.SUR
open Matrix Spreg.Lin Spreg.Gauss
open scoped Kronecker

variable {n R : Type} [Fintype n] [Fintype R] [DecidableEq R] [DecidableEq n] {K : R → Type} [∀ r, Fintype (K r)]
  [∀ r, DecidableEq (K r)]

/-! ### C119 -/

/-- With a diagonal covariance matrix the log-likelihood is the sum of those of the equations. -/
theorem diag_LL (W : Matrix n n ℝ) (lam : R → ℝ) (X : ∀ r, Matrix n (K r) ℝ) (y : R → n → ℝ) (b : ∀ r, K r → ℝ)
    (hA : ∀ r, IsUnit (1 - lam r • W).det) (s2 : R → ℝ) (hs : ∀ r, 0 < s2 r) :
    normalLL (bigZ X *ᵥ stackB b) (surErrCov W lam (diagonal s2)) (bigY y) =
      ∑ r, ML.gaussLL (filtY W lam y r - filtX W lam X r *ᵥ b r) (s2 r) (Real.log |(1 - lam r • W).det|) := by
  have hpd : (diagonal s2 : Matrix R R ℝ).PosDef := posDef_diagonal_iff.2 hs
  rw [surErrLL_eq W lam _ hA hpd, unstack_resid, ← filt_resid, det_diagonal, Real.log_prod (fun r _ => (hs r).ne')]
  have hi : (diagonal s2 : Matrix R R ℝ)⁻¹ = diagonal fun r => (s2 r)⁻¹ := by
    apply Matrix.inv_eq_right_inv
    rw [diagonal_mul_diagonal]
    have : (fun i => s2 i * (s2 i)⁻¹) = fun _ => (1 : ℝ) := by funext r; exact mul_inv_cancel₀ (hs r).ne'
    rw [this, diagonal_one]
  rw [hi]
  simp only [Matrix.trace, diag_apply, diagonal_mul]
  unfold ML.gaussLL jacobSur
  have hg : ∀ r, ((surResids (filtY W lam y) (filtX W lam X) b)ᵀ * surResids (filtY W lam y) (filtX W lam X) b) r r =
      ∑ i, (filtY W lam y r - filtX W lam X r *ᵥ b r) i ^ 2 := by
    intro r
    rw [Matrix.mul_apply]
    refine Finset.sum_congr rfl fun i _ => ?_
    rw [sq]; rfl
  simp only [hg]
  rw [Finset.sum_sub_distrib, Finset.sum_add_distrib, Finset.sum_sub_distrib, Finset.sum_const, Finset.card_univ, nsmul_eq_mul,
    ← Finset.mul_sum]
  have e : ∀ r, (∑ i, (filtY W lam y r - filtX W lam X r *ᵥ b r) i ^ 2) / (2 * s2 r) =
      1 / 2 * ((s2 r)⁻¹ * ∑ i, (filtY W lam y r - filtX W lam X r *ᵥ b r) i ^ 2) := by
    intro r; rw [div_eq_mul_inv, mul_inv]; ring
  simp only [e]
  rw [← Finset.mul_sum]
  ring

/-- OLS residuals of the filtered equation. -/
noncomputable def filtOls (W : Matrix n n ℝ) (lam : R → ℝ) (X : ∀ r, Matrix n (K r) ℝ) (y : R → n → ℝ) (r : R) : OLSFit n (K r) :=
  olsWith (filtX W lam X r) (filtY W lam y r) ((filtX W lam X r)ᵀ * filtX W lam X r)⁻¹

theorem errObjSur_eq (W : Matrix n n ℝ) (lam : R → ℝ) (X : ∀ r, Matrix n (K r) ℝ) (y : R → n → ℝ) (r : R) :
    errObjSur W X y r (lam r) = (Fintype.card n : ℝ) / 2 * Real.log (utu (filtOls W lam X y r).u / Fintype.card n)
      - Real.log |(1 - lam r • W).det| := by
  unfold errObjSur
  dsimp only
  rw [utu_eq_dot]
  rfl

/-- C119: `errllik` is the log-likelihood of the equations with spatial errors taken one by one (diagonal covariance matrix) at
the single-equation lambdas, maximal over coefficients and variances; `llik` is at most the log-likelihood of the SUR model
without spatial dependence at its coefficients. `lrtest` and `likrlambda` are twice the distance of `surerrllik` from them. Hence, when `surerrllik` is a maximum of the log-likelihood, `lrtest` and
`likrlambda` are not negative; they have `R (R - 1) / 2` and `R` degrees of freedom. -/
theorem C119_tests [Nonempty n] (optS : (ℝ → ℝ) → ℝ) (opt : ((R → ℝ) → ℝ) → (R → ℝ) → R → ℝ) (W : Matrix n n ℝ)
    (X : ∀ r, Matrix n (K r) ℝ) (y : R → n → ℝ) (eps : ℝ) (f : FitML n R K)
    (h : BaseSURerrorML optS opt W X y eps (.ok f)) (hA : ∀ r, IsUnit (1 - f.lamols r • W).det)
    (hX : ∀ r, IsUnit ((filtX W f.lamols X r)ᵀ * filtX W f.lamols X r).det)
    (hu : ∀ b, surResids (filtY W f.lamols y) (filtX W f.lamols X) b ∈ {E : Matrix n R ℝ | ∀ r, ∃ i, E i r ≠ 0})
    (hS : IsUnit (sigOf (surResids y X f.bSUR0)).det) :
    (∃ (c : ∀ r, K r → ℝ) (s2 : R → ℝ), (∀ r, 0 < s2 r) ∧
      f.errllik = normalLL (bigZ X *ᵥ stackB c) (surErrCov W f.lamols (diagonal s2)) (bigY y) ∧
      ∀ (c' : ∀ r, K r → ℝ) (t : R → ℝ), (∀ r, 0 < t r) →
        normalLL (bigZ X *ᵥ stackB c') (surErrCov W f.lamols (diagonal t)) (bigY y) ≤ f.errllik) ∧
    f.llik ≤ normalLL (bigZ X *ᵥ stackB f.bSUR0) (surErrCov W (fun _ => 0) (sigOf (surResids y X f.bSUR0))) (bigY y) ∧
    f.lrtest = (2 * (f.surerrllik - f.errllik), Fintype.card R * (Fintype.card R - 1) / 2) ∧
    f.likrlambda = (2 * (f.surerrllik - f.llik), Fintype.card R) ∧
    ((∀ (b : ∀ r, K r → ℝ) (lam : R → ℝ) (S : Matrix R R ℝ), S.PosDef → (∀ r, IsUnit (1 - lam r • W).det) →
      normalLL (bigZ X *ᵥ stackB b) (surErrCov W lam S) (bigY y) ≤ f.surerrllik) →
      0 ≤ f.lrtest.1 ∧ 0 ≤ f.likrlambda.1) := by
  obtain ⟨reg0, s, h0, -, -, -, hl, hcl, hb, hll, -⟩ := fit_cases h
  have hpos : ∀ r, 0 < utu (filtOls W f.lamols X y r).u := by
    intro r
    refine lt_of_le_of_ne (utu_nonneg _) fun h0 => ?_
    obtain ⟨i, hi⟩ := hu (fun r => (filtOls W f.lamols X y r).betas) r
    exact hi (congrFun ((utu_eq_zero _).1 h0.symm) i)
  have hn : (0 : ℝ) < Fintype.card n := Nat.cast_pos.2 Fintype.card_pos
  have herr : f.errllik = ∑ r, ML.gaussLL (filtOls W f.lamols X y r).u (utu (filtOls W f.lamols X y r).u / Fintype.card n)
      (Real.log |(1 - f.lamols r • W).det|) := by
    unfold FitML.errllik mlConst
    rw [hcl]
    have e : ∀ r, ML.gaussLL (filtOls W f.lamols X y r).u (utu (filtOls W f.lamols X y r).u / Fintype.card n)
        (Real.log |(1 - f.lamols r • W).det|) = -(Fintype.card n : ℝ) / 2 * Real.log (2 * Real.pi) - (Fintype.card n : ℝ) / 2
          - errObjSur W X y r (f.lamols r) := by
      intro r
      rw [(ML.gaussLL_max _ _ _ (hpos r) le_rfl 1 one_pos).2, errObjSur_eq]
      ring
    simp only [e]
    rw [Finset.sum_sub_distrib, Finset.sum_const, Finset.card_univ, nsmul_eq_mul]
    ring
  have hs2 : ∀ r, 0 < utu (filtOls W f.lamols X y r).u / Fintype.card n := fun r => div_pos (hpos r) hn
  have g1 : ∃ (c : ∀ r, K r → ℝ) (s2 : R → ℝ), (∀ r, 0 < s2 r) ∧
      f.errllik = normalLL (bigZ X *ᵥ stackB c) (surErrCov W f.lamols (diagonal s2)) (bigY y) ∧
      ∀ (c' : ∀ r, K r → ℝ) (t : R → ℝ), (∀ r, 0 < t r) →
        normalLL (bigZ X *ᵥ stackB c') (surErrCov W f.lamols (diagonal t)) (bigY y) ≤ f.errllik := by
    refine ⟨fun r => (filtOls W f.lamols X y r).betas, _, hs2, ?_, ?_⟩
    · rw [diag_LL W f.lamols X y _ hA _ hs2, herr]; rfl
    · intro c' t ht
      rw [diag_LL W f.lamols X y _ hA _ ht, herr]
      refine Finset.sum_le_sum fun r _ => ?_
      exact (ML.gaussLL_max _ _ _ (hpos r) (PanelML.ols_min _ _ (hX r) (c' r)) (t r) (ht r)).1
  have hz : ∀ r : R, IsUnit (1 - (fun _ : R => (0 : ℝ)) r • W).det := by
    intro r; simp
  have g2 : f.llik ≤ normalLL (bigZ X *ᵥ stackB f.bSUR0) (surErrCov W (fun _ => 0) (sigOf (surResids y X f.bSUR0))) (bigY y) := by
    obtain ⟨e1, e2, e3⟩ := filt_zero W X y (surResids y X f.bSUR0) (fun _ => 0) fun _ => rfl
    have hp := (prof_max W (fun _ => 0) X y f.bSUR0 hz (by rw [e3]; exact hS)).1
    rw [e3] at hp
    rw [← hp]
    obtain ⟨b, s0, s, -, hi, -, hes, -, -, -, hE0, -, -, -, -, hlk⟩ := base_cases X y true 5 _ reg0 h0
    rw [hll, hlk]
    obtain ⟨b0, hb0⟩ := hi.est
    have hbs : f.bSUR0 = s.est.b := by rw [hb, hes]
    obtain ⟨e', he'⟩ := (C41_exists_iff X y (surResids y X s.est.b)).2
      ⟨by rw [← hbs]; exact hS, ((C41_exists_iff X y _).1 ⟨_, hb0⟩).2⟩
    have hle := step_logdet X y b0 s.est e' hb0 he'
    have hsg : e'.sig = sigOf (surResids y X f.bSUR0) := by rw [hbs]; exact (surEst_some _ _ _ _ he').1
    have hsl := (slogdet_est _ _ _ _ he').1
    have hj : jacobSur W (fun _ : R => (0 : ℝ)) = 0 := by simp [jacobSur]
    unfold clikSur mlConst
    dsimp only
    rw [e3, hj, ← hsg, hsl, hi.det]
    have h0 : (0 : ℝ) ≤ (Fintype.card n : ℝ) / 2 := by positivity
    nlinarith [mul_le_mul_of_nonneg_left hle h0]
  refine ⟨g1, g2, rfl, rfl, fun hmax => ?_⟩
  obtain ⟨c, s2, hs, he, -⟩ := g1
  have h1 := hmax c f.lamols (diagonal s2) (posDef_diagonal_iff.2 hs) hA
  have h2 := hmax f.bSUR0 (fun _ => 0) _ (sig_posDef _ hS) hz
  rw [← he] at h1
  unfold FitML.lrtest FitML.likrlambda
  dsimp only
  constructor <;> linarith

end Spreg.SUR
