import Verif.Props.SUR
import Mathlib.Tactic
/-
C49, C70, C71: iterated SUR, likelihood and tests.
-/
namespace Spreg.SUR
open Matrix Spreg.Lin
open scoped Kronecker

variable {n R : Type} [Fintype n] [Fintype R] [DecidableEq R] [DecidableEq n] {K : R → Type} [∀ r, Fintype (K r)]
  [∀ r, DecidableEq (K r)]

/-! ### An inequality for log-determinants -/

theorem posDef_of {S : Matrix R R ℝ} (h : SymPSD S) (hu : IsUnit S.det) : S.PosDef := by
  refine PosDef.of_dotProduct_mulVec_pos (by rw [IsHermitian, conjTranspose_eq_transpose_of_trivial, h.1]) ?_
  intro x hx
  simp only [star_trivial]
  have h0 : 0 ≤ x ⬝ᵥ (S *ᵥ x) := by rw [← quad_eq]; exact h.2 x
  refine lt_of_le_of_ne h0 fun he => hx ?_
  have h1 : ∀ w, w ⬝ᵥ (S *ᵥ x) = 0 := by
    intro w
    have := LM.psd_cs h w x
    rw [← he, mul_zero] at this
    nlinarith [sq_nonneg (w ⬝ᵥ (S *ᵥ x))]
  have h2 : S *ᵥ x = 0 := dotProduct_self_eq_zero.1 (h1 _)
  have := congrArg (fun v => S⁻¹ *ᵥ v) h2
  simpa [mulVec_mulVec, Matrix.nonsing_inv_mul _ hu] using this

theorem log_det_le_trace {P : Matrix R R ℝ} (h : P.PosDef) : Real.log P.det ≤ P.trace - Fintype.card R := by
  rw [h.isHermitian.det_eq_prod_eigenvalues, h.isHermitian.trace_eq_sum_eigenvalues]
  simp only [RCLike.ofReal_real_eq_id, id_eq]
  rw [Real.log_prod (fun i _ => (h.eigenvalues_pos i).ne')]
  calc ∑ i, Real.log (h.isHermitian.eigenvalues i) ≤ ∑ i, (h.isHermitian.eigenvalues i - 1) :=
        Finset.sum_le_sum fun i _ => Real.log_le_sub_one_of_pos (h.eigenvalues_pos i)
    _ = _ := by simp [Finset.sum_sub_distrib]

open scoped MatrixOrder Matrix.Norms.L2Operator in
/-- For positive definite `A`, `B`: `log det B + m ≤ log det A + tr(A⁻¹ B)`. -/
theorem log_det_ineq {A B : Matrix R R ℝ} (hA : A.PosDef) (hB : B.PosDef) :
    Real.log B.det + Fintype.card R ≤ Real.log A.det + (A⁻¹ * B).trace := by
  obtain ⟨C, hC⟩ := CStarAlgebra.nonneg_iff_eq_star_mul_self.mp hA.inv.posSemidef.nonneg
  rw [star_eq_conjTranspose, conjTranspose_eq_transpose_of_trivial] at hC
  have hdet : C.det ^ 2 = A.det⁻¹ := by
    have := congrArg Matrix.det hC
    rw [det_mul, det_transpose, det_nonsing_inv, Ring.inverse_eq_inv'] at this
    rw [this]; ring
  have hC0 : C.det ≠ 0 := by
    intro h0
    rw [h0] at hdet
    have := inv_pos.2 hA.det_pos
    rw [← hdet] at this
    simp at this
  have hP : (Cᵀᴴ * B * Cᵀ).PosDef := hB.conjTranspose_mul_mul_same (by
    rw [Matrix.mulVec_injective_iff_isUnit, isUnit_iff_isUnit_det, det_transpose, isUnit_iff_ne_zero]
    exact hC0)
  rw [conjTranspose_eq_transpose_of_trivial, transpose_transpose] at hP
  have h1 := log_det_le_trace hP
  have h2 : (C * B * Cᵀ).det = A.det⁻¹ * B.det := by
    rw [det_mul, det_mul, det_transpose, ← hdet]; ring
  have h3 : (C * B * Cᵀ).trace = (A⁻¹ * B).trace := by
    rw [Matrix.trace_mul_comm, ← Matrix.mul_assoc, ← hC]
  rw [h2, h3, Real.log_mul (inv_ne_zero hA.det_pos.ne') hB.det_pos.ne', Real.log_inv] at h1
  linarith

/-- Hadamard's inequality in logarithms. -/
theorem hadamard {S : Matrix R R ℝ} (h : S.PosDef) : Real.log S.det ≤ ∑ r, Real.log (S r r) := by
  have hd : ∀ r, 0 < S r r := fun r => h.diag_pos
  have hD : (Matrix.diagonal fun r => S r r).PosDef := PosDef.diagonal hd
  have := log_det_ineq hD h
  have hinv : (Matrix.diagonal fun r => S r r)⁻¹ = Matrix.diagonal fun r => (S r r)⁻¹ := by
    apply Matrix.inv_eq_right_inv
    rw [Matrix.diagonal_mul_diagonal, ← Matrix.diagonal_one]
    congr 1
    funext a
    exact mul_inv_cancel₀ (hd a).ne'
  rw [hinv] at this
  have ht : ((Matrix.diagonal fun r => (S r r)⁻¹) * S).trace = Fintype.card R := by
    simp only [Matrix.trace, Matrix.diag, Matrix.diagonal_mul]
    simp [inv_mul_cancel₀ (hd _).ne']
  rw [ht, Matrix.det_diagonal, Real.log_prod (fun r _ => (hd r).ne')] at this
  linarith

/-! ### C70: the iterations -/

/-- One more SUR step never increases the log-determinant of the residual covariance matrix. -/
theorem step_logdet (X : ∀ r, Matrix n (K r) ℝ) (y : R → n → ℝ) (b : ∀ r, K r → ℝ) (e e' : Est R K)
    (h : surEst (crossXX X) (crossXy X y) (surResids y X b) = some e)
    (h' : surEst (crossXX X) (crossXy X y) (surResids y X e.b) = some e') :
    Real.log e'.sig.det ≤ Real.log e.sig.det := by
  obtain ⟨h1, h2, -, -, -⟩ := surEst_some X y _ e h
  obtain ⟨h1', h2', -, -, -⟩ := surEst_some X y _ e' h'
  have p1 : e.sig.PosDef := posDef_of (by rw [h1]; exact sig_psd _) h2
  have p2 : e'.sig.PosDef := posDef_of (by rw [h1']; exact sig_psd _) h2'
  have k1 := log_det_ineq p1 p2
  have k2 := C41_minimises X y _ e h b
  have k3 : (e.sig⁻¹ * e'.sig).trace ≤ (e.sig⁻¹ * e.sig).trace := by
    have q1 : e'.sig = (1 / (Fintype.card n : ℝ)) • ((surResids y X e.b)ᵀ * surResids y X e.b) := h1'
    have q2 : (e.sig⁻¹ * e.sig).trace = (1 / (Fintype.card n : ℝ)) *
        (e.sig⁻¹ * ((surResids y X b)ᵀ * surResids y X b)).trace := by
      conv_lhs => rw [show e.sig⁻¹ * e.sig = e.sig⁻¹ * sigOf (surResids y X b) by rw [← h1]]
      rw [sigOf, Matrix.mul_smul, Matrix.trace_smul, smul_eq_mul]
    rw [q1, q2, Matrix.mul_smul, Matrix.trace_smul, smul_eq_mul]
    exact mul_le_mul_of_nonneg_left k2 (by positivity)
  rw [Matrix.nonsing_inv_mul _ h2, Matrix.trace_one] at k3
  linarith

/-- Invariant of the loop: the residuals belong to the current coefficients, which were estimated from
the residuals of some coefficients; `det1` is the log-determinant of the current covariance matrix. -/
structure Inv (X : ∀ r, Matrix n (K r) ℝ) (y : R → n → ℝ) (s : St n R K) : Prop where
  res : s.resids = surResids y X s.est.b
  est : ∃ b, surEst (crossXX X) (crossXy X y) (surResids y X b) = some s.est
  det : s.det1 = Real.log s.est.sig.det

theorem slogdet_est (X : ∀ r, Matrix n (K r) ℝ) (y : R → n → ℝ) (E : Matrix n R ℝ) (e : Est R K)
    (h : surEst (crossXX X) (crossXy X y) E = some e) : slogdet e.sig = Real.log e.sig.det ∧ e.sig.PosDef := by
  obtain ⟨h1, h2, -, -, -⟩ := surEst_some X y _ e h
  have p := posDef_of (by rw [h1]; exact sig_psd _) h2
  exact ⟨by rw [slogdet, abs_of_pos p.det_pos], p⟩

theorem loop_inv (X : ∀ r, Matrix n (K r) ℝ) (y : R → n → ℝ) (eps : ℝ) (maxiter : ℕ) (s s' : St n R K)
    (hs : Inv X y s) (h : surLoop X y eps maxiter s = some s') :
    Inv X y s' ∧ s'.det1 ≤ s.det1 ∧ s.niter ≤ s'.niter ∧ (s.niter ≤ maxiter + 1 → s'.niter ≤ maxiter + 1) ∧
      (|s'.det1 - s'.det0| ≤ eps ∨ maxiter < s'.niter) := by
  induction hm : maxiter + 1 - s.niter using Nat.strong_induction_on generalizing s with
  | _ m ih =>
    rw [surLoop] at h
    split at h
    · next hc =>
      rw [Option.bind_eq_some_iff] at h
      obtain ⟨e, he, h⟩ := h
      obtain ⟨b, hb⟩ := hs.est
      rw [hs.res] at he
      have hd := slogdet_est X y _ e he
      obtain ⟨i1, i2, i3, i4, i5⟩ := ih (maxiter + 1 - (s.niter + 1)) (by omega) _
        ⟨rfl, ⟨s.est.b, he⟩, hd.1⟩ h rfl
      refine ⟨i1, i2.trans ?_, by simp at i3; omega, fun _ => i4 (by simp; omega), i5⟩
      show slogdet e.sig ≤ s.det1
      rw [hd.1, hs.det]
      exact step_logdet X y b s.est e hb he
    · next hc =>
      injection h with h
      subst h
      refine ⟨hs, le_rfl, le_rfl, id, ?_⟩
      by_contra hcon
      push Not at hcon
      exact hc ⟨hcon.1, hcon.2⟩

theorem start_inv (X : ∀ r, Matrix n (K r) ℝ) (y : R → n → ℝ) (b : ∀ r, K r → ℝ) (s : St n R K)
    (h : surStart X y = some (b, s)) :
    Inv X y s ∧ s.det0 = ∑ r, Real.log (s.est.sig r r) ∧ s.det1 ≤ s.det0 ∧ s.niter = 0 ∧
      eqByEq (crossXX X) (crossXy X y) = some b ∧
      surEst (crossXX X) (crossXy X y) (surResids y X b) = some s.est := by
  unfold surStart at h
  rw [Option.bind_eq_some_iff] at h
  obtain ⟨b', hb', h⟩ := h
  rw [Option.map_eq_some_iff] at h
  obtain ⟨e, he, h⟩ := h
  simp only [Prod.mk.injEq] at h
  obtain ⟨rfl, rfl⟩ := h
  have hd := slogdet_est X y _ e he
  exact ⟨⟨rfl, ⟨_, he⟩, hd.1⟩, rfl, by simp only; rw [hd.1]; exact hadamard hd.2, rfl, hb', he⟩

theorem base_cases (X : ∀ r, Matrix n (K r) ℝ) (y : R → n → ℝ) (iter : Bool) (maxiter : ℕ) (eps : ℝ)
    (f : Fit n R K) (h : baseSUR X y iter maxiter eps = some f) :
    ∃ b s0 s, surStart X y = some (b, s0) ∧ Inv X y s ∧ s.det1 ≤ s0.det1 ∧ f.est = s.est ∧ f.bOLS = b ∧
      f.ldetS0 = s0.det0 ∧ f.ldetS1 = s.det1 ∧ f.bigE = surResids y X s.est.b ∧ f.sigOLS = s0.est.sig ∧
      f.bigYP = surPredict X s.est.b ∧
      (iter = false → s = s0 ∧ f.niter = 1) ∧
      (iter = true → surLoop X y eps maxiter s0 = some s ∧ f.niter = s.niter) ∧
      f.llik = -((Fintype.card n : ℝ) / 2) * ((Fintype.card R : ℝ) * (1 + Real.log (2 * Real.pi)) + s.det1) := by
  unfold baseSUR at h
  rw [Option.bind_eq_some_iff] at h
  obtain ⟨⟨b, s0⟩, h0, h⟩ := h
  obtain ⟨i1, -⟩ := start_inv X y b s0 h0
  cases iter with
  | false =>
    simp only [Bool.false_eq_true, if_false, Option.some.injEq] at h
    subst h
    exact ⟨b, s0, s0, h0, i1, le_rfl, rfl, rfl, rfl, rfl, i1.res, rfl, rfl, fun _ => ⟨rfl, rfl⟩, by simp, rfl⟩
  | true =>
    simp only [if_true, Option.map_eq_some_iff] at h
    obtain ⟨s, hs, rfl⟩ := h
    obtain ⟨j1, j2, -⟩ := loop_inv X y eps maxiter s0 s i1 hs
    exact ⟨b, s0, s, h0, j1, j2, rfl, rfl, rfl, rfl, rfl, rfl, rfl, by simp, fun _ => ⟨hs, rfl⟩, rfl⟩

/-- C70: the likelihood-ratio test of a diagonal covariance matrix is never negative, for the two-step and
for the iterated estimator, whatever the number of iterations. -/
theorem C70_lr_nonneg (X : ∀ r, Matrix n (K r) ℝ) (y : R → n → ℝ) (iter : Bool) (maxiter : ℕ) (eps : ℝ)
    (f : Fit n R K) (h : baseSUR X y iter maxiter eps = some f) :
    0 ≤ (lrtest (Fintype.card n) (Fintype.card R) f.ldetS0 f.ldetS1).1 := by
  obtain ⟨b, s0, s, h0, -, h1, -, -, h2, h3, -⟩ := base_cases X y iter maxiter eps f h
  obtain ⟨-, -, h4, -⟩ := start_inv X y b s0 h0
  apply mul_nonneg (by positivity)
  rw [h2, h3]; linarith

/-- C70: iterating never lowers the log-likelihood: with the same data, every bound on the number of
iterations and every tolerance gives at least the log-likelihood of the two-step estimator. -/
theorem C70_llik_monotone (X : ∀ r, Matrix n (K r) ℝ) (y : R → n → ℝ) (maxiter m2 : ℕ) (eps e2 : ℝ)
    (f g : Fit n R K) (h : baseSUR X y true maxiter eps = some f) (h' : baseSUR X y false m2 e2 = some g) :
    g.llik ≤ f.llik := by
  obtain ⟨b, s0, s, h0, -, h1, -, -, -, -, -, -, -, -, -, h2⟩ := base_cases X y true maxiter eps f h
  obtain ⟨b', s0', s', h0', -, -, -, -, -, -, -, -, -, h3, -, h4⟩ := base_cases X y false m2 e2 g h'
  rw [h0] at h0'
  obtain ⟨rfl, rfl⟩ := Prod.mk.injEq .. ▸ Option.some.inj h0'
  obtain ⟨rfl, -⟩ := h3 rfl
  rw [h2, h4]
  have : (0 : ℝ) ≤ (Fintype.card n : ℝ) / 2 := by positivity
  nlinarith

/-- C70: residuals and predictions add up to the dependent variables, equation by equation, and the
starting values are the OLS estimates. -/
theorem C70_residuals (X : ∀ r, Matrix n (K r) ℝ) (y : R → n → ℝ) (iter : Bool) (maxiter : ℕ) (eps : ℝ)
    (f : Fit n R K) (h : baseSUR X y iter maxiter eps = some f) (r : R) :
    (∀ i, f.bigE i r + f.bigYP i r = y r i) ∧ ∃ o, ols (X r) (y r) = some o ∧ o.betas = f.bOLS r := by
  obtain ⟨b, s0, s, h0, -, -, -, h2, -, -, h3, -, h5, -⟩ := base_cases X y iter maxiter eps f h
  obtain ⟨-, -, -, -, h4, -⟩ := start_inv X y b s0 h0
  refine ⟨fun i => by rw [h3, h5]; simp [surResids, surPredict], ?_⟩
  unfold eqByEq at h4
  split at h4
  · next hu =>
    injection h4 with h4
    refine ⟨_, ols_of_isUnit _ _ (hu r), ?_⟩
    rw [h2, ← h4]; rfl
  · cases h4

/-! ### C49: the iteration bound -/

/-- C49, proved part: the iterated estimator does at most `maxiter + 1` iterations. -/
theorem C49_bound_partial (X : ∀ r, Matrix n (K r) ℝ) (y : R → n → ℝ) (maxiter : ℕ) (eps : ℝ)
    (f : Fit n R K) (h : baseSUR X y true maxiter eps = some f) :
    f.niter ≤ maxiter + 1 := by
  obtain ⟨b, s0, s, h0, -, -, -, -, -, -, -, -, -, -, h3, -⟩ := base_cases X y true maxiter eps f h
  obtain ⟨i1, -, -, i4, -⟩ := start_inv X y b s0 h0
  obtain ⟨h3, h4⟩ := h3 rfl
  obtain ⟨-, -, -, h5, -⟩ := loop_inv X y eps maxiter s0 s i1 h3
  rw [h4]
  exact h5 (by omega)

/-- Data used in the counterexamples: every equation has just a constant, the dependent variables have
mean zero. -/
theorem ones_start {N : ℕ} (hN : 0 < N) (y : R → Fin N → ℝ) (h0 : ∀ r, ∑ i, y r i = 0)
    (Y : Matrix (Fin N) R ℝ) (hY : ∀ i r, Y i r = y r i) (hs : IsUnit (sigOf Y).det) :
    ∃ e : Est R fun _ => Unit, e.b = 0 ∧ e.sig = sigOf Y ∧
      surEst (crossXX fun _ : R => (Matrix.of fun _ _ => 1 : Matrix (Fin N) Unit ℝ))
        (crossXy (fun _ : R => (Matrix.of fun _ _ => 1 : Matrix (Fin N) Unit ℝ)) y) Y = some e ∧
      surStart (fun _ : R => (Matrix.of fun _ _ => 1 : Matrix (Fin N) Unit ℝ)) y =
        some (0, { est := e, resids := Y, det0 := ∑ r, Real.log (e.sig r r), det1 := slogdet e.sig, niter := 0 }) := by
  set x : Matrix (Fin N) Unit ℝ := Matrix.of fun _ _ => 1 with hxdef
  have hx : IsUnit (xᵀ * x).det := by
    rw [xtx_isUnit_iff]
    intro v hv
    have := congrFun hv ⟨0, hN⟩
    funext u
    simpa [x, mulVec, dotProduct] using this
  have hxy : ∀ r, xᵀ *ᵥ y r = 0 := by
    intro r
    funext j
    simpa [x, mulVec, dotProduct] using h0 r
  have hres : ∀ b : ∀ _ : R, Unit → ℝ, b = 0 → surResids y (fun _ : R => x) b = Y := by
    rintro b rfl
    ext i r
    simp [surResids, hY, mulVec, dotProduct]
  have hE : eqByEq (crossXX fun _ : R => x) (crossXy (fun _ : R => x) y) = some 0 := by
    unfold eqByEq
    rw [if_pos (show ∀ r : R, IsUnit (crossXX (fun _ : R => x) r r).det from fun _ => hx)]
    congr 1
    funext r
    show (xᵀ * x)⁻¹ *ᵥ (xᵀ *ᵥ y r) = 0
    rw [hxy, mulVec_zero]
  obtain ⟨e, he⟩ := (C41_exists_iff (fun _ : R => x) y Y).2 ⟨hs, fun _ => hx⟩
  have hb : e.b = 0 := by
    funext r
    obtain ⟨f, hf, hf'⟩ := C41_same_regressors_ols x y Y e he r
    rw [← hf', (ols_eq_some hf).2]
    show (xᵀ * x)⁻¹ *ᵥ (xᵀ *ᵥ y r) = 0
    rw [hxy, mulVec_zero]
  refine ⟨e, hb, (surEst_some _ y Y e he).1, he, ?_⟩
  unfold surStart
  rw [hE]
  simp only [Option.bind_some]
  rw [hres 0 rfl, he]
  simp only [Option.map_some]
  rw [hres e.b hb]

/-- C49 is violated: there are data for which the iterated estimator called with `maxiter = 0` performs one
iteration (the loop test is `n_iter <= maxiter`). -/
theorem C49_bound_violated : ∃ (y : Fin 2 → Fin 3 → ℝ) (x : Matrix (Fin 3) Unit ℝ) (f : Fit (Fin 3) (Fin 2) fun _ => Unit),
    baseSUR (fun _ => x) y true 0 0.00001 = some f ∧ 0 < f.niter := by
  let y : Fin 2 → Fin 3 → ℝ := ![![1, 0, -1], ![1, -1, 0]]
  let Y : Matrix (Fin 3) (Fin 2) ℝ := Matrix.of fun i r => y r i
  have hsig : sigOf Y = !![2 / 3, 1 / 3; 1 / 3, 2 / 3] := by
    ext i j
    fin_cases i <;> fin_cases j <;>
      simp [sigOf, Y, y, Matrix.mul_apply, Fin.sum_univ_three] <;> norm_num
  have hdet : (sigOf Y).det = 1 / 3 := by rw [hsig, Matrix.det_fin_two_of]; norm_num
  obtain ⟨e, hb, hsg, he, hst⟩ := ones_start (R := Fin 2) (by norm_num : 0 < 3) y
    (by intro r; fin_cases r <;> simp [y, Fin.sum_univ_three]) Y (by intro i r; rfl)
    (by rw [hdet]; exact isUnit_iff_ne_zero.2 (by norm_num))
  refine ⟨y, Matrix.of fun _ _ => 1, ?_⟩
  have hcond : |slogdet e.sig - ∑ r, Real.log (e.sig r r)| > (0.00001 : ℝ) := by
    have h1 : slogdet e.sig = Real.log (1 / 3) := by
      rw [slogdet, hsg, hdet]; norm_num
    have h2 : ∑ r, Real.log (e.sig r r) = Real.log (4 / 9) := by
      rw [Fin.sum_univ_two, hsg, hsig]
      simp only [Matrix.of_apply, Matrix.cons_val', Matrix.cons_val_zero, Matrix.cons_val_one, Matrix.cons_val_fin_one]
      rw [← Real.log_mul (by norm_num) (by norm_num)]; norm_num
    have h3 : Real.log (1 / 3) - Real.log (4 / 9) = -Real.log (4 / 3) := by
      rw [← Real.log_div (by norm_num) (by norm_num), ← Real.log_inv]; norm_num
    have h4 : (1 : ℝ) / 4 ≤ Real.log (4 / 3) := by
      have := Real.one_sub_inv_le_log_of_pos (by norm_num : (0 : ℝ) < 4 / 3)
      norm_num at this ⊢; linarith
    rw [h1, h2, h3, abs_neg, abs_of_nonneg (by linarith)]
    norm_num at h4 ⊢; linarith
  unfold baseSUR
  rw [hst]
  simp only [Option.bind_some, if_true]
  rw [surLoop]
  simp only [hcond, le_refl, and_self, if_true, he, Option.bind_some]
  rw [surLoop]
  simp

/-- The data of `C49_bound_violated` also meet the hypotheses of `C70_lr_nonneg`, `C70_llik_monotone` and
`C49_bound_partial` (the same `f`). -/
example : ∃ (y : Fin 2 → Fin 3 → ℝ) (x : Matrix (Fin 3) Unit ℝ) (f : Fit (Fin 3) (Fin 2) fun _ => Unit),
    baseSUR (fun _ => x) y true 0 0.00001 = some f ∧ f.niter = 1 := by
  obtain ⟨y, x, f, h, h0⟩ := C49_bound_violated
  have := C49_bound_partial _ _ _ _ f h
  exact ⟨y, x, f, h, by omega⟩

/-! ### C71: tests -/

theorem corr_diag {sig : Matrix R R ℝ} (h : ∀ r, 0 < sig r r) (r : R) : surCorr sig r r = 1 := by
  simp only [surCorr, Matrix.of_apply]
  rw [Real.mul_self_sqrt (h r).le, div_self (h r).ne']

/-- C71: the residual correlations have unit diagonal, are symmetric and lie in `[-1, 1]`, and the
Breusch-Pagan statistic is the sample size times the sum of the squared correlations over pairs of
equations (each unordered pair counted once), so it is nonnegative. -/
theorem C71_breusch_pagan (E : Matrix n R ℝ) (hu : IsUnit (sigOf E).det) :
    (∀ r, surCorr (sigOf E) r r = 1) ∧ (∀ r t, surCorr (sigOf E) r t = surCorr (sigOf E) t r) ∧
      (∀ r t, |surCorr (sigOf E) r t| ≤ 1) ∧
      2 * lmtest (Fintype.card n) (sigOf E) =
        Fintype.card n * ∑ r, ∑ t, (if r = t then 0 else surCorr (sigOf E) r t ^ 2) ∧
      0 ≤ lmtest (Fintype.card n) (sigOf E) := by
  have hp := posDef_of (sig_psd E) hu
  have hd : ∀ r, 0 < sigOf E r r := fun r => hp.diag_pos
  have hsym : ∀ r t, surCorr (sigOf E) r t = surCorr (sigOf E) t r := by
    intro r t
    have : sigOf E r t = sigOf E t r := by
      conv_lhs => rw [← (sig_psd E).1]
      rfl
    simp only [surCorr, Matrix.of_apply]
    rw [this, mul_comm]
  have key : 2 * lmtest (Fintype.card n) (sigOf E) =
        Fintype.card n * ∑ r, ∑ t, (if r = t then 0 else surCorr (sigOf E) r t ^ 2) := by
    have ht : ((surCorr (sigOf E))ᵀ * surCorr (sigOf E)).trace = ∑ r, ∑ t, surCorr (sigOf E) r t ^ 2 := by
      simp only [Matrix.trace, Matrix.diag, Matrix.mul_apply, Matrix.transpose_apply]
      rw [Finset.sum_comm]
      exact Finset.sum_congr rfl fun r _ => Finset.sum_congr rfl fun t _ => by ring
    have hs : ∑ r, ∑ t, surCorr (sigOf E) r t ^ 2 =
        ∑ r, ∑ t, (if r = t then 0 else surCorr (sigOf E) r t ^ 2) + Fintype.card R := by
      have : (Fintype.card R : ℝ) = ∑ r : R, ∑ t : R, (if r = t then (1 : ℝ) else 0) := by simp
      rw [this, ← Finset.sum_add_distrib]
      refine Finset.sum_congr rfl fun r _ => ?_
      rw [← Finset.sum_add_distrib]
      refine Finset.sum_congr rfl fun t _ => ?_
      by_cases h : r = t
      · subst h; simp [corr_diag hd]
      · simp [h]
    simp only [lmtest]
    rw [ht, hs]; ring
  refine ⟨corr_diag hd, hsym, ?_, key, ?_⟩
  · intro r t
    have := LM.psd_cs (sig_psd E) (Pi.single r 1) (Pi.single t 1)
    simp only [single_one_dotProduct, mulVec_single_one, Matrix.col_apply] at this
    simp only [surCorr, Matrix.of_apply]
    rw [← Real.sqrt_mul (hd r).le, abs_div, abs_of_nonneg (Real.sqrt_nonneg _),
      div_le_one (Real.sqrt_pos.2 (mul_pos (hd r) (hd t)))]
    exact Real.abs_le_sqrt this
  · have : 0 ≤ (Fintype.card n : ℝ) * ∑ r, ∑ t, (if r = t then 0 else surCorr (sigOf E) r t ^ 2) := by
      apply mul_nonneg (by positivity)
      refine Finset.sum_nonneg fun r _ => Finset.sum_nonneg fun t _ => ?_
      split
      · exact le_rfl
      · positivity
    linarith

end Spreg.SUR
