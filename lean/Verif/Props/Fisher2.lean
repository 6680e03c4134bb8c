import Verif.Props.Fisher
import Verif.Props.ML2
/-
C122: the information matrices of ML_Lag and ML_Error are the Fisher information of their models.
-/
namespace Spreg.ML
open Matrix Spreg.Lin Spreg.Gauss

variable {n k : Type} [Fintype n] [DecidableEq n] [Fintype k] [DecidableEq k]

theorem filt_line (W : Matrix n n ℝ) (rho dr : ℝ) : MD2 (fun t => (1 - (rho + t * dr) • W : Matrix n n ℝ)) (-(dr • W)) := by
  have : (fun t : ℝ => (1 - (rho + t * dr) • W : Matrix n n ℝ)) = fun t => (1 - rho • W) + t • -(dr • W) := by
    funext t
    rw [add_smul, mul_smul, smul_neg, sub_add_eq_sub_sub, sub_eq_add_neg]
  rw [this]
  exact MD2.line _ _

theorem filt_inv_line (W : Matrix n n ℝ) (rho dr : ℝ) (hA : IsUnit (1 - rho • W).det) :
    MD2 (fun t => (1 - (rho + t * dr) • W : Matrix n n ℝ)⁻¹) (dr • ((1 - rho • W)⁻¹ * W * (1 - rho • W)⁻¹)) := by
  have h := (filt_line W rho dr).inv (by simpa using hA.ne_zero)
  refine h.congr ?_
  simp only [zero_mul, add_zero, Matrix.mul_neg, Matrix.neg_mul, neg_neg, Matrix.mul_smul, Matrix.smul_mul]

/-- Derivative of the covariance matrix. -/
theorem sarCov_deriv (W : Matrix n n ℝ) (rho s2 dr ds : ℝ) (hA : IsUnit (1 - rho • W).det) :
    MD2 (fun t => sarCov W (rho + t * dr) (s2 + t * ds))
      ((1 - rho • W)⁻¹ * (ds • 1 + (s2 * dr) • (W * (1 - rho • W)⁻¹ + (W * (1 - rho • W)⁻¹)ᵀ)) * ((1 - rho • W)⁻¹)ᵀ) := by
  have hF := filt_inv_line W rho dr hA
  have h := MD2.smul_line s2 ds (hF.mul hF.transpose)
  unfold sarCov
  refine h.congr ?_
  simp only [zero_mul, add_zero]
  generalize (1 - rho • W)⁻¹ = F
  simp only [Matrix.mul_add, Matrix.add_mul, Matrix.mul_smul, Matrix.smul_mul, Matrix.mul_one, transpose_smul, transpose_mul,
    smul_add, smul_smul, Matrix.mul_assoc]

theorem sarCov_inv (W : Matrix n n ℝ) (rho s2 : ℝ) (a : n → ℝ) (hs : s2 ≠ 0) (hA : IsUnit (1 - rho • W).det) :
    a ⬝ᵥ ((sarCov W rho s2)⁻¹ *ᵥ a) = (((1 - rho • W) *ᵥ a) ⬝ᵥ ((1 - rho • W) *ᵥ a)) / s2 := by
  have hi : (sarCov W rho s2)⁻¹ = s2⁻¹ • ((1 - rho • W)ᵀ * (1 - rho • W)) := by
    apply Matrix.inv_eq_right_inv
    unfold sarCov
    set A := 1 - rho • W
    have hAt : IsUnit (Aᵀ).det := by rwa [det_transpose]
    rw [Matrix.smul_mul, Matrix.mul_smul, smul_smul, mul_inv_cancel₀ hs, one_smul, transpose_nonsing_inv]
    calc A⁻¹ * Aᵀ⁻¹ * (Aᵀ * A) = A⁻¹ * (Aᵀ⁻¹ * Aᵀ) * A := by simp only [Matrix.mul_assoc]
      _ = 1 := by rw [nonsing_inv_mul _ hAt, Matrix.mul_one, nonsing_inv_mul _ hA]
  rw [hi, smul_mulVec, dotProduct_smul, ← mulVec_mulVec, dotProduct_mulVec, vecMul_transpose, smul_eq_mul, div_eq_inv_mul]

theorem sarCov_det (W : Matrix n n ℝ) (rho s2 : ℝ) (hs : s2 ≠ 0) (hA : IsUnit (1 - rho • W).det) :
    (sarCov W rho s2).det ≠ 0 := by
  unfold sarCov
  rw [det_smul, det_mul, det_transpose]
  have := (isUnit_nonsing_inv_det _ hA).ne_zero
  exact mul_ne_zero (pow_ne_zero _ hs) (mul_ne_zero this this)

/-- The trace term of the information. -/
theorem sarCov_trace (W : Matrix n n ℝ) (rho s2 dr ds : ℝ) (hs : s2 ≠ 0) (hA : IsUnit (1 - rho • W).det) (B : Matrix n n ℝ)
    (hB : B = (1 - rho • W)⁻¹ * (ds • 1 + (s2 * dr) • (W * (1 - rho • W)⁻¹ + (W * (1 - rho • W)⁻¹)ᵀ)) * ((1 - rho • W)⁻¹)ᵀ) :
    1 / 2 * ((sarCov W rho s2)⁻¹ * B * ((sarCov W rho s2)⁻¹ * B)).trace =
      dr ^ 2 * ((W * (1 - rho • W)⁻¹ * (W * (1 - rho • W)⁻¹)).trace + ((W * (1 - rho • W)⁻¹)ᵀ * (W * (1 - rho • W)⁻¹)).trace)
        + 2 * dr * (ds / s2) * (W * (1 - rho • W)⁻¹).trace + (ds / s2) ^ 2 * (Fintype.card n / 2) := by
  have hF := isUnit_nonsing_inv_det _ hA
  have e1 : sarCov W rho s2 = (1 - rho • W)⁻¹ * (s2 • 1) * ((1 - rho • W)⁻¹)ᵀ := by
    unfold sarCov; rw [Matrix.mul_smul, Matrix.mul_one, Matrix.smul_mul]
  rw [e1, hB, trace_conj hF]
  set G := W * (1 - rho • W)⁻¹
  have hinv : (s2 • (1 : Matrix n n ℝ))⁻¹ = s2⁻¹ • 1 := by
    apply Matrix.inv_eq_right_inv
    rw [Matrix.smul_mul, Matrix.mul_smul, Matrix.one_mul, smul_smul, mul_inv_cancel₀ hs, one_smul]
  rw [hinv, Matrix.smul_mul, Matrix.one_mul]
  have e2 : s2⁻¹ • (ds • (1 : Matrix n n ℝ) + (s2 * dr) • (G + Gᵀ)) = (ds / s2) • 1 + dr • (G + Gᵀ) := by
    rw [smul_add, smul_smul, smul_smul]
    congr 2
    · rw [div_eq_inv_mul]
    · rw [← mul_assoc, inv_mul_cancel₀ hs, one_mul]
  rw [e2]
  simp only [Matrix.mul_add, Matrix.add_mul, Matrix.mul_smul, Matrix.smul_mul, Matrix.mul_one, Matrix.one_mul, smul_add,
    trace_add, trace_smul, trace_one, trace_transpose, smul_eq_mul]
  have t1 : (Gᵀ * Gᵀ).trace = (G * G).trace := by rw [← transpose_mul, trace_transpose]
  have t2 : (G * Gᵀ).trace = (Gᵀ * G).trace := trace_mul_comm _ _
  rw [t1, t2]
  ring

/-- C122 for ML_Lag: the information matrix, in any direction `(db, dr, ds)` of coefficients, rho and variance, is the expected
information of the Gaussian spatial lag model. Its inverse is the reported covariance matrix. -/
theorem C122_lag (x : Matrix n k ℝ) (W : Matrix n n ℝ) (hW : ∀ i, W i i = 0) (beta : k → ℝ) (rho sig2 : ℝ) (hs : 0 < sig2)
    (t : ℝ × ℝ × ℝ) (ht : traces W rho = some t) (db : k → ℝ) (dr ds : ℝ)
    (P : Dist (sarCov W (rho + 0 * dr) (sig2 + 0 * ds))) :
    let v : k ⊕ (Unit ⊕ Unit) → ℝ := Sum.elim db (Sum.elim (fun _ => dr) fun _ => ds)
    v ⬝ᵥ (lagInfo x (W *ᵥ sarMean W x beta rho) sig2 t *ᵥ v) =
      fisherInfo (fun s => sarMean W x (beta + s • db) (rho + s * dr)) (fun s => sarCov W (rho + s * dr) (sig2 + s * ds)) P := by
  intro v
  unfold traces at ht
  rw [Option.map_eq_some_iff] at ht
  obtain ⟨ai, hai, rfl⟩ := ht
  rw [filledA_eq W hW] at hai
  obtain ⟨hA, rfl, hr, hl⟩ := inv?_eq_some hai
  have hF := filt_inv_line W rho dr hA
  have hm : VD2 (fun s => sarMean W x (beta + s • db) (rho + s * dr))
      ((1 - rho • W)⁻¹ *ᵥ (x *ᵥ db + dr • (W *ᵥ sarMean W x beta rho))) := by
    have hx := VD2.mulVec (MD2.const x) (VD2.line beta db)
    have h := VD2.mulVec hF hx
    obtain ⟨m', m'', h1, h2, h3⟩ := h
    refine ⟨m', m'', h1, h2, h3.trans ?_⟩
    simp only [zero_mul, add_zero, zero_smul, zero_mulVec, zero_add, sarMean]
    generalize (1 - rho • W)⁻¹ = F
    simp only [mulVec_add, mulVec_smul, mulVec_mulVec, Matrix.mul_assoc, Matrix.smul_mul, smul_mulVec]
    rw [add_comm]
  have hC := sarCov_deriv W rho sig2 dr ds hA
  have h0 : sarCov W (rho + 0 * dr) (sig2 + 0 * ds) = sarCov W rho sig2 := by rw [zero_mul, zero_mul, add_zero, add_zero]
  have hfi := fisher P hm hC (by rw [h0]; exact sarCov_det W rho sig2 hs.ne' hA)
  rw [hfi]
  dsimp only
  rw [h0, sarCov_trace W rho sig2 dr ds hs.ne' hA _ rfl, sarCov_inv W rho sig2 _ hs.ne' hA, mulVec_mulVec, hr, one_mulVec,
    ← quad_eq, lagInfo_quad x _ sig2 hs.ne' _ _ _ v db dr ds rfl rfl rfl]

/-- The information matrix of (beta, lambda, sig2) in the spatial error model has no cross terms between beta and the rest;
`errInfo` is the block of (lambda, sig2). -/
theorem C122_err (x : Matrix n k ℝ) (W : Matrix n n ℝ) (hW : ∀ i, W i i = 0) (beta : k → ℝ) (lam sig2 : ℝ) (hs : 0 < sig2)
    (t : ℝ × ℝ × ℝ) (ht : traces W lam = some t) (db : k → ℝ) (dl ds : ℝ)
    (P : Dist (sarCov W (lam + 0 * dl) (sig2 + 0 * ds))) :
    db ⬝ᵥ ((sig2⁻¹ • ((x - lam • (W * x))ᵀ * (x - lam • (W * x)))) *ᵥ db) +
        ![dl, ds] ⬝ᵥ (errInfo (Fintype.card n) sig2 t *ᵥ ![dl, ds]) =
      fisherInfo (fun s => x *ᵥ (beta + s • db)) (fun s => sarCov W (lam + s * dl) (sig2 + s * ds)) P := by
  unfold traces at ht
  rw [Option.map_eq_some_iff] at ht
  obtain ⟨ai, hai, rfl⟩ := ht
  rw [filledA_eq W hW] at hai
  obtain ⟨hA, rfl, hr, hl⟩ := inv?_eq_some hai
  have hm : VD2 (fun s => x *ᵥ (beta + s • db)) (x *ᵥ db) := by
    obtain ⟨m', m'', h1, h2, h3⟩ := VD2.mulVec (MD2.const x) (VD2.line beta db)
    exact ⟨m', m'', h1, h2, h3.trans (by simp)⟩
  have hC := sarCov_deriv W lam sig2 dl ds hA
  have h0 : sarCov W (lam + 0 * dl) (sig2 + 0 * ds) = sarCov W lam sig2 := by rw [zero_mul, zero_mul, add_zero, add_zero]
  have hfi := fisher P hm hC (by rw [h0]; exact sarCov_det W lam sig2 hs.ne' hA)
  rw [hfi]
  dsimp only
  rw [h0, sarCov_trace W lam sig2 dl ds hs.ne' hA _ rfl, sarCov_inv W lam sig2 _ hs.ne' hA]
  have e1 : (1 - lam • W) *ᵥ (x *ᵥ db) = (x - lam • (W * x)) *ᵥ db := by
    rw [mulVec_mulVec, Matrix.sub_mul, Matrix.one_mul, Matrix.smul_mul]
  rw [e1, smul_mulVec, dotProduct_smul, ← mulVec_mulVec, dotProduct_mulVec, vecMul_transpose, smul_eq_mul, div_eq_inv_mul]
  congr 1
  simp only [errInfo, dotProduct, mulVec, Fin.sum_univ_two, Matrix.of_apply, Matrix.cons_val', Matrix.cons_val_zero,
    Matrix.cons_val_one, Matrix.cons_val_fin_one]
  field_simp
  ring

/-- C122 for ML_Error: the reported covariance matrix of (beta, lambda) is that part of the inverse of the full information
matrix of (beta, lambda, sig2). -/
theorem C122_err_vm (xs : Matrix n k ℝ) (sig2 : ℝ) (hs : 0 < sig2) (t : ℝ × ℝ × ℝ) (hx : IsUnit (xsᵀ * xs).det)
    (vm : Matrix (k ⊕ Unit) (k ⊕ Unit) ℝ) (h : errVm (Fintype.card n) sig2 (xsᵀ * xs)⁻¹ t = some vm) :
    IsUnit (fromBlocks (sig2⁻¹ • (xsᵀ * xs)) 0 0 (errInfo (Fintype.card n) sig2 t)).det ∧
    vm = (fromBlocks (sig2⁻¹ • (xsᵀ * xs)) 0 0 (errInfo (Fintype.card n) sig2 t))⁻¹.submatrix
      (Sum.map id fun _ => 0) (Sum.map id fun _ => 0) := by
  unfold errVm at h
  rw [Option.map_eq_some_iff] at h
  obtain ⟨v, hv, rfl⟩ := h
  obtain ⟨hu, rfl, hr, hl⟩ := inv?_eq_some hv
  have hmul : fromBlocks (sig2⁻¹ • (xsᵀ * xs)) 0 0 (errInfo (Fintype.card n) sig2 t) *
      fromBlocks (sig2 • (xsᵀ * xs)⁻¹) 0 0 (errInfo (Fintype.card n) sig2 t)⁻¹ = 1 := by
    rw [fromBlocks_multiply]
    simp only [Matrix.mul_zero, Matrix.zero_mul, add_zero, zero_add, hr]
    rw [Matrix.smul_mul, Matrix.mul_smul, smul_smul, inv_mul_cancel₀ hs.ne', one_smul, mul_nonsing_inv _ hx, fromBlocks_one]
  refine ⟨(isUnit_iff_isUnit_det _).1 (IsUnit.of_mul_eq_one _ hmul), ?_⟩
  rw [Matrix.inv_eq_right_inv hmul]
  ext i j
  rcases i with i | i <;> rcases j with j | j <;> rfl

/-- Non-vacuity: errors with the covariance matrix of the model exist, for every variance. -/
theorem sarDist [Nonempty n] (W : Matrix n n ℝ) (rho s2 : ℝ) (hs : 0 ≤ s2) : Nonempty (Dist (sarCov W rho s2)) := by
  have h : sarCov W rho s2 = (Real.sqrt s2 • (1 - rho • W)⁻¹) * (Real.sqrt s2 • (1 - rho • W)⁻¹)ᵀ := by
    rw [transpose_smul, Matrix.smul_mul, Matrix.mul_smul, smul_smul, Real.mul_self_sqrt hs]; rfl
  rw [h]
  exact ⟨distOf _⟩

/-- Non-vacuity: two neighbours, rho = 1/2; the traces are computed and all of C122's hypotheses hold. -/
example : (∀ i, (!![0, 1; 1, 0] : Matrix (Fin 2) (Fin 2) ℝ) i i = 0) ∧
    (∃ t, traces (!![0, 1; 1, 0] : Matrix (Fin 2) (Fin 2) ℝ) (1 / 2) = some t) ∧
    Nonempty (Dist (sarCov (!![0, 1; 1, 0] : Matrix (Fin 2) (Fin 2) ℝ) (1 / 2 + 0 * 1) (3 + 0 * 1))) := by
  have h0 : ∀ i, (!![0, 1; 1, 0] : Matrix (Fin 2) (Fin 2) ℝ) i i = 0 := by intro i; fin_cases i <;> rfl
  refine ⟨h0, ?_, sarDist _ _ _ (by norm_num)⟩
  unfold traces
  rw [filledA_eq _ h0, inv?_of_isUnit]
  · exact ⟨_, rfl⟩
  · have : (1 - (1 / 2 : ℝ) • (!![0, 1; 1, 0] : Matrix (Fin 2) (Fin 2) ℝ)) = !![1, -(1/2); -(1/2), 1] := by
      ext i j; fin_cases i <;> fin_cases j <;> norm_num [Matrix.sub_apply, Matrix.smul_apply, Matrix.one_apply]
    rw [this, Matrix.det_fin_two_of, isUnit_iff_ne_zero]; norm_num

end Spreg.ML
