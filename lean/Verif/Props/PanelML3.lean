import Verif.Props.PanelML2
/-
C97: log-likelihood of ML_ErrorRE. C98: the loop of ML_LagRE.
-/
namespace Spreg.PanelML
open Matrix Spreg.Lin Spreg.ML Spreg.Gauss
open scoped Kronecker

variable {τ n k : Type} [Fintype τ] [Fintype n] [Fintype k] [DecidableEq τ] [DecidableEq n] [DecidableEq k]

/-! ### C97 -/

theorem reTrans_eq (W P : Matrix n n ℝ) (lam : ℝ) : reTrans τ W P lam = mix τ P (1 - lam • W) := by
  unfold reTrans
  have h : tileMean τ (P - (1 - lam • W)) = mix τ (P - (1 - lam • W)) 0 := by
    unfold tileMean mix Jb
    rw [kronecker_zero, add_zero]
  rw [h, bigW_eq, ← mix_one, mix_add, mix_smul, mix_sub]
  congr 1
  · abel
  · rw [add_zero]

theorem reErrCov_eq [Nonempty τ] (W : Matrix n n ℝ) (lam r : ℝ) :
    reErrCov τ W lam r = mix τ ((Fintype.card τ * r) • (1 : Matrix n n ℝ) + (1 - lam • W)⁻¹ * ((1 - lam • W)⁻¹)ᵀ)
      ((1 - lam • W)⁻¹ * ((1 - lam • W)⁻¹)ᵀ) := by
  have hT : (Fintype.card τ : ℝ) ≠ 0 := by exact_mod_cast Fintype.card_ne_zero
  ext a b
  simp only [reErrCov, mix, Jb, of_apply, Matrix.add_apply, kroneckerMap_apply, Matrix.sub_apply, Matrix.smul_apply,
    one_apply, smul_eq_mul]
  by_cases h1 : a.1 = b.1 <;> by_cases h2 : a.2 = b.2 <;> simp [h1, h2] <;> field_simp <;> ring

/-- The log-likelihood of the random effects error model in terms of residuals transformed with any `P`, `P'P` the inverse
of the covariance of the means. -/
theorem normalLL_re [Nonempty τ] (y m : τ × n → ℝ) (W P : Matrix n n ℝ) (lam r s2 : ℝ) (hs : 0 < s2)
    (hA : IsUnit (1 - lam • W).det) (hP : omegaBetween τ W lam r * (Pᵀ * P) = 1) :
    normalLL m (s2 • reErrCov τ W lam r) y =
      gaussLL (reTrans τ W P lam *ᵥ (y - m)) s2
        (Real.log |P.det| + (Fintype.card τ - 1 : ℕ) * Real.log |(1 - lam • W).det|) := by
  have hPd : IsUnit P.det := by
    have := congrArg Matrix.det hP
    rw [det_mul, det_mul, det_transpose, det_one] at this
    refine isUnit_iff_ne_zero.2 fun h => ?_
    rw [h] at this; simp at this
  rw [normalLL_eq (reTrans τ W P lam) _ m y s2 hs]
  · rw [← mulVec_sub, reTrans_eq, det_mix _ _ hA, abs_mul, abs_pow,
      Real.log_mul (abs_ne_zero.2 hPd.ne_zero) (pow_ne_zero _ (abs_ne_zero.2 hA.ne_zero)), Real.log_pow]
  · have hB : (1 - lam • W)⁻¹ * ((1 - lam • W)⁻¹)ᵀ = ((1 - lam • W)ᵀ * (1 - lam • W))⁻¹ := by
      rw [Matrix.mul_inv_rev, transpose_nonsing_inv]
    rw [reTrans_eq, reErrCov_eq, mix_transpose, mix_mul, mix_mul, ← mix_one, hB]
    congr 1
    exact nonsing_inv_mul _ (by rw [det_mul, det_transpose]; exact hA.mul hA)
  · rw [reTrans_eq, det_mix _ _ hA]
    exact hPd.mul (hA.pow _)

/-- C97: if `P` of the objective is a square root of the right inverse covariance and the two Jacobian terms are right, then
for the reported lambda and ratio of variances `logll` is the maximal log-likelihood of the random effects error model,
attained at the reported coefficients and `sig2`. -/
theorem errRE_aux [Nonempty τ] (y : τ × n → ℝ) (x : Matrix (τ × n) k ℝ) (W : Matrix n n ℝ) (ev : n → ℝ) (E : Matrix n n ℝ)
    (d : n → ℝ) (U : Matrix n n ℝ) (lam phi0 : ℝ) (f : ErrFit τ n k) (h : errRE y x W ev E d U lam phi0 = some f)
    (hA : IsUnit (1 - lam • W).det)
    (hP : omegaBetween τ W lam (phi0 ^ 2) * ((objP τ ev E lam phi0)ᵀ * objP τ ev E lam phi0) = 1)
    (hP2 : omegaBetween τ W lam (phi0 ^ 2) * ((U * (diagonal (fun i => (Real.sqrt (d i))⁻¹) * Uᵀ))ᵀ *
      (U * (diagonal (fun i => (Real.sqrt (d i))⁻¹) * Uᵀ))) = 1)
    (hJ : Fintype.card τ * ∑ i, Real.log (1 - lam * ev i) -
        1 / 2 * ∑ i, Real.log (1 + Fintype.card τ * phi0 ^ 2 * (1 - lam * ev i) ^ 2) =
      Real.log |(objP τ ev E lam phi0).det| + (Fintype.card τ - 1 : ℕ) * Real.log |(1 - lam • W).det|)
    (h0 : f.eFiltered ≠ 0) :
    normalLL (fun a => ∑ j, x a j * f.b j) (f.sig2 • reErrCov τ W lam f.phi) y = f.logll ∧
    ∀ (c : k → ℝ) (s2 : ℝ), 0 < s2 →
      normalLL (fun a => ∑ j, x a j * c j) (s2 • reErrCov τ W lam f.phi) y ≤ f.logll := by
  unfold errRE errREObj at h
  simp only [Option.bind_eq_some_iff, Option.map_eq_some_iff] at h
  obtain ⟨_, ⟨Bo, hBo, rfl⟩, B, hB, rfl⟩ := h
  obtain ⟨huo, rfl, -⟩ := inv?_eq_some hBo
  obtain ⟨hu, rfl, -⟩ := inv?_eq_some hB
  dsimp only at h0 ⊢
  rw [errSS_eq _ _ huo]
  set Po := objP τ ev E lam phi0
  set P := U * (diagonal (fun i => (Real.sqrt (d i))⁻¹) * Uᵀ)
  set Ao := reTrans τ W Po lam with hAo
  set A := reTrans τ W P lam with hAd
  clear_value Po P
  set jac := Real.log |Po.det| + (Fintype.card τ - 1 : ℕ) * Real.log |(1 - lam • W).det| with hjac
  -- the two residual sums of squares agree
  have hlogP : Real.log |P.det| = Real.log |Po.det| := by
    have e1 := congrArg Matrix.det hP
    have e2 := congrArg Matrix.det hP2
    rw [det_mul, det_mul, det_transpose, det_one] at e1 e2
    have hne : (omegaBetween τ W lam (phi0 ^ 2)).det ≠ 0 := by
      intro e; rw [e, zero_mul] at e1; exact zero_ne_one e1
    have : P.det * P.det = Po.det * Po.det := mul_left_cancel₀ hne (e2.trans e1.symm)
    rw [abs_eq_abs.2 (mul_self_eq_mul_self_iff.1 this)]
  have hval := fun (s2 : ℝ) (hs : 0 < s2) (m : τ × n → ℝ) => normalLL_re y m W P lam (phi0 ^ 2) s2 hs hA hP2
  rw [hlogP, ← hjac, ← hAd] at hval
  have hgram : Aᵀ * A = Aoᵀ * Ao := by
    have e : Pᵀ * P = Poᵀ * Po := by
      have h3 := Matrix.inv_eq_right_inv hP
      have h4 := Matrix.inv_eq_right_inv hP2
      rw [← h3, ← h4]
    rw [hAd, hAo, reTrans_eq, reTrans_eq, mix_transpose, mix_transpose, mix_mul, mix_mul, e]
  have hutu : ∀ v : τ × n → ℝ, utu (A *ᵥ v) = utu (Ao *ᵥ v) := by
    intro v
    have key : ∀ M : Matrix (τ × n) (τ × n) ℝ, utu (M *ᵥ v) = v ⬝ᵥ ((Mᵀ * M) *ᵥ v) := by
      intro M
      rw [utu_eq_dot, dotProduct_mulVec, ← mulVec_transpose, dotProduct_comm, mulVec_mulVec]
    rw [key, key, hgram]
  have hss : utu (olsWith (Ao * x) (Ao *ᵥ y) ((Ao * x)ᵀ * (Ao * x))⁻¹).u =
      utu (olsWith (A * x) (A *ᵥ y) ((A * x)ᵀ * (A * x))⁻¹).u := by
    have hr : ∀ (M : Matrix (τ × n) (τ × n) ℝ) B, (olsWith (M * x) (M *ᵥ y) B).u =
        M *ᵥ (y - x *ᵥ (olsWith (M * x) (M *ᵥ y) B).betas) := by
      intro M B
      rw [mulVec_sub, mulVec_mulVec _ M x]; rfl
    apply le_antisymm
    · rw [hr A, hutu, mulVec_sub, mulVec_mulVec _ Ao x]
      exact ols_min _ _ huo _
    · rw [hr Ao, ← hutu, mulVec_sub, mulVec_mulVec _ A x]
      exact ols_min _ _ hu _
  rw [hss]
  have hef : A *ᵥ y - (A * x) *ᵥ (((A * x)ᵀ * (A * x))⁻¹ *ᵥ ((A * x)ᵀ *ᵥ (A *ᵥ y))) =
      (olsWith (A * x) (A *ᵥ y) ((A * x)ᵀ * (A * x))⁻¹).u := rfl
  rw [hef] at h0 ⊢
  set e := (olsWith (A * x) (A *ᵥ y) ((A * x)ᵀ * (A * x))⁻¹).u with he
  have hpos : 0 < utu e := lt_of_le_of_ne (utu_nonneg _) fun e => h0 ((utu_eq_zero _).1 e.symm)
  have hNT : 0 < (Fintype.card (τ × n) : ℝ) := by
    rcases Nat.eq_zero_or_pos (Fintype.card (τ × n)) with h | h
    · haveI := Fintype.card_eq_zero_iff.1 h
      simp [utu] at hpos
    · exact_mod_cast h
  have hll : addConst τ n ((Fintype.card n : ℝ) * Fintype.card τ / 2 * Real.log (utu e / (Fintype.card n * Fintype.card τ)) +
        1 / 2 * ∑ i, Real.log (1 + Fintype.card τ * phi0 ^ 2 * (1 - lam * ev i) ^ 2) -
        Fintype.card τ * ∑ i, Real.log (1 - lam * ev i)) =
      gaussLL e (utu e / Fintype.card (τ × n)) jac := by
    rw [(gaussLL_max _ _ jac hpos le_rfl 1 one_pos).2, card_prod, ← hJ]
    unfold addConst NT
    ring
  have hs2 : (e ⬝ᵥ e) / NT τ n = utu e / Fintype.card (τ × n) := by rw [← utu_eq_dot, card_prod]
  have hxm : ∀ (c : k → ℝ), (fun a : τ × n => ∑ j, x a j * c j) = x *ᵥ c := fun c => rfl
  rw [hll, hs2, hxm]
  constructor
  · rw [hval _ (div_pos hpos hNT), mulVec_sub, mulVec_mulVec _ A x]
    rfl
  · intro c s2 hs
    rw [hval _ hs, hxm, mulVec_sub, mulVec_mulVec _ A x]
    exact (gaussLL_max _ _ _ hpos (ols_min _ _ hu c) s2 hs).1

theorem cj_mul (E : Matrix n n ℝ) (hE : Eᵀ * E = 1) (v w : n → ℝ) :
    (E * diagonal v * Eᵀ) * (E * diagonal w * Eᵀ) = E * diagonal (fun i => v i * w i) * Eᵀ := by
  calc (E * diagonal v * Eᵀ) * (E * diagonal w * Eᵀ) = E * diagonal v * (Eᵀ * E) * diagonal w * Eᵀ := by
        simp only [Matrix.mul_assoc]
    _ = _ := by rw [hE, Matrix.mul_one, Matrix.mul_assoc E, diagonal_mul_diagonal]

theorem cj_one (E : Matrix n n ℝ) (hE : Eᵀ * E = 1) : E * diagonal (fun _ => (1 : ℝ)) * Eᵀ = 1 := by
  rw [diagonal_one, Matrix.mul_one]
  exact mul_eq_one_comm.1 hE

theorem cj_det (E : Matrix n n ℝ) (hE : Eᵀ * E = 1) (v : n → ℝ) : (E * diagonal v * Eᵀ).det = ∏ i, v i := by
  have h := congrArg Matrix.det hE
  rw [det_mul, det_one] at h
  rw [det_mul, det_mul, det_diagonal, mul_right_comm, mul_comm E.det, h, one_mul]

/-- C97, partial: for symmetric weights (with real orthonormal eigenvectors `E`, eigenvalues `ev`), and any orthonormal
diagonalisation `U`, `d` that `eigh` returns: for the reported lambda and ratio of variances `logll` of ML_ErrorRE is the
log-likelihood of the random effects error model at the reported coefficients and `sig2`, and it is maximal. Missing:
weights that are not symmetric, where this is false (`C97_rowstandardised_violated`). -/
theorem C97_errRE_partial [Nonempty τ] (y : τ × n → ℝ) (x : Matrix (τ × n) k ℝ) (W : Matrix n n ℝ) (ev : n → ℝ)
    (E : Matrix n n ℝ) (d : n → ℝ) (U : Matrix n n ℝ) (lam phi0 : ℝ) (f : ErrFit τ n k)
    (hE : Eᵀ * E = 1) (hW : W = E * diagonal ev * Eᵀ) (hlam : ∀ i, 0 < 1 - lam * ev i)
    (hU : Uᵀ * U = 1) (hd : omegaBetween τ W lam (phi0 ^ 2) = U * diagonal d * Uᵀ)
    (h : errRE y x W ev E d U lam phi0 = some f) (h0 : f.eFiltered ≠ 0) :
    normalLL (fun a => ∑ j, x a j * f.b j) (f.sig2 • reErrCov τ W lam f.phi) y = f.logll ∧
    ∀ (c : k → ℝ) (s2 : ℝ), 0 < s2 →
      normalLL (fun a => ∑ j, x a j * c j) (s2 • reErrCov τ W lam f.phi) y ≤ f.logll := by
  have hB : 1 - lam • W = E * diagonal (fun i => 1 - lam * ev i) * Eᵀ := by
    have : diagonal (fun i => 1 - lam * ev i) = diagonal (fun _ => (1 : ℝ)) - lam • diagonal ev := by
      ext i j; by_cases hij : i = j <;> simp [hij]
    rw [this, Matrix.mul_sub, Matrix.sub_mul, cj_one E hE, Matrix.mul_smul, Matrix.smul_mul, hW]
  have hBt : (1 - lam • W)ᵀ = 1 - lam • W := by
    rw [hB, transpose_mul, transpose_mul, transpose_transpose, diagonal_transpose, Matrix.mul_assoc]
  have hdet : (1 - lam • W).det = ∏ i, (1 - lam * ev i) := by rw [hB, cj_det E hE]
  have hAu : IsUnit (1 - lam • W).det := by
    rw [hdet]; exact isUnit_iff_ne_zero.2 (Finset.prod_ne_zero_iff.2 fun i _ => (hlam i).ne')
  have hBi : ((1 - lam • W)ᵀ * (1 - lam • W))⁻¹ = E * diagonal (fun i => 1 / (1 - lam * ev i) ^ 2) * Eᵀ := by
    apply Matrix.inv_eq_right_inv
    rw [hBt, hB, cj_mul E hE, cj_mul E hE, ← cj_one E hE]
    congr 3
    funext i
    have := (hlam i).ne'
    field_simp
  let g : n → ℝ := fun i => Fintype.card τ * phi0 ^ 2 + 1 / (1 - lam * ev i) ^ 2
  have hg : ∀ i, 0 < g i := fun i => by
    have : 0 < 1 / (1 - lam * ev i) ^ 2 := by have := hlam i; positivity
    have : (0 : ℝ) ≤ Fintype.card τ * phi0 ^ 2 := by positivity
    simp only [g]; linarith
  have hO : omegaBetween τ W lam (phi0 ^ 2) = E * diagonal g * Eᵀ := by
    unfold omegaBetween
    rw [hBi, ← cj_one E hE, ← Matrix.smul_mul, ← Matrix.mul_smul, ← Matrix.add_mul, ← Matrix.mul_add]
    congr 2
    ext i j; by_cases hij : i = j <;> simp [hij, g]
  have hPP : (objP τ ev E lam phi0)ᵀ * objP τ ev E lam phi0 = E * diagonal (fun i => (g i)⁻¹) * Eᵀ := by
    unfold objP
    rw [transpose_mul, transpose_transpose, diagonal_transpose, Matrix.mul_assoc, ← Matrix.mul_assoc (diagonal _),
      diagonal_mul_diagonal, Matrix.mul_assoc]
    congr 3
    funext i
    rw [← mul_inv, Real.mul_self_sqrt (hg i).le]
  have hP : omegaBetween τ W lam (phi0 ^ 2) * ((objP τ ev E lam phi0)ᵀ * objP τ ev E lam phi0) = 1 := by
    rw [hPP, hO, cj_mul E hE, ← cj_one E hE]
    congr 3
    funext i
    exact mul_inv_cancel₀ (hg i).ne'
  have hdpos : ∀ i, 0 < d i := by
    intro i
    have e1 : diagonal d = (Eᵀ * U)ᵀ * diagonal g * (Eᵀ * U) := by
      rw [transpose_mul, transpose_transpose]
      calc diagonal d = (Uᵀ * U) * diagonal d * (Uᵀ * U) := by rw [hU, Matrix.one_mul, Matrix.mul_one]
        _ = Uᵀ * (U * diagonal d * Uᵀ) * U := by simp only [Matrix.mul_assoc]
        _ = Uᵀ * (E * diagonal g * Eᵀ) * U := by rw [← hd, hO]
        _ = _ := by simp only [Matrix.mul_assoc]
    have e2 : d i = ∑ j, g j * (Eᵀ * U) j i ^ 2 := by
      have := congrFun (congrFun e1 i) i
      rw [diagonal_apply_eq] at this
      rw [this, Matrix.mul_apply]
      refine Finset.sum_congr rfl fun j _ => ?_
      rw [mul_diagonal, transpose_apply]; ring
    have e3 : ∑ j, (Eᵀ * U) j i ^ 2 = 1 := by
      have : ((Eᵀ * U)ᵀ * (Eᵀ * U)) i i = 1 := by
        rw [transpose_mul, transpose_transpose, Matrix.mul_assoc, ← Matrix.mul_assoc E, mul_eq_one_comm.1 hE,
          Matrix.one_mul, hU, one_apply_eq]
      rw [← this, Matrix.mul_apply]
      exact Finset.sum_congr rfl fun j _ => by rw [transpose_apply, sq]
    rw [e2]
    obtain ⟨j, hj⟩ : ∃ j, (Eᵀ * U) j i ≠ 0 := by
      by_contra hc
      push Not at hc
      rw [Finset.sum_congr rfl fun j _ => by rw [hc j]] at e3
      simp at e3
    exact Finset.sum_pos' (fun j _ => mul_nonneg (hg j).le (sq_nonneg _)) ⟨j, Finset.mem_univ _, mul_pos (hg j) (by positivity)⟩
  have hP2 : omegaBetween τ W lam (phi0 ^ 2) * ((U * (diagonal (fun i => (Real.sqrt (d i))⁻¹) * Uᵀ))ᵀ *
      (U * (diagonal (fun i => (Real.sqrt (d i))⁻¹) * Uᵀ))) = 1 := by
    have et : (U * (diagonal (fun i => (Real.sqrt (d i))⁻¹) * Uᵀ))ᵀ = U * diagonal (fun i => (Real.sqrt (d i))⁻¹) * Uᵀ := by
      rw [transpose_mul, transpose_mul, transpose_transpose, diagonal_transpose]
    rw [et, ← Matrix.mul_assoc U, cj_mul U hU, hd, cj_mul U hU, ← cj_one U hU]
    congr 3
    funext i
    have hdi := hdpos i
    rw [← mul_inv, Real.mul_self_sqrt hdi.le, mul_inv_cancel₀ hdi.ne']
  refine errRE_aux y x W ev E d U lam phi0 f h hAu hP hP2 ?_ h0
  -- Jacobian
  have hJ1 : Real.log |(1 - lam • W).det| = ∑ i, Real.log (1 - lam * ev i) := by
    rw [hdet, abs_of_pos (Finset.prod_pos fun i _ => hlam i), Real.log_prod fun i _ => (hlam i).ne']
  have hJ2 : Real.log |(objP τ ev E lam phi0).det| = -(1 / 2 * ∑ i, Real.log (g i)) := by
    have e1 : |(objP τ ev E lam phi0).det| * |(objP τ ev E lam phi0).det| = ∏ i, (g i)⁻¹ := by
      rw [abs_mul_abs_self]
      have := congrArg Matrix.det hPP
      rwa [det_mul, det_transpose, cj_det E hE] at this
    have e2 : Real.log (|(objP τ ev E lam phi0).det| * |(objP τ ev E lam phi0).det|) = -∑ i, Real.log (g i) := by
      rw [e1, Real.log_prod fun i _ => (inv_pos.2 (hg i)).ne', ← Finset.sum_neg_distrib]
      exact Finset.sum_congr rfl fun i _ => Real.log_inv _
    have hne : |(objP τ ev E lam phi0).det| ≠ 0 := by
      intro e
      rw [e, mul_zero] at e1
      exact (Finset.prod_pos fun i _ => inv_pos.2 (hg i)).ne e1
    rw [Real.log_mul hne hne] at e2
    linarith
  have hJ3 : ∀ i, Real.log (g i) = Real.log (1 + Fintype.card τ * phi0 ^ 2 * (1 - lam * ev i) ^ 2) -
      2 * Real.log (1 - lam * ev i) := by
    intro i
    have h1 := hlam i
    have e : g i = (1 + Fintype.card τ * phi0 ^ 2 * (1 - lam * ev i) ^ 2) / (1 - lam * ev i) ^ 2 := by
      simp only [g]; field_simp; ring
    have h2 : 0 < 1 + Fintype.card τ * phi0 ^ 2 * (1 - lam * ev i) ^ 2 := by positivity
    rw [e, Real.log_div h2.ne' (by positivity), Real.log_pow]
    push_cast; ring
  rw [hJ1, hJ2, Finset.sum_congr rfl fun i _ => hJ3 i, Finset.sum_sub_distrib, ← Finset.mul_sum,
    Nat.cast_sub (Nat.succ_le_of_lt Fintype.card_pos)]
  push_cast
  ring

end Spreg.PanelML
