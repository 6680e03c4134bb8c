import Verif.Props.ML
import Mathlib.Algebra.Order.Chebyshev
/-
C37 (residuals and likelihood of ML_Lag and ML_Error) and C67 (information matrices).
-/
namespace Spreg.ML
open Matrix Spreg.Lin

variable {n k : Type} [Fintype n] [Fintype k] [DecidableEq n] [DecidableEq k]

/-- Specification: the Gaussian log-likelihood of residuals `e` with variance `s2` and log-Jacobian `jac`. -/
noncomputable def gaussLL (e : n → ℝ) (s2 jac : ℝ) : ℝ :=
  -(Fintype.card n : ℝ) / 2 * Real.log (2 * Real.pi) - (Fintype.card n : ℝ) / 2 * Real.log s2 + jac
    - (∑ i, e i ^ 2) / (2 * s2)

theorem gaussLL_max (e e' : n → ℝ) (jac : ℝ) (h0 : 0 < utu e) (hle : utu e ≤ utu e') (s2 : ℝ) (hs : 0 < s2) :
    gaussLL e' s2 jac ≤ gaussLL e (utu e / Fintype.card n) jac ∧
    gaussLL e (utu e / Fintype.card n) jac = -(Fintype.card n : ℝ) / 2 * Real.log (2 * Real.pi)
      - (Fintype.card n : ℝ) / 2 * Real.log (utu e / Fintype.card n) + jac - (Fintype.card n : ℝ) / 2 := by
  have hn : (0 : ℝ) < Fintype.card n := by
    rcases Nat.eq_zero_or_pos (Fintype.card n) with h | h
    · haveI := Fintype.card_eq_zero_iff.1 h
      simp [utu] at h0
    · exact_mod_cast h
  have e2 : gaussLL e (utu e / Fintype.card n) jac = -(Fintype.card n : ℝ) / 2 * Real.log (2 * Real.pi)
      - (Fintype.card n : ℝ) / 2 * Real.log (utu e / Fintype.card n) + jac - (Fintype.card n : ℝ) / 2 := by
    unfold gaussLL
    have : (∑ i, e i ^ 2) = utu e := rfl
    rw [this]
    congr 1
    field_simp
  refine ⟨?_, e2⟩
  rw [e2]
  unfold gaussLL
  have h1 : (∑ i, e' i ^ 2) = utu e' := rfl
  rw [h1]
  set N : ℝ := (Fintype.card n : ℝ)
  have hpos : 0 < utu e / N / s2 := div_pos (div_pos h0 hn) hs
  have hlog := Real.log_le_sub_one_of_pos hpos
  rw [Real.log_div (div_pos h0 hn).ne' hs.ne'] at hlog
  have h2 : utu e / (2 * s2) ≤ utu e' / (2 * s2) := div_le_div_of_nonneg_right hle (by linarith)
  have h3 : utu e / (2 * s2) = N / 2 * (utu e / N / s2) := by field_simp
  have h4 : N / 2 * (Real.log (utu e / N) - Real.log s2) ≤ N / 2 * (utu e / N / s2 - 1) :=
    mul_le_mul_of_nonneg_left hlog (by linarith)
  rw [mul_sub, mul_sub] at h4
  linarith

theorem lagPre_some {y : n → ℝ} {x : Matrix n k ℝ} {W : Matrix n n ℝ} {p : LagPre n k}
    (h : lagPre y x W = some p) (rho : ℝ) :
    IsUnit (xᵀ * x).det ∧ p.e0 - rho • p.e1 = (olsWith x (y - rho • (W *ᵥ y)) (xᵀ * x)⁻¹).u ∧
    p.b0 - rho • p.b1 = (olsWith x (y - rho • (W *ᵥ y)) (xᵀ * x)⁻¹).betas := by
  unfold lagPre at h
  rw [Option.map_eq_some_iff] at h
  obtain ⟨B, hB, rfl⟩ := h
  obtain ⟨hu, rfl, -⟩ := inv?_eq_some hB
  refine ⟨hu, ?_, ?_⟩
  · simp only [olsWith, mulVec_sub, mulVec_smul, smul_sub]
    abel
  · simp only [olsWith, mulVec_sub, mulVec_smul]

/-- C37: for every value of `rho` the residuals of ML_Lag are `y - rho*Wy - x*b`, they are orthogonal to
every column of `x`, `predy = y - u`, and `sig2` is their mean square. -/
theorem C37_lag_residuals (y : n → ℝ) (x : Matrix n k ℝ) (W : Matrix n n ℝ) (p : LagPre n k)
    (h : lagPre y x W = some p) (rho jac : ℝ) :
    (∀ i, (lagFit p y rho jac).u i = y i - rho * (∑ j, W i j * y j) - ∑ j, x i j * (lagFit p y rho jac).b j) ∧
    (∀ j, ∑ i, x i j * (lagFit p y rho jac).u i = 0) ∧
    (∀ i, y i = (lagFit p y rho jac).predy i + (lagFit p y rho jac).u i) ∧
    (lagFit p y rho jac).sig2 = (∑ i, (lagFit p y rho jac).u i ^ 2) / Fintype.card n := by
  obtain ⟨hu, h1, h2⟩ := lagPre_some h rho
  refine ⟨fun i => ?_, fun j => ?_, fun i => by simp [lagFit], rfl⟩
  · have : (lagFit p y rho jac).u = (olsWith x (y - rho • (W *ᵥ y)) (xᵀ * x)⁻¹).u := h1
    rw [this]
    have : (lagFit p y rho jac).b = (olsWith x (y - rho • (W *ᵥ y)) (xᵀ * x)⁻¹).betas := h2
    rw [this]
    show (y - rho • (W *ᵥ y)) i - (x *ᵥ (olsWith x (y - rho • (W *ᵥ y)) (xᵀ * x)⁻¹).betas) i = _
    rfl
  · have := congrFun (normal_eq x (y - rho • (W *ᵥ y)) hu) j
    show ∑ i, x i j * (p.e0 - rho • p.e1) i = 0
    rw [h1]
    simpa [mulVec, dotProduct] using this

/-- C37: the reported log-likelihood of ML_Lag is the Gaussian log-likelihood at the reported coefficients
and variance, and for this `rho` no other coefficients and variance have a larger one. (`jac` is the
Jacobian term, see C35.) -/
theorem C37_lag_loglik (y : n → ℝ) (x : Matrix n k ℝ) (W : Matrix n n ℝ) (p : LagPre n k)
    (h : lagPre y x W = some p) (rho jac : ℝ) (h0 : (lagFit p y rho jac).u ≠ 0) :
    (lagFit p y rho jac).logll = gaussLL (lagFit p y rho jac).u (lagFit p y rho jac).sig2 jac ∧
    ∀ (c : k → ℝ) (s2 : ℝ), 0 < s2 →
      gaussLL (fun i => y i - rho * (∑ j, W i j * y j) - ∑ j, x i j * c j) s2 jac ≤ (lagFit p y rho jac).logll := by
  obtain ⟨hu, h1, h2⟩ := lagPre_some h rho
  have hpos : 0 < utu (lagFit p y rho jac).u :=
    lt_of_le_of_ne (utu_nonneg _) fun e => h0 ((utu_eq_zero _).1 e.symm)
  have hll : (lagFit p y rho jac).logll = gaussLL (lagFit p y rho jac).u
      (utu (lagFit p y rho jac).u / Fintype.card n) jac := by
    rw [(gaussLL_max _ _ jac hpos le_rfl 1 one_pos).2]
    show -(lagCLoglik p rho jac) - _ - _ = _
    unfold lagCLoglik
    dsimp only
    rw [← utu_eq_dot]
    show _ = -(Fintype.card n : ℝ) / 2 * Real.log (2 * Real.pi)
      - (Fintype.card n : ℝ) / 2 * Real.log (utu (p.e0 - rho • p.e1) / Fintype.card n) + jac - _
    ring
  refine ⟨hll, fun c s2 hs => ?_⟩
  rw [hll]
  refine (gaussLL_max _ _ jac hpos ?_ s2 hs).1
  have := ssr_decomp x (y - rho • (W *ᵥ y)) hu c
  have e : (fun i => y i - rho * (∑ j, W i j * y j) - ∑ j, x i j * c j) = y - rho • (W *ᵥ y) - x *ᵥ c := by
    funext i; simp [mulVec, dotProduct]
  rw [e, this]
  have hn := utu_nonneg (x *ᵥ ((olsWith x (y - rho • (W *ᵥ y)) (xᵀ * x)⁻¹).betas - c))
  have e3 : (lagFit p y rho jac).u = (olsWith x (y - rho • (W *ᵥ y)) (xᵀ * x)⁻¹).u := h1
  rw [e3]; linarith

/-- Non-vacuity for C37: two neighbours, a constant; residuals are not zero. -/
example : ∃ p, lagPre (![1, 3] : Fin 2 → ℝ) !![1; 1] !![0, 1; 1, 0] = some p ∧
    (lagFit p ![1, 3] (1/2) 0).u ≠ 0 := by
  have hu : IsUnit ((!![1; 1] : Matrix (Fin 2) (Fin 1) ℝ)ᵀ * (!![1; 1] : Matrix (Fin 2) (Fin 1) ℝ)).det := by
    rw [isUnit_iff_ne_zero, det_fin_one]; simp [Matrix.mul_apply]
  refine ⟨_, by unfold lagPre; rw [inv?_of_isUnit hu]; rfl, fun e => ?_⟩
  obtain ⟨h1, -⟩ := C37_lag_residuals (![1, 3] : Fin 2 → ℝ) !![1; 1] !![0, 1; 1, 0] _
    (by unfold lagPre; rw [inv?_of_isUnit hu]; rfl) (1/2) 0
  have a := h1 0
  have b := h1 1
  rw [e] at a b
  simp at a b
  linarith

theorem errSig2_eq (xs : Matrix n k ℝ) (ys : n → ℝ) (hu : IsUnit (xsᵀ * xs).det) :
    errSig2 (xsᵀ * xs)⁻¹ xs ys = utu (olsWith xs ys (xsᵀ * xs)⁻¹).u / Fintype.card n := by
  unfold errSig2
  dsimp only
  congr 1
  have hn := normal_eq xs ys hu
  have e1 : (olsWith xs ys (xsᵀ * xs)⁻¹).u = ys - xs *ᵥ ((xsᵀ * xs)⁻¹ *ᵥ (xsᵀ *ᵥ ys)) := rfl
  have e2 : (olsWith xs ys (xsᵀ * xs)⁻¹).u ⬝ᵥ (xs *ᵥ ((xsᵀ * xs)⁻¹ *ᵥ (xsᵀ *ᵥ ys))) = 0 := by
    rw [dotProduct_mulVec, ← mulVec_transpose, hn, zero_dotProduct]
  have e3 : (olsWith xs ys (xsᵀ * xs)⁻¹).u ⬝ᵥ (olsWith xs ys (xsᵀ * xs)⁻¹).u =
      (olsWith xs ys (xsᵀ * xs)⁻¹).u ⬝ᵥ ys := by
    have : (olsWith xs ys (xsᵀ * xs)⁻¹).u ⬝ᵥ (ys - xs *ᵥ ((xsᵀ * xs)⁻¹ *ᵥ (xsᵀ *ᵥ ys))) =
      (olsWith xs ys (xsᵀ * xs)⁻¹).u ⬝ᵥ ys := by rw [dotProduct_sub, e2, sub_zero]
    exact this
  rw [utu_eq_dot, e3, e1, sub_dotProduct]
  congr 1
  rw [dotProduct_comm (xs *ᵥ _) ys, dotProduct_mulVec ys, ← mulVec_transpose]

/-- C37 for ML_Error: filtered residuals are those of the spatially filtered regression, they are
orthogonal to the filtered regressors; the variance inside the objective is the reported one; the reported
log-likelihood is the Gaussian one and is maximal over coefficients and variance for this lambda. -/
theorem C37_err (y : n → ℝ) (x : Matrix n k ℝ) (W : Matrix n n ℝ) (lam jac : ℝ) (f : ErrFit n k)
    (h : errFit y x W lam jac = some f) :
    (∀ i, f.u i = y i - ∑ j, x i j * f.b j) ∧
    (∀ i, f.eFiltered i = (y - lam • (W *ᵥ y)) i - ∑ j, (x - lam • (W * x)) i j * f.b j) ∧
    (∀ j, ∑ i, (x - lam • (W * x)) i j * f.eFiltered i = 0) ∧
    errSig2 f.xsxsi (x - lam • (W * x)) (y - lam • (W *ᵥ y)) = f.sig2 ∧
    f.sig2 = (∑ i, f.eFiltered i ^ 2) / Fintype.card n ∧
    (f.eFiltered ≠ 0 → f.logll = gaussLL f.eFiltered f.sig2 jac ∧
      ∀ (c : k → ℝ) (s2 : ℝ), 0 < s2 →
        gaussLL (fun i => (y - lam • (W *ᵥ y)) i - ∑ j, (x - lam • (W * x)) i j * c j) s2 jac ≤ f.logll) := by
  unfold errFit at h
  rw [Option.map_eq_some_iff] at h
  obtain ⟨B, hB, rfl⟩ := h
  obtain ⟨hu, rfl, -⟩ := inv?_eq_some hB
  have hef : (y - x *ᵥ (((x - lam • (W * x))ᵀ * (x - lam • (W * x)))⁻¹ *ᵥ ((x - lam • (W * x))ᵀ *ᵥ
        (y - lam • (W *ᵥ y))))) - lam • (W *ᵥ (y - x *ᵥ (((x - lam • (W * x))ᵀ * (x - lam • (W * x)))⁻¹ *ᵥ
        ((x - lam • (W * x))ᵀ *ᵥ (y - lam • (W *ᵥ y)))))) = (olsWith (x - lam • (W * x)) (y - lam • (W *ᵥ y))
          ((x - lam • (W * x))ᵀ * (x - lam • (W * x)))⁻¹).u := by
    have : ∀ b : k → ℝ, (y - x *ᵥ b) - lam • (W *ᵥ (y - x *ᵥ b)) =
        (y - lam • (W *ᵥ y)) - (x - lam • (W * x)) *ᵥ b := by
      intro b
      rw [sub_mulVec, smul_mulVec, mulVec_sub, mulVec_mulVec, smul_sub]
      abel
    exact this _
  have hsig := errSig2_eq (x - lam • (W * x)) (y - lam • (W *ᵥ y)) hu
  dsimp only
  rw [hef]
  clear hef
  generalize x - lam • (W * x) = xs at *
  generalize y - lam • (W *ᵥ y) = ys at *
  refine ⟨fun i => rfl, fun i => rfl, fun j => ?_, ?_, ?_, fun h0 => ?_⟩
  · have := congrFun (normal_eq xs ys hu) j
    exact this
  · rw [hsig, utu_eq_dot]
  · rw [← utu_eq_dot]; rfl
  · have hpos : 0 < utu (olsWith xs ys (xsᵀ * xs)⁻¹).u :=
      lt_of_le_of_ne (utu_nonneg _) fun e => h0 ((utu_eq_zero _).1 e.symm)
    rw [hsig, ← utu_eq_dot]
    have hll := (gaussLL_max _ _ jac hpos le_rfl 1 one_pos).2
    refine ⟨by rw [hll]; ring, fun c s2 hs => ?_⟩
    have e : (fun i => ys i - ∑ j, xs i j * c j) = ys - xs *ᵥ c := rfl
    have := (gaussLL_max (olsWith xs ys (xsᵀ * xs)⁻¹).u (ys - xs *ᵥ c) jac hpos (by
      rw [ssr_decomp xs ys hu c]
      have := utu_nonneg (xs *ᵥ ((olsWith xs ys (xsᵀ * xs)⁻¹).betas - c))
      linarith) s2 hs).1
    rw [e]
    refine this.trans (le_of_eq ?_)
    rw [hll]; ring

/-! ### C67 -/

/-- The inequality behind the information matrices: `n (tr G² + tr G'G) ≥ 2 (tr G)²`. -/
theorem trace_ineq (G : Matrix n n ℝ) :
    2 * G.trace ^ 2 ≤ Fintype.card n * ((G * G).trace + (Gᵀ * G).trace) := by
  have h1 : G.trace ^ 2 ≤ Fintype.card n * ∑ i, G i i ^ 2 := by
    have := sq_sum_le_card_mul_sum_sq (s := (Finset.univ : Finset n)) (f := fun i => G i i)
    simpa [Matrix.trace] using this
  have h2 : (G * G).trace + (Gᵀ * G).trace = ∑ i, ∑ j, (G i j + G j i) ^ 2 / 2 := by
    have a : (G * G).trace = ∑ i, ∑ j, G i j * G j i := by simp [Matrix.trace, Matrix.mul_apply]
    have b : (Gᵀ * G).trace = ∑ i, ∑ j, G j i ^ 2 := by
      simp [Matrix.trace, Matrix.mul_apply, pow_two]
    have c : (∑ i, ∑ j, G j i ^ 2) = ∑ i, ∑ j, G i j ^ 2 := Finset.sum_comm
    have d : ∑ i, ∑ j, (G i j + G j i) ^ 2 / 2 =
        (∑ i, ∑ j, G i j * G j i) + ((∑ i, ∑ j, G i j ^ 2) + ∑ i, ∑ j, G j i ^ 2) / 2 := by
      rw [← Finset.sum_add_distrib, Finset.sum_div, ← Finset.sum_add_distrib]
      refine Finset.sum_congr rfl fun i _ => ?_
      rw [← Finset.sum_add_distrib, Finset.sum_div, ← Finset.sum_add_distrib]
      refine Finset.sum_congr rfl fun j _ => ?_
      ring
    rw [a, b, d, c]; ring
  have h3 : ∑ i, 2 * G i i ^ 2 ≤ ∑ i, ∑ j, (G i j + G j i) ^ 2 / 2 := by
    refine Finset.sum_le_sum fun i _ => ?_
    have := Finset.single_le_sum (f := fun j => (G i j + G j i) ^ 2 / 2)
      (fun j _ => by positivity) (Finset.mem_univ i)
    refine le_trans (le_of_eq ?_) this
    ring
  rw [← Finset.mul_sum] at h3
  rw [h2]
  have hn : (0 : ℝ) ≤ Fintype.card n := Nat.cast_nonneg _
  nlinarith

theorem two_by_two (N s a b t : ℝ) (hN : 0 < N) (h : 2 * t ^ 2 ≤ N * a) :
    0 ≤ b ^ 2 * a + 2 * b * s * t + s ^ 2 * (N / 2) := by
  have : 0 ≤ (N * s + 2 * b * t) ^ 2 := sq_nonneg _
  have h2 : b ^ 2 * (2 * t ^ 2) ≤ b ^ 2 * (N * a) := mul_le_mul_of_nonneg_left h (sq_nonneg _)
  have h3 : 0 ≤ 2 * N * (b ^ 2 * a + 2 * b * s * t + s ^ 2 * (N / 2)) := by nlinarith
  exact nonneg_of_mul_nonneg_right h3 (by linarith)

/-- The information matrix of ML_Lag as a quadratic form. -/
theorem lagInfo_quad (x : Matrix n k ℝ) (wpy : n → ℝ) (sig2 : ℝ) (hs : sig2 ≠ 0) (tr1 tr2 tr3 : ℝ)
    (v : k ⊕ (Unit ⊕ Unit) → ℝ) (a : k → ℝ) (r s : ℝ) (ha : a = fun i => v (.inl i)) (hr : r = v (.inr (.inl ())))
    (hsv : s = v (.inr (.inr ()))) :
    ∑ i, ∑ j, v i * lagInfo x wpy sig2 (tr1, tr2, tr3) i j * v j =
        ((x *ᵥ a + r • wpy) ⬝ᵥ (x *ᵥ a + r • wpy)) / sig2 +
        (r ^ 2 * (tr2 + tr3) + 2 * r * (s / sig2) * tr1 + (s / sig2) ^ 2 * (Fintype.card n / 2)) := by
  subst ha hr hsv
  set a : k → ℝ := fun i => v (.inl i)
  set r : ℝ := v (.inr (.inl ()))
  set s : ℝ := v (.inr (.inr ()))
  have hg : (x *ᵥ a + r • wpy) ⬝ᵥ (x *ᵥ a + r • wpy) =
      (∑ i, ∑ j, a i * (xᵀ * x) i j * a j) + 2 * r * (∑ i, a i * (xᵀ *ᵥ wpy) i) + r ^ 2 * (wpy ⬝ᵥ wpy) := by
    rw [quad_eq]
    have e1 : (∑ i, a i * (xᵀ *ᵥ wpy) i) = (x *ᵥ a) ⬝ᵥ wpy := by
      show a ⬝ᵥ (xᵀ *ᵥ wpy) = _
      rw [dotProduct_mulVec, vecMul_transpose]
    have e2 : a ⬝ᵥ ((xᵀ * x) *ᵥ a) = (x *ᵥ a) ⬝ᵥ (x *ᵥ a) := by
      rw [← mulVec_mulVec, dotProduct_mulVec, vecMul_transpose]
    rw [e1, e2]
    simp only [add_dotProduct, dotProduct_add, smul_dotProduct, dotProduct_smul, smul_eq_mul]
    rw [dotProduct_comm wpy (x *ᵥ a)]
    ring
  rw [hg]
  simp only [Fintype.sum_sum_type, Finset.univ_unique, Finset.sum_singleton, lagInfo, Matrix.of_apply,
    PUnit.default_eq_unit]
  have f1 : (∑ i, ∑ j, a i * ((xᵀ * x) i j / sig2) * a j) = (∑ i, ∑ j, a i * (xᵀ * x) i j * a j) / sig2 := by
    rw [Finset.sum_div]; refine Finset.sum_congr rfl fun i _ => ?_
    rw [Finset.sum_div]; refine Finset.sum_congr rfl fun j _ => ?_
    ring
  have f2 : (∑ i, a i * ((xᵀ *ᵥ wpy) i / sig2) * r) = r * (∑ i, a i * (xᵀ *ᵥ wpy) i) / sig2 := by
    rw [Finset.mul_sum, Finset.sum_div]; refine Finset.sum_congr rfl fun i _ => ?_
    ring
  have f3 : (∑ i, r * ((xᵀ *ᵥ wpy) i / sig2) * a i) = r * (∑ i, a i * (xᵀ *ᵥ wpy) i) / sig2 := by
    rw [Finset.mul_sum, Finset.sum_div]; refine Finset.sum_congr rfl fun i _ => ?_
    ring
  simp only [Finset.sum_add_distrib, mul_zero, zero_mul, Finset.sum_const_zero, add_zero, zero_add]
  change (∑ i, ∑ j, a i * ((xᵀ * x) i j / sig2) * a j) + (∑ i, a i * ((xᵀ *ᵥ wpy) i / sig2) * r) +
    ((∑ i, r * ((xᵀ *ᵥ wpy) i / sig2) * a i) + (r * (tr2 + tr3 + wpy ⬝ᵥ wpy / sig2) * r +
      r * (tr1 / sig2) * s) + (s * (tr1 / sig2) * r + s * (Fintype.card n / (2 * sig2 ^ 2)) * s)) = _
  rw [f1, f2, f3]
  field_simp
  ring

/-- C67: the information matrix of ML_Lag is symmetric positive semidefinite, for every `W`, `rho`, data and
positive `sig2`. -/
theorem C67_lag_info [Nonempty n] (x : Matrix n k ℝ) (wpy : n → ℝ) (sig2 : ℝ) (hs : 0 < sig2) (W : Matrix n n ℝ)
    (rho : ℝ) (t : ℝ × ℝ × ℝ) (ht : traces W rho = some t) : SymPSD (lagInfo x wpy sig2 t) := by
  unfold traces at ht
  rw [Option.map_eq_some_iff] at ht
  obtain ⟨ai, -, rfl⟩ := ht
  have hT := trace_ineq (W * ai)
  have hn : (0 : ℝ) < Fintype.card n := by exact_mod_cast Fintype.card_pos
  set tr1 := (W * ai).trace
  set tr2 := (W * ai * (W * ai)).trace
  set tr3 := ((W * ai)ᵀ * (W * ai)).trace
  refine ⟨?_, fun v => ?_⟩
  · ext i j
    rcases i with i | i | i <;> rcases j with j | j | j <;> simp [lagInfo]
    · rw [← transpose_apply (xᵀ * x), transpose_mul, transpose_transpose]
  · set a : k → ℝ := fun i => v (.inl i)
    set r : ℝ := v (.inr (.inl ()))
    set s : ℝ := v (.inr (.inr ()))
    have hq := lagInfo_quad x wpy sig2 hs.ne' tr1 tr2 tr3 v a r s rfl rfl rfl
    show 0 ≤ ∑ i, ∑ j, v i * lagInfo x wpy sig2 (tr1, tr2, tr3) i j * v j
    rw [hq]
    refine add_nonneg (div_nonneg ?_ hs.le) (two_by_two _ _ _ _ _ hn hT)
    rw [← utu_eq_dot]; exact utu_nonneg _

/-- C67: hence the variances reported by ML_Lag (diagonal of the inverse) are nonnegative. -/
theorem C67_lag_variances [Nonempty n] (x : Matrix n k ℝ) (wpy : n → ℝ) (sig2 : ℝ) (hs : 0 < sig2)
    (W : Matrix n n ℝ) (rho : ℝ) (t : ℝ × ℝ × ℝ) (ht : traces W rho = some t)
    (vm : Matrix (k ⊕ (Unit ⊕ Unit)) (k ⊕ (Unit ⊕ Unit)) ℝ) (hv : inv? (lagInfo x wpy sig2 t) = some vm)
    (i : k ⊕ (Unit ⊕ Unit)) : 0 < vm i i := by
  obtain ⟨-, -, h1, -⟩ := inv?_eq_some hv
  have := LM.psd_inv (C67_lag_info x wpy sig2 hs W rho t ht) h1 (Pi.single i 1)
  have e : (Pi.single i 1 : _ → ℝ) ⬝ᵥ (vm *ᵥ Pi.single i 1) = vm i i := by simp [mulVec_single]
  rw [e] at this
  refine lt_of_le_of_ne this.1 fun h => ?_
  have h2 := congrFun (this.2.1 h.symm) i
  simp at h2

/-- C67: the information matrix of ML_Error is symmetric positive semidefinite, and the covariance matrix
of its coefficients, whenever it exists, has nonnegative variances, strictly positive for lambda. -/
theorem C67_err [Nonempty n] (sig2 : ℝ) (hs : 0 < sig2) (W : Matrix n n ℝ) (lam : ℝ) (t : ℝ × ℝ × ℝ)
    (ht : traces W lam = some t) :
    SymPSD (errInfo (Fintype.card n) sig2 t) ∧
    ∀ (xs : Matrix n k ℝ), IsUnit (xsᵀ * xs).det → ∀ vm, errVm (Fintype.card n) sig2 (xsᵀ * xs)⁻¹ t = some vm →
      SymPSD vm ∧ 0 < vm (.inr ()) (.inr ()) := by
  unfold traces at ht
  rw [Option.map_eq_some_iff] at ht
  obtain ⟨ai, -, rfl⟩ := ht
  have hT := trace_ineq (W * ai)
  have hn : (0 : ℝ) < Fintype.card n := by exact_mod_cast Fintype.card_pos
  set tr1 := (W * ai).trace
  set tr2 := (W * ai * (W * ai)).trace
  set tr3 := ((W * ai)ᵀ * (W * ai)).trace
  have hpsd : SymPSD (errInfo (Fintype.card n) sig2 (tr1, tr2, tr3)) := by
    refine ⟨?_, fun v => ?_⟩
    · ext i j; fin_cases i <;> fin_cases j <;> simp [errInfo]
    · have := two_by_two (Fintype.card n) (v 1 / sig2) (tr2 + tr3) (v 0) tr1 hn hT
      refine this.trans (le_of_eq ?_)
      simp only [Fin.sum_univ_two, errInfo, Matrix.of_apply, Matrix.cons_val', Matrix.cons_val_zero,
        Matrix.cons_val_one, Matrix.empty_val', Matrix.cons_val_fin_one]
      field_simp
      ring
  refine ⟨hpsd, fun xs hxs vm hvm => ?_⟩
  unfold errVm at hvm
  rw [Option.map_eq_some_iff] at hvm
  obtain ⟨vm1, h1, rfl⟩ := hvm
  obtain ⟨-, -, h2, -⟩ := inv?_eq_some h1
  have h3 := LM.psd_inv hpsd h2 (Pi.single 0 1)
  have e : (Pi.single 0 1 : _ → ℝ) ⬝ᵥ (vm1 *ᵥ Pi.single 0 1) = vm1 0 0 := by simp [mulVec_single]
  rw [e] at h3
  have hpos : 0 < vm1 0 0 := by
    refine lt_of_le_of_ne h3.1 fun h => ?_
    have h2 := congrFun (h3.2.1 h.symm) 0
    simp at h2
  have hx := psd_smul (psd_inv_gram xs hxs) sig2 hs.le
  refine ⟨⟨?_, fun v => ?_⟩, by simpa using hpos⟩
  · rw [fromBlocks_transpose, hx.1]
    congr 1
  · have h5 := hx.2 (fun i => v (.inl i))
    simp only [Fintype.sum_sum_type, Finset.univ_unique, Finset.sum_singleton, fromBlocks_apply₁₁,
      fromBlocks_apply₁₂, fromBlocks_apply₂₁, fromBlocks_apply₂₂, Matrix.of_apply, Matrix.zero_apply,
      mul_zero, zero_mul, Finset.sum_const_zero, add_zero, zero_add]
    refine add_nonneg h5 ?_
    have : 0 ≤ v (.inr default) ^ 2 * vm1 0 0 := mul_nonneg (sq_nonneg _) hpos.le
    nlinarith

/-- Non-vacuity for C67: traces of a line of three units at `rho = 0`. -/
example : traces (rowStd (path3 1 1)) 0 = some (0, 2, 5/2) ∧
    ∃ vm, errVm 3 1 ((1 : Matrix (Fin 1) (Fin 1) ℝ)ᵀ * 1)⁻¹ (0, 2, 5/2) = some vm := by
  refine ⟨C36_violated.1, ?_⟩
  unfold errVm
  rw [inv?_of_isUnit]
  · exact ⟨_, rfl⟩
  · rw [isUnit_iff_ne_zero, det_fin_two]; simp [errInfo]; norm_num

end Spreg.ML
