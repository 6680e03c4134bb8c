import Verif.Props.PanelML
/-
C95-C97: the log-likelihoods of the panel estimators are the maximal Gaussian log-likelihoods for the reported spatial
parameter (and ratio of variances).
-/
namespace Spreg.PanelML
open Matrix Spreg.Lin Spreg.ML Spreg.Gauss
open scoped Kronecker

variable {τ n k : Type} [Fintype τ] [Fintype n] [Fintype k] [DecidableEq τ] [DecidableEq n] [DecidableEq k]

/-! ### Lemmas -/

theorem mix_apply (P B : Matrix n n ℝ) (e : τ × n → ℝ) (a : τ × n) :
    (mix τ P B *ᵥ e) a = (∑ j, B a.2 j * e (a.1, j)) +
      ∑ j, (P a.2 j - B a.2 j) * ((∑ s, e (s, j)) / Fintype.card τ) := by
  simp only [mulVec, dotProduct, mix, Jb, Matrix.add_apply, kroneckerMap_apply, Matrix.sub_apply, of_apply, one_apply,
    Fintype.sum_prod_type]
  rw [Finset.sum_comm, ← Finset.sum_add_distrib]
  refine Finset.sum_congr rfl fun j _ => ?_
  have : ∀ s, (1 / (Fintype.card τ : ℝ) * P a.2 j + ((if a.1 = s then 1 else 0) - 1 / (Fintype.card τ : ℝ)) * B a.2 j) * e (s, j) =
      (if a.1 = s then B a.2 j * e (s, j) else 0) + (P a.2 j - B a.2 j) * (e (s, j) / Fintype.card τ) := by
    intro s; split_ifs <;> ring
  rw [Finset.sum_congr rfl fun s _ => this s, Finset.sum_add_distrib, Finset.sum_ite_eq, if_pos (Finset.mem_univ _),
    ← Finset.mul_sum, Finset.sum_div]

/-- `demean_panel` with `phi = 0` subtracts the mean over time of each unit. -/
theorem quasi0_apply (e : τ × n → ℝ) (a : τ × n) :
    (quasi τ n 0 *ᵥ e) a = e a - (∑ s, e (s, a.2)) / Fintype.card τ := by
  rw [quasi_eq, mix_apply]
  simp [one_apply, sub_eq_add_neg]

theorem quasi_comm (W : Matrix n n ℝ) [Nonempty τ] (phi : ℝ) : quasi τ n phi * bigW τ W = bigW τ W * quasi τ n phi := by
  rw [quasi_eq, bigW_eq, mix_mul, mix_mul]; simp

theorem utu_quasi0_le [Nonempty τ] (e : τ × n → ℝ) : utu (quasi τ n 0 *ᵥ e) ≤ utu e := by
  have hs : (quasi τ n 0)ᵀ = quasi τ n 0 := by rw [quasi_eq, mix_transpose]; simp
  have hi : quasi τ n 0 * quasi τ n 0 = quasi τ n 0 := by rw [quasi_eq, mix_mul]; simp
  have h0 : (quasi τ n 0 *ᵥ e) ⬝ᵥ (e - quasi τ n 0 *ᵥ e) = 0 := by
    have hm : ∀ v, (quasi τ n 0 *ᵥ e) ⬝ᵥ v = e ⬝ᵥ (quasi τ n 0 *ᵥ v) := fun v => by
      rw [dotProduct_mulVec e (quasi τ n 0) v, ← mulVec_transpose, hs]
    rw [hm, mulVec_sub, mulVec_mulVec, hi, sub_self, dotProduct_zero]
  have h1 : e = quasi τ n 0 *ᵥ e + (e - quasi τ n 0 *ᵥ e) := by abel
  have h2 : utu e = utu (quasi τ n 0 *ᵥ e) + utu (e - quasi τ n 0 *ᵥ e) := by
    conv_lhs => rw [h1]
    rw [utu_eq_dot, utu_eq_dot, utu_eq_dot, add_dotProduct, dotProduct_add, dotProduct_add, h0,
      dotProduct_comm (e - _), h0]
    ring
  have := utu_nonneg (e - quasi τ n 0 *ᵥ e)
  linarith

theorem quasi0_unit [Nonempty τ] (mu : n → ℝ) : quasi τ n 0 *ᵥ (fun a : τ × n => mu a.2) = 0 := by
  funext a
  rw [quasi0_apply]
  have : (Fintype.card τ : ℝ) ≠ 0 := by exact_mod_cast Fintype.card_ne_zero
  simp [this]

theorem one_sub_bigW (W : Matrix n n ℝ) (rho : ℝ) : 1 - rho • bigW τ W = bigW τ (1 - rho • W) := by
  rw [bigW_eq, bigW_eq, ← mix_one, mix_smul, mix_sub]

theorem det_bigW (B : Matrix n n ℝ) : (bigW τ B).det = B.det ^ Fintype.card τ := by
  unfold bigW; rw [det_kronecker, det_one, one_pow, one_mul]

theorem log_det_bigW (W : Matrix n n ℝ) (rho : ℝ) : Real.log |(1 - rho • bigW τ W).det| = jacob τ W rho := by
  rw [one_sub_bigW, det_bigW, abs_pow, Real.log_pow]; rfl

theorem det_bigW_isUnit (W : Matrix n n ℝ) (rho : ℝ) (hA : IsUnit (1 - rho • W).det) :
    IsUnit (1 - rho • bigW τ W).det := by
  rw [one_sub_bigW, det_bigW]; exact hA.pow _

theorem card_prod : (Fintype.card (τ × n) : ℝ) = NT τ n := by
  unfold NT; rw [Fintype.card_prod]; push_cast; ring

theorem sub_smul_bigW (W : Matrix n n ℝ) (rho : ℝ) (y : τ × n → ℝ) :
    (1 - rho • bigW τ W) *ᵥ y = y - rho • (bigW τ W *ᵥ y) := by
  rw [sub_mulVec, one_mulVec, smul_mulVec]

/-- The residual sum of squares of the least squares fit is minimal, and attained. -/
theorem ols_min (x : Matrix n k ℝ) (y : n → ℝ) (hu : IsUnit (xᵀ * x).det) (c : k → ℝ) :
    utu (olsWith x y (xᵀ * x)⁻¹).u ≤ utu (y - x *ᵥ c) := by
  rw [ssr_decomp x y hu c]
  have := utu_nonneg (x *ᵥ ((olsWith x y (xᵀ * x)⁻¹).betas - c))
  linarith

/-! ### C95: fixed effects -/

/-- C95 for ML_LagFE: for the reported rho, `logll` is the log-likelihood of the spatial lag model with a free intercept for
every unit at the reported coefficients and `sig2`, and no coefficients, intercepts and variance have a larger one. -/
theorem C95_lagFE [Nonempty τ] (y : τ × n → ℝ) (x : Matrix (τ × n) k ℝ) (W : Matrix n n ℝ) (rho : ℝ) (f : LagFit τ n k)
    (h : lagFE y x W rho = some f) (hA : IsUnit (1 - rho • W).det) (h0 : f.u ≠ 0) :
    (∃ mu : n → ℝ, lagLL (panelW τ W) 1 rho f.sig2 (fun a => ∑ j, x a j * f.b j + mu a.2) y = f.logll) ∧
    ∀ (c : k → ℝ) (mu : n → ℝ) (s2 : ℝ), 0 < s2 →
      lagLL (panelW τ W) 1 rho s2 (fun a => ∑ j, x a j * c j + mu a.2) y ≤ f.logll := by
  unfold lagFE at h
  simp only [Option.map_eq_some_iff] at h
  obtain ⟨p, hp, rfl⟩ := h
  obtain ⟨hu, h1, h2⟩ := lagPre_some hp rho
  dsimp only at h0 ⊢
  have hA' := det_bigW_isUnit (τ := τ) W rho hA
  set A := (1 - rho • bigW τ W) with hAd
  have hpos : 0 < utu (p.e0 - rho • p.e1) := lt_of_le_of_ne (utu_nonneg _) fun e => h0 ((utu_eq_zero _).1 e.symm)
  have hval : ∀ s2, 0 < s2 → ∀ m, lagLL (panelW τ W) 1 rho s2 m y = gaussLL (A *ᵥ y - m) s2 (jacob τ W rho) := by
    intro s2 hs m
    rw [← bigW_spec, lagLL_eq (bigW τ W) 1 1 rho s2 hs m y hA' (by rw [det_one]; exact isUnit_one) (by simp)]
    rw [one_mulVec, one_mulVec, det_one, abs_one, Real.log_one, zero_add, log_det_bigW]
  have hxm : ∀ (c : k → ℝ) (mu : n → ℝ), (fun a : τ × n => ∑ j, x a j * c j + mu a.2) = x *ᵥ c + fun a => mu a.2 :=
    fun c mu => rfl
  have hQA : quasi τ n 0 *ᵥ (A *ᵥ y) = quasi τ n 0 *ᵥ y - rho • (bigW τ W *ᵥ (quasi τ n 0 *ᵥ y)) := by
    rw [hAd, sub_smul_bigW, mulVec_sub, mulVec_smul, mulVec_mulVec, mulVec_mulVec, quasi_comm]
  have hQ : ∀ (c : k → ℝ) (mu : n → ℝ), quasi τ n 0 *ᵥ (A *ᵥ y - (x *ᵥ c + fun a => mu a.2)) =
      quasi τ n 0 *ᵥ y - rho • (bigW τ W *ᵥ (quasi τ n 0 *ᵥ y)) - (quasi τ n 0 * x) *ᵥ c := by
    intro c mu
    rw [mulVec_sub, mulVec_add, hQA, quasi0_unit, add_zero, mulVec_mulVec c]
  have hmin : ∀ (c : k → ℝ) (mu : n → ℝ), utu (p.e0 - rho • p.e1) ≤ utu (A *ᵥ y - (x *ᵥ c + fun a => mu a.2)) := by
    intro c mu
    refine le_trans ?_ (utu_quasi0_le _)
    rw [hQ, h1]
    exact ols_min _ _ hu c
  have hll : addConst τ n (lagObj W p rho) = gaussLL (p.e0 - rho • p.e1)
      (utu (p.e0 - rho • p.e1) / Fintype.card (τ × n)) (jacob τ W rho) := by
    rw [(gaussLL_max _ _ (jacob τ W rho) hpos le_rfl 1 one_pos).2, card_prod]
    unfold addConst lagObj
    dsimp only
    rw [← utu_eq_dot]
    unfold NT
    ring
  have hs2 : ((p.e0 - rho • p.e1) ⬝ᵥ (p.e0 - rho • p.e1)) / NT τ n =
      utu (p.e0 - rho • p.e1) / Fintype.card (τ × n) := by rw [← utu_eq_dot, card_prod]
  have hNT : 0 < (Fintype.card (τ × n) : ℝ) := by
    rcases Nat.eq_zero_or_pos (Fintype.card (τ × n)) with h | h
    · haveI := Fintype.card_eq_zero_iff.1 h
      simp [utu] at hpos
    · exact_mod_cast h
  constructor
  · obtain ⟨mu, hmu⟩ : ∃ mu : n → ℝ, ∀ i, mu i =
        (∑ s, (A *ᵥ y - x *ᵥ (p.b0 - rho • p.b1)) (s, i)) / Fintype.card τ := ⟨_, fun _ => rfl⟩
    refine ⟨mu, ?_⟩
    rw [hs2, hval _ (div_pos hpos hNT), hxm, hll]
    congr 1
    have := hQ (p.b0 - rho • p.b1) 0
    have e : (x *ᵥ (p.b0 - rho • p.b1) + fun a : τ × n => (0 : n → ℝ) a.2) = x *ᵥ (p.b0 - rho • p.b1) := by
      funext a; simp
    rw [e] at this
    have hres : ∀ (X : Matrix (τ × n) k ℝ) Y B, (olsWith X Y B).u = Y - X *ᵥ (olsWith X Y B).betas := fun _ _ _ => rfl
    rw [h1, hres, ← h2, ← this]
    funext a
    rw [quasi0_apply]
    simp only [Pi.sub_apply, Pi.add_apply, hmu]
    ring
  · intro c mu s2 hs
    rw [hval s2 hs, hxm, hll]
    exact (gaussLL_max _ _ _ hpos (hmin c mu) s2 hs).1

/-- The residual sum of squares as computed by the error models. -/
theorem errSS_eq (xs : Matrix (τ × n) k ℝ) (ys : τ × n → ℝ) (hu : IsUnit (xsᵀ * xs).det) :
    errSS (xsᵀ * xs)⁻¹ xs ys = utu (olsWith xs ys (xsᵀ * xs)⁻¹).u := by
  have hn := normal_eq xs ys hu
  have e1 : (olsWith xs ys (xsᵀ * xs)⁻¹).u = ys - xs *ᵥ ((xsᵀ * xs)⁻¹ *ᵥ (xsᵀ *ᵥ ys)) := rfl
  have e2 : (olsWith xs ys (xsᵀ * xs)⁻¹).u ⬝ᵥ (xs *ᵥ ((xsᵀ * xs)⁻¹ *ᵥ (xsᵀ *ᵥ ys))) = 0 := by
    rw [dotProduct_mulVec, ← mulVec_transpose, hn, zero_dotProduct]
  rw [utu_eq_dot]
  conv_rhs => rw [e1]
  rw [dotProduct_sub, ← e1, e2, sub_zero, e1, sub_dotProduct]
  unfold errSS
  congr 1
  rw [dotProduct_comm _ ys, dotProduct_mulVec ys, ← mulVec_transpose]

/-- C95 for ML_ErrorFE: for the reported lambda, `logll` is the log-likelihood of the spatial error model with a free
intercept for every unit at the reported coefficients and `sig2`, and it is maximal. -/
theorem C95_errFE [Nonempty τ] (y : τ × n → ℝ) (x : Matrix (τ × n) k ℝ) (W : Matrix n n ℝ) (lam : ℝ) (f : ErrFit τ n k)
    (h : errFE true y x W lam = some f) (hA : IsUnit (1 - lam • W).det) (h0 : f.eFiltered ≠ 0) :
    (∃ mu : n → ℝ, errLL (panelW τ W) lam f.sig2 (fun a => ∑ j, x a j * f.b j + mu a.2) y = f.logll) ∧
    ∀ (c : k → ℝ) (mu : n → ℝ) (s2 : ℝ), 0 < s2 →
      errLL (panelW τ W) lam s2 (fun a => ∑ j, x a j * c j + mu a.2) y ≤ f.logll := by
  unfold errFE at h
  simp only [Option.map_eq_some_iff, if_true] at h
  obtain ⟨B, hB, rfl⟩ := h
  obtain ⟨hu, rfl, -⟩ := inv?_eq_some hB
  dsimp only at h0 ⊢
  have hA' := det_bigW_isUnit (τ := τ) W lam hA
  set A := (1 - lam • bigW τ W) with hAd
  have hys : quasi τ n 0 *ᵥ y - lam • (bigW τ W *ᵥ (quasi τ n 0 *ᵥ y)) = A *ᵥ (quasi τ n 0 *ᵥ y) := by
    rw [hAd, sub_smul_bigW]
  have hxs : quasi τ n 0 * x - lam • (bigW τ W * (quasi τ n 0 * x)) = A * (quasi τ n 0 * x) := by
    rw [hAd, Matrix.sub_mul, Matrix.one_mul, Matrix.smul_mul]
  rw [hxs] at hu
  rw [hys, hxs] at h0 ⊢
  clear hB
  set ys := A *ᵥ (quasi τ n 0 *ᵥ y) with hysd
  set xs := A * (quasi τ n 0 * x) with hxsd
  set b := (xsᵀ * xs)⁻¹ *ᵥ (xsᵀ *ᵥ ys) with hb
  have hef : quasi τ n 0 *ᵥ y - (quasi τ n 0 * x) *ᵥ b - lam • (bigW τ W *ᵥ (quasi τ n 0 *ᵥ y - (quasi τ n 0 * x) *ᵥ b)) =
      (olsWith xs ys (xsᵀ * xs)⁻¹).u := by
    rw [← sub_smul_bigW, ← hAd, mulVec_sub, mulVec_mulVec b]
    rfl
  rw [hef] at h0 ⊢
  rw [errSS_eq xs ys hu]
  set e := (olsWith xs ys (xsᵀ * xs)⁻¹).u with he
  have hpos : 0 < utu e := lt_of_le_of_ne (utu_nonneg _) fun e => h0 ((utu_eq_zero _).1 e.symm)
  have hval : ∀ s2, 0 < s2 → ∀ m, errLL (panelW τ W) lam s2 m y = gaussLL (A *ᵥ (y - m)) s2 (jacob τ W lam) := by
    intro s2 hs m
    rw [← bigW_spec, errLL_eq (bigW τ W) lam s2 hs m y hA', ← hAd, log_det_bigW, mulVec_sub]
  have hxm : ∀ (c : k → ℝ) (mu : n → ℝ), (fun a : τ × n => ∑ j, x a j * c j + mu a.2) = x *ᵥ c + fun a => mu a.2 :=
    fun c mu => rfl
  have hAQ : quasi τ n 0 * A = A * quasi τ n 0 := by
    rw [hAd, Matrix.mul_sub, Matrix.sub_mul, Matrix.mul_one, Matrix.one_mul, Matrix.mul_smul, Matrix.smul_mul, quasi_comm]
  have hQ : ∀ (c : k → ℝ) (mu : n → ℝ), quasi τ n 0 *ᵥ (A *ᵥ (y - (x *ᵥ c + fun a => mu a.2))) = ys - xs *ᵥ c := by
    intro c mu
    rw [mulVec_mulVec, hAQ, ← mulVec_mulVec, mulVec_sub, mulVec_add, quasi0_unit, add_zero, mulVec_sub, hysd, hxsd,
      mulVec_mulVec _ (quasi τ n 0) x, mulVec_mulVec c A]
  have hmin : ∀ (c : k → ℝ) (mu : n → ℝ), utu e ≤ utu (A *ᵥ (y - (x *ᵥ c + fun a => mu a.2))) := by
    intro c mu
    refine le_trans ?_ (utu_quasi0_le _)
    rw [hQ]
    exact ols_min _ _ hu c
  have hNT : 0 < (Fintype.card (τ × n) : ℝ) := by
    rcases Nat.eq_zero_or_pos (Fintype.card (τ × n)) with h | h
    · haveI := Fintype.card_eq_zero_iff.1 h
      simp [utu] at hpos
    · exact_mod_cast h
  have hll : addConst τ n ((Fintype.card n : ℝ) * Fintype.card τ / 2 * Real.log (utu e) - jacob τ W lam) +
      NT τ n / 2 * Real.log (NT τ n) = gaussLL e (utu e / Fintype.card (τ × n)) (jacob τ W lam) := by
    rw [(gaussLL_max _ _ (jacob τ W lam) hpos le_rfl 1 one_pos).2, Real.log_div hpos.ne' hNT.ne', card_prod]
    unfold addConst NT
    ring
  have hs2 : (e ⬝ᵥ e) / NT τ n = utu e / Fintype.card (τ × n) := by rw [← utu_eq_dot, card_prod]
  constructor
  · obtain ⟨mu, hmu⟩ : ∃ mu : n → ℝ, ∀ i, mu i = (∑ s, (y - x *ᵥ b) (s, i)) / Fintype.card τ := ⟨_, fun _ => rfl⟩
    refine ⟨mu, ?_⟩
    rw [hs2, hval _ (div_pos hpos hNT), hxm, hll]
    congr 1
    have e1 : y - (x *ᵥ b + fun a : τ × n => mu a.2) = quasi τ n 0 *ᵥ (y - x *ᵥ b) := by
      funext a
      rw [quasi0_apply]
      simp only [Pi.sub_apply, Pi.add_apply, hmu]
      ring
    rw [e1, mulVec_sub, mulVec_sub, mulVec_mulVec b (quasi τ n 0) x, mulVec_mulVec b A]
    rfl
  · intro c mu s2 hs
    rw [hval s2 hs, hxm, hll]
    exact (gaussLL_max _ _ _ hpos (hmin c mu) s2 hs).1

/-- C95 fails for the deprecated Panel_FE_Lag and Panel_FE_Error: their `logll` is smaller by `NT/2 log(NT)` than that of
ML_LagFE, ML_ErrorFE at the same parameter, so it is not the log-likelihood of the model unless `NT = 1`. -/
theorem C95_deprecated_violated [Nonempty τ] [Nonempty n] (y : τ × n → ℝ) (x : Matrix (τ × n) k ℝ) (W : Matrix n n ℝ)
    (p : ℝ) (hNT : 1 < Fintype.card (τ × n)) :
    (∀ f g, lagFE y x W p = some f → lagFEOld y x W p = some g → f.u ≠ 0 →
      g.logll = f.logll - NT τ n / 2 * Real.log (NT τ n) ∧ g.logll < f.logll) ∧
    (∀ f g, errFE true y x W p = some f → errFE false y x W p = some g →
      g.logll = f.logll - NT τ n / 2 * Real.log (NT τ n) ∧ g.logll < f.logll) := by
  have h1 : 1 < NT τ n := by rw [← card_prod]; exact_mod_cast hNT
  have hpos : 0 < NT τ n / 2 * Real.log (NT τ n) := mul_pos (by linarith) (Real.log_pos h1)
  constructor
  · intro f g hf hg hu
    unfold lagFE at hf
    unfold lagFEOld at hg
    simp only [Option.map_eq_some_iff] at hf hg
    obtain ⟨q, hq, rfl⟩ := hf
    obtain ⟨q', hq', rfl⟩ := hg
    rw [hq] at hq'
    obtain rfl := Option.some.inj hq'
    dsimp only at hu ⊢
    have : addConst τ n (lagObjOld W q p) = addConst τ n (lagObj W q p) - NT τ n / 2 * Real.log (NT τ n) := by
      unfold addConst lagObjOld lagObj
      dsimp only
      have h2 : (q.e0 - p • q.e1) ⬝ᵥ (q.e0 - p • q.e1) ≠ 0 := by
        rw [← utu_eq_dot]; exact fun e => hu ((utu_eq_zero _).1 e)
      have h3 : NT τ n ≠ 0 := by linarith
      have h4 : (Fintype.card n : ℝ) * Fintype.card τ = NT τ n := rfl
      rw [h4, Real.log_div h2 h3]
      ring
    exact ⟨this, by linarith⟩
  · intro f g hf hg
    unfold errFE at hf hg
    simp only [Option.map_eq_some_iff, if_true, Bool.false_eq_true, if_false] at hf hg
    obtain ⟨q, hq, rfl⟩ := hf
    obtain ⟨q', hq', rfl⟩ := hg
    rw [hq] at hq'
    obtain rfl := Option.some.inj hq'
    dsimp only
    constructor
    · ring
    · linarith

/-! ### C96: random effects, lag -/

theorem reCov_eq [Nonempty τ] (r : ℝ) :
    reCov τ n r = mix τ ((1 + Fintype.card τ * r) • (1 : Matrix n n ℝ)) 1 := by
  have hT : (Fintype.card τ : ℝ) ≠ 0 := by exact_mod_cast Fintype.card_ne_zero
  ext a b
  simp only [reCov, mix, Jb, of_apply, Matrix.add_apply, kroneckerMap_apply, Matrix.sub_apply, Matrix.smul_apply,
    one_apply, smul_eq_mul, Prod.ext_iff]
  by_cases h1 : a.1 = b.1 <;> by_cases h2 : a.2 = b.2 <;> simp [h1, h2] <;> field_simp <;> ring

theorem det_quasi [Nonempty τ] (phi : ℝ) : (quasi τ n phi).det = phi ^ Fintype.card n := by
  rw [quasi_eq, det_mix _ _ (by rw [det_one]; exact isUnit_one), det_smul, det_one, one_pow, mul_one, mul_one]

/-- The log-likelihood of the random effects lag model in terms of the transformed residuals. -/
theorem lagLL_re [Nonempty τ] (y m : τ × n → ℝ) (W : Matrix n n ℝ) (rho phi r s2 : ℝ) (hs : 0 < s2) (hphi : 0 < phi)
    (hr : phi ^ 2 * (1 + Fintype.card τ * r) = 1) (hA : IsUnit (1 - rho • W).det) :
    lagLL (panelW τ W) (reCov τ n r) rho s2 m y =
      gaussLL (quasi τ n phi *ᵥ (y - rho • (bigW τ W *ᵥ y) - m)) s2
        (Fintype.card n * Real.log phi + jacob τ W rho) := by
  have hA' := det_bigW_isUnit (τ := τ) W rho hA
  rw [← bigW_spec, lagLL_eq (bigW τ W) (reCov τ n r) (quasi τ n phi) rho s2 hs m y hA'
    (by rw [det_quasi]; exact isUnit_iff_ne_zero.2 (pow_ne_zero _ hphi.ne'))]
  · rw [← mulVec_sub, sub_smul_bigW, det_quasi, log_det_bigW, abs_pow, abs_of_pos hphi, Real.log_pow]
  · rw [quasi_eq, mix_transpose, mix_mul, reCov_eq, mix_mul]
    simp only [transpose_smul, transpose_one, Matrix.mul_one, Matrix.smul_mul, Matrix.mul_smul, smul_smul]
    rw [← mix_one]
    congr 1
    rw [show phi * phi * (1 + Fintype.card τ * r) = phi ^ 2 * (1 + Fintype.card τ * r) by ring, hr, one_smul]

/-- C96 for ML_LagRE: for the reported rho and ratio of variances, `logll` is the log-likelihood of the spatial lag model
with random effects, at the reported coefficients and `sig2`, and it is maximal. -/
theorem C96_lagRE [Nonempty τ] (y : τ × n → ℝ) (x : Matrix (τ × n) k ℝ) (W : Matrix n n ℝ) (phi rho r : ℝ)
    (f : LagFit τ n k) (h : lagRE y x W phi rho = some f) (hphi : 0 < phi)
    (hr : phi ^ 2 * (1 + Fintype.card τ * r) = 1) (hA : IsUnit (1 - rho • W).det) (h0 : f.u ≠ 0) :
    lagLL (panelW τ W) (reCov τ n r) rho f.sig2 (fun a => ∑ j, x a j * f.b j) y = f.logll ∧
    ∀ (c : k → ℝ) (s2 : ℝ), 0 < s2 →
      lagLL (panelW τ W) (reCov τ n r) rho s2 (fun a => ∑ j, x a j * c j) y ≤ f.logll := by
  unfold lagRE rePre at h
  simp only [Option.map_eq_some_iff] at h
  obtain ⟨p, hp, rfl⟩ := h
  obtain ⟨hu, h1, h2⟩ := lagPre_some hp rho
  dsimp only at h0 ⊢
  have hpos : 0 < utu (p.e0 - rho • p.e1) := lt_of_le_of_ne (utu_nonneg _) fun e => h0 ((utu_eq_zero _).1 e.symm)
  have hxm : ∀ (c : k → ℝ), (fun a : τ × n => ∑ j, x a j * c j) = x *ᵥ c := fun c => rfl
  have hQ : ∀ (c : k → ℝ), quasi τ n phi *ᵥ (y - rho • (bigW τ W *ᵥ y) - x *ᵥ c) =
      quasi τ n phi *ᵥ y - rho • (bigW τ W *ᵥ (quasi τ n phi *ᵥ y)) - (quasi τ n phi * x) *ᵥ c := by
    intro c
    rw [mulVec_sub, mulVec_sub, mulVec_smul, mulVec_mulVec, mulVec_mulVec, mulVec_mulVec y (bigW τ W), quasi_comm]
  have hll : addConst τ n (lagObj W p rho - (Fintype.card n : ℝ) / 2 * Real.log (phi ^ 2)) = gaussLL (p.e0 - rho • p.e1)
      (utu (p.e0 - rho • p.e1) / Fintype.card (τ × n)) (Fintype.card n * Real.log phi + jacob τ W rho) := by
    rw [(gaussLL_max _ _ (Fintype.card n * Real.log phi + jacob τ W rho) hpos le_rfl 1 one_pos).2, card_prod]
    unfold addConst lagObj
    dsimp only
    rw [← utu_eq_dot, Real.log_pow]
    unfold NT
    push_cast
    ring
  have hs2 : ((p.e0 - rho • p.e1) ⬝ᵥ (p.e0 - rho • p.e1)) / NT τ n =
      utu (p.e0 - rho • p.e1) / Fintype.card (τ × n) := by rw [← utu_eq_dot, card_prod]
  have hNT : 0 < (Fintype.card (τ × n) : ℝ) := by
    rcases Nat.eq_zero_or_pos (Fintype.card (τ × n)) with h | h
    · haveI := Fintype.card_eq_zero_iff.1 h
      simp [utu] at hpos
    · exact_mod_cast h
  have hres : ∀ (X : Matrix (τ × n) k ℝ) Y B, (olsWith X Y B).u = Y - X *ᵥ (olsWith X Y B).betas := fun _ _ _ => rfl
  constructor
  · rw [hs2, hxm, lagLL_re y _ W rho phi r _ (div_pos hpos hNT) hphi hr hA, hQ, hll]
    congr 1
    rw [h1, hres, ← h2]
  · intro c s2 hs
    rw [hxm, lagLL_re y _ W rho phi r _ hs hphi hr hA, hQ, hll]
    refine (gaussLL_max _ _ _ hpos ?_ s2 hs).1
    rw [h1]
    exact ols_min _ _ hu c

/-- C96 fails for the deprecated Panel_RE_Lag: its `logll` is larger than the log-likelihood at the same parameters by
`-N log(phi)`, whenever there is a random effect (`phi < 1`). -/
theorem C96_deprecated_violated [Nonempty n] (y : τ × n → ℝ) (x : Matrix (τ × n) k ℝ) (W : Matrix n n ℝ) (phi rho : ℝ)
    (f g : LagFit τ n k) (hf : lagRE y x W phi rho = some f) (hg : lagREOld y x W phi rho = some g)
    (h0 : 0 < phi) (h1 : phi < 1) :
    g.logll = f.logll - Fintype.card n * Real.log phi ∧ f.logll < g.logll := by
  unfold lagRE at hf
  unfold lagREOld at hg
  simp only [Option.map_eq_some_iff] at hf hg
  obtain ⟨q, hq, rfl⟩ := hf
  obtain ⟨q', hq', rfl⟩ := hg
  rw [hq] at hq'
  obtain rfl := Option.some.inj hq'
  dsimp only
  have hN : (0 : ℝ) < Fintype.card n := by exact_mod_cast Fintype.card_pos
  have hl := mul_pos_of_neg_of_neg (Real.log_neg h0 h1) (neg_lt_zero.2 hN)
  have : addConst τ n (lagObj W q rho) = addConst τ n (lagObj W q rho - (Fintype.card n : ℝ) / 2 * Real.log (phi ^ 2)) -
      Fintype.card n * Real.log phi := by
    unfold addConst
    rw [Real.log_pow]
    push_cast
    ring
  exact ⟨this, by linarith⟩

end Spreg.PanelML
