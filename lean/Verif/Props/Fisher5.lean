import Verif.Props.Fisher4
/-
C128, C129: the information matrices of the random effects panel models against the Fisher information of their models.
-/
namespace Spreg.PanelML
open Matrix Spreg.Lin Spreg.ML Spreg.Gauss Filter Topology
open scoped Kronecker

variable {τ n k : Type} [Fintype τ] [Fintype n] [Fintype k] [DecidableEq τ] [DecidableEq n] [DecidableEq k]

theorem Jb_trace [Nonempty τ] : (Jb τ).trace = 1 := by
  have hT : (Fintype.card τ : ℝ) ≠ 0 := by exact_mod_cast Fintype.card_ne_zero
  simp [Jb, Matrix.trace, hT]

theorem mix_trace [Nonempty τ] (P B : Matrix n n ℝ) :
    (mix τ P B).trace = P.trace + ((Fintype.card τ : ℝ) - 1) * B.trace := by
  unfold mix
  rw [trace_add, trace_kronecker, trace_kronecker, trace_sub, Jb_trace, trace_one]
  ring

theorem mix_inv [Nonempty τ] (P B : Matrix n n ℝ) (hP : IsUnit P.det) (hB : IsUnit B.det) :
    (mix τ P B)⁻¹ = mix τ P⁻¹ B⁻¹ := by
  apply Matrix.inv_eq_right_inv
  rw [mix_mul, mul_nonsing_inv _ hP, mul_nonsing_inv _ hB, mix_one]

theorem mix_isUnit [Nonempty τ] (P B : Matrix n n ℝ) (hP : IsUnit P.det) (hB : IsUnit B.det) : IsUnit (mix τ P B).det := by
  refine (isUnit_iff_isUnit_det _).1 (IsUnit.of_mul_eq_one (mix τ P⁻¹ B⁻¹) ?_)
  rw [mix_mul, mul_nonsing_inv _ hP, mul_nonsing_inv _ hB, mix_one]

/-- A path of matrices times a twice differentiable function. -/
theorem MD2_smulF {ι κ : Type} [Fintype ι] [Fintype κ] {f f' : ℝ → ℝ} {f'' : ℝ} {A : ℝ → Matrix ι κ ℝ} {A' : Matrix ι κ ℝ}
    (hf : ∀ᶠ t in 𝓝 0, HasDerivAt f (f' t) t) (hf2 : HasDerivAt f' f'' 0) (hA : MD2 A A') :
    MD2 (fun t => f t • A t) (f' 0 • A 0 + f 0 • A') := by
  obtain ⟨a, a2, h1, h2, rfl⟩ := hA
  exact ⟨fun t => f' t • A t + f t • a t, _, by filter_upwards [hf, h1] with t x y using MD.smul x y,
    (MD.smul hf2 h1.self_of_nhds).add (MD.smul hf.self_of_nhds h2), rfl⟩

theorem invsq_deriv (phi dp : ℝ) (hphi : phi ≠ 0) :
    (∀ᶠ t in 𝓝 (0 : ℝ), HasDerivAt (fun t : ℝ => 1 / (phi + t * dp) ^ 2) (-2 * dp / (phi + t * dp) ^ 3) t) ∧
    HasDerivAt (fun t : ℝ => -2 * dp / (phi + t * dp) ^ 3) (6 * dp ^ 2 / phi ^ 4) 0 := by
  have hl : ∀ t, HasDerivAt (fun t : ℝ => phi + t * dp) dp t := fun t => by
    simpa using ((hasDerivAt_id t).mul_const dp).const_add phi
  constructor
  · have hne : ∀ᶠ t in 𝓝 (0 : ℝ), phi + t * dp ≠ 0 :=
      (hl 0).continuousAt.eventually_ne (by simpa using hphi)
    filter_upwards [hne] with t ht
    have h := ((hl t).pow 2).fun_inv (pow_ne_zero 2 ht)
    simp only [one_div]
    refine h.congr_deriv ?_
    simp only [Pi.pow_apply]
    field_simp
    norm_num
    ring
  · have ht : phi + 0 * dp ≠ 0 := by simpa using hphi
    have h := (((hl 0).pow 3).fun_inv (pow_ne_zero 3 ht)).const_mul (-2 * dp)
    simp only [div_eq_mul_inv]
    refine h.congr_deriv ?_
    simp only [Pi.pow_apply, zero_mul, add_zero]
    field_simp
    norm_num
    ring

theorem reCov_phi [Nonempty τ] (phi : ℝ) :
    reCov τ n ((1 / phi ^ 2 - 1) / Fintype.card τ) = mix τ ((1 / phi ^ 2) • (1 : Matrix n n ℝ)) 1 := by
  have hT : (Fintype.card τ : ℝ) ≠ 0 := by exact_mod_cast Fintype.card_ne_zero
  rw [reCov_eq, mul_div_cancel₀ _ hT, add_sub_cancel]

/-- Path of the covariance of the quasi-demeaned errors. -/
theorem reCov_path [Nonempty τ] (phi dp : ℝ) (hphi : phi ≠ 0) :
    MD2 (fun s : ℝ => reCov τ n ((1 / (phi + s * dp) ^ 2 - 1) / Fintype.card τ))
      (mix τ ((-2 * dp / phi ^ 3) • (1 : Matrix n n ℝ)) 0) := by
  obtain ⟨h1, h2⟩ := invsq_deriv phi dp hphi
  have h := (MD2_smulF h1 h2 (MD2.const (mix τ (1 : Matrix n n ℝ) 0))).add (MD2.const (mix τ (0 : Matrix n n ℝ) 1))
  have e : (fun s : ℝ => reCov τ n ((1 / (phi + s * dp) ^ 2 - 1) / Fintype.card τ)) =
      fun s : ℝ => (1 / (phi + s * dp) ^ 2) • mix τ (1 : Matrix n n ℝ) 0 + mix τ (0 : Matrix n n ℝ) 1 := by
    funext s
    rw [reCov_phi, mix_smul, mix_add, smul_zero, zero_add, add_zero]
  rw [e]
  refine h.congr ?_
  simp only [zero_mul, add_zero, smul_zero]
  rw [mix_smul, smul_zero]

/-- Fisher information of the random effects lag model in the direction `(db, dr, dp, ds)`. -/
theorem reLag_fisher [Nonempty τ] (x : Matrix (τ × n) k ℝ) (W : Matrix n n ℝ) (b : k → ℝ)
    (rho phi sig2 : ℝ) (hs : sig2 ≠ 0) (hphi : phi ≠ 0) (hA0 : IsUnit (1 - rho • W).det) (db : k → ℝ) (dr dp ds : ℝ)
    (P : Dist (reLagCov τ W (rho + 0 * dr) (phi + 0 * dp) (sig2 + 0 * ds))) (G : Matrix n n ℝ)
    (hG : G = W * (1 - rho • W)⁻¹) :
    fisherInfo (fun s => sarMean (panelW τ W) x (b + s • db) (rho + s * dr))
        (fun s => reLagCov τ W (rho + s * dr) (phi + s * dp) (sig2 + s * ds)) P =
      ((quasi τ n phi *ᵥ (x *ᵥ db + dr • (bigW τ G *ᵥ (x *ᵥ b)))) ⬝ᵥ
        (quasi τ n phi *ᵥ (x *ᵥ db + dr • (bigW τ G *ᵥ (x *ᵥ b))))) / sig2 +
      (dr ^ 2 * (Fintype.card τ * ((G * G).trace + (Gᵀ * G).trace)) + 2 * dr * (ds / sig2) * (Fintype.card τ * G.trace)
        + (ds / sig2) ^ 2 * (NT τ n / 2) - 4 * dr * dp * G.trace / phi + 2 * Fintype.card n * dp ^ 2 / phi ^ 2
        - 2 * Fintype.card n * dp * ds / (phi * sig2)) := by
  revert P
  unfold reLagCov
  rw [← bigW_spec]
  intro P
  have hA : IsUnit (1 - rho • bigW τ W).det := by rw [filt_bigW, det_bigW]; exact hA0.pow _
  have hinv : (1 - rho • bigW τ W)⁻¹ = bigW τ (1 - rho • W)⁻¹ := by
    apply Matrix.inv_eq_right_inv
    rw [filt_bigW, bigW_mul, mul_nonsing_inv _ hA0, ← one_bigW]
  have hGb : bigW τ W * (1 - rho • bigW τ W)⁻¹ = bigW τ G := by rw [hinv, bigW_mul, hG]
  set F := (1 - rho • bigW τ W)⁻¹ with hF0
  set z : τ × n → ℝ := x *ᵥ db + dr • (bigW τ G *ᵥ (x *ᵥ b)) with hz
  have hF := filt_inv_line (bigW τ W) rho dr hA
  have hm : VD2 (fun s => sarMean (bigW τ W) x (b + s • db) (rho + s * dr)) (F *ᵥ z) := by
    have hx := VD2.mulVec (MD2.const x) (VD2.line b db)
    obtain ⟨m', m'', h1, h2, h3⟩ := VD2.mulVec hF hx
    refine ⟨m', m'', h1, h2, h3.trans ?_⟩
    simp only [zero_mul, add_zero, zero_smul, zero_mulVec, zero_add]
    rw [hz, ← hGb, ← hF0]
    simp only [mulVec_add, mulVec_smul, mulVec_mulVec, Matrix.mul_assoc, smul_mulVec, Matrix.smul_mul]
    rw [add_comm]
  set M := mix τ ((1 / phi ^ 2) • (1 : Matrix n n ℝ)) 1 with hM
  set M' := mix τ ((-2 * dp / phi ^ 3) • (1 : Matrix n n ℝ)) 0 with hM'
  have hC := MD2.smul_line sig2 ds ((hF.mul (reCov_path (τ := τ) (n := n) phi dp hphi)).mul hF.transpose)
  have hC' := hC.congr (B' := F * (ds • M + sig2 • M' + (sig2 * dr) • (bigW τ G * M + M * (bigW τ G)ᵀ)) * Fᵀ) (by
    simp only [zero_mul, add_zero]
    rw [reCov_phi, ← hM, ← hM', ← hF0, ← hGb, transpose_mul, transpose_smul, transpose_mul, transpose_mul]
    simp only [Matrix.mul_add, Matrix.add_mul, Matrix.mul_smul, Matrix.smul_mul, smul_add, smul_smul, Matrix.mul_assoc]
    abel)
  have h0 : (sig2 + 0 * ds) • ((1 - (rho + 0 * dr) • bigW τ W)⁻¹ *
      reCov τ n ((1 / (phi + 0 * dp) ^ 2 - 1) / Fintype.card τ) * ((1 - (rho + 0 * dr) • bigW τ W)⁻¹)ᵀ) =
      F * (sig2 • M) * Fᵀ := by
    simp only [zero_mul, add_zero]
    rw [reCov_phi, Matrix.mul_smul, Matrix.smul_mul]
  have hone : IsUnit (1 : Matrix n n ℝ).det := by rw [det_one]; exact isUnit_one
  have hphi1 : IsUnit ((1 / phi ^ 2) • (1 : Matrix n n ℝ)).det := by
    rw [det_smul, det_one, mul_one, isUnit_iff_ne_zero]
    positivity
  have hMu : IsUnit M.det := mix_isUnit _ _ hphi1 hone
  have hFu : IsUnit F.det := isUnit_nonsing_inv_det _ hA
  have hdet : (F * (sig2 • M) * Fᵀ).det ≠ 0 := by
    rw [det_mul, det_mul, det_transpose, det_smul]
    exact mul_ne_zero (mul_ne_zero hFu.ne_zero (mul_ne_zero (pow_ne_zero _ hs) hMu.ne_zero)) hFu.ne_zero
  have hfi := fisher P hm hC' (by rw [h0]; exact hdet)
  rw [hfi, h0, trace_conj hFu]
  have hMi : M⁻¹ = mix τ ((phi ^ 2) • (1 : Matrix n n ℝ)) 1 := by
    apply Matrix.inv_eq_right_inv
    rw [hM, mix_mul, Matrix.smul_mul, Matrix.mul_smul, smul_smul, Matrix.one_mul, one_div, inv_mul_cancel₀ (pow_ne_zero 2 hphi),
      one_smul, mix_one]
  have hsMi : (sig2 • M)⁻¹ = sig2⁻¹ • mix τ ((phi ^ 2) • (1 : Matrix n n ℝ)) 1 := by
    apply Matrix.inv_eq_right_inv
    rw [← hMi, Matrix.smul_mul, Matrix.mul_smul, smul_smul, mul_inv_cancel₀ hs, one_smul, mul_nonsing_inv _ hMu]
  congr 1
  · have hi : (F * (sig2 • M) * Fᵀ)⁻¹ = (1 - rho • bigW τ W)ᵀ * (sig2 • M)⁻¹ * (1 - rho • bigW τ W) := by
      rw [Matrix.mul_inv_rev, Matrix.mul_inv_rev, hF0, nonsing_inv_nonsing_inv _ hA, ← transpose_nonsing_inv,
        nonsing_inv_nonsing_inv _ hA, Matrix.mul_assoc]
    have hq : (quasi τ n phi)ᵀ * quasi τ n phi = mix τ ((phi ^ 2) • (1 : Matrix n n ℝ)) 1 := by
      rw [quasi_eq, mix_transpose, mix_mul]
      simp [smul_smul, pow_two]
    rw [hi, ← mulVec_mulVec, ← mulVec_mulVec, mulVec_mulVec z (1 - rho • bigW τ W) F, hF0, mul_nonsing_inv _ hA, one_mulVec,
      dotProduct_mulVec, vecMul_transpose, mulVec_mulVec, mul_nonsing_inv _ hA, one_mulVec, hsMi, ← hq, smul_mulVec,
      dotProduct_smul, ← mulVec_mulVec, dotProduct_mulVec, vecMul_transpose, smul_eq_mul, div_eq_inv_mul]
  · have hprod : (sig2 • M)⁻¹ * (ds • M + sig2 • M' + (sig2 * dr) • (bigW τ G * M + M * (bigW τ G)ᵀ)) =
        mix τ ((ds / sig2 - 2 * dp / phi) • (1 : Matrix n n ℝ) + dr • (G + Gᵀ)) ((ds / sig2) • (1 : Matrix n n ℝ) + dr • (G + Gᵀ)) := by
      rw [hsMi, hM, hM', bigW_transpose, bigW_eq, bigW_eq, mix_mul, mix_mul, mix_add, mix_smul, mix_smul, mix_smul, mix_smul,
        mix_add, mix_add, mix_mul]
      congr 1
      · simp only [Matrix.mul_add, Matrix.mul_smul, Matrix.smul_mul, Matrix.mul_one, Matrix.one_mul]
        ext i j
        simp only [Matrix.add_apply, Matrix.smul_apply, smul_eq_mul]
        field_simp
        ring
      · simp only [Matrix.mul_add, Matrix.mul_smul, Matrix.smul_mul, Matrix.mul_one, Matrix.one_mul]
        ext i j
        simp only [Matrix.add_apply, Matrix.smul_apply, smul_eq_mul, Matrix.zero_apply]
        field_simp
        ring
    rw [hprod, mix_mul, mix_trace]
    simp only [Matrix.mul_add, Matrix.add_mul, Matrix.mul_smul, Matrix.smul_mul, Matrix.mul_one, Matrix.one_mul, smul_add,
      trace_add, trace_smul, trace_one, trace_transpose, smul_eq_mul]
    have t1 : (Gᵀ * Gᵀ).trace = (G * G).trace := by rw [← transpose_mul, trace_transpose]
    have t2 : (G * Gᵀ).trace = (Gᵀ * G).trace := trace_mul_comm _ _
    rw [t1, t2]
    unfold NT
    field_simp
    ring

/-- The quadratic form of the code's information matrix of the random effects lag model. -/
theorem lagREInfo_quad (x : Matrix (τ × n) k ℝ) (G : Matrix n n ℝ) (b : k → ℝ) (sig2 phi : ℝ) (hs : sig2 ≠ 0) [Nonempty τ]
    (db : k → ℝ) (dr dp ds : ℝ) (v : k ⊕ Fin 3 → ℝ) (hv : v = Sum.elim db ![dr, dp, ds]) :
    v ⬝ᵥ (lagREInfo x G b sig2 phi *ᵥ v) =
      ((quasi τ n phi *ᵥ (x *ᵥ db + dr • (bigW τ G *ᵥ (x *ᵥ b)))) ⬝ᵥ
        (quasi τ n phi *ᵥ (x *ᵥ db + dr • (bigW τ G *ᵥ (x *ᵥ b))))) / sig2 +
      (dr ^ 2 * (Fintype.card τ * ((G * G).trace + (Gᵀ * G).trace)) + 2 * dr * (ds / sig2) * (Fintype.card τ * G.trace)
        + (ds / sig2) ^ 2 * (NT τ n / 2) - 2 * dr * dp * G.trace / sig2 + Fintype.card n * (1 + 1 / phi ^ 2) * dp ^ 2
        - Fintype.card n * dp * ds * (1 / sig2 + 1 / sig2 ^ 2)) := by
  subst hv
  have hz : quasi τ n phi *ᵥ (x *ᵥ db + dr • (bigW τ G *ᵥ (x *ᵥ b))) =
      (quasi τ n phi * x) *ᵥ db + dr • (bigW τ G *ᵥ ((quasi τ n phi * x) *ᵥ b)) := by
    rw [mulVec_add, mulVec_smul, mulVec_mulVec, mulVec_mulVec, mulVec_mulVec, mulVec_mulVec, quasi_comm, Matrix.mul_assoc]
  rw [hz]
  unfold lagREInfo
  dsimp only
  set xd := quasi τ n phi * x
  set w := bigW τ G *ᵥ (xd *ᵥ b) with hw
  have hq : (xd *ᵥ b) ⬝ᵥ (bigW τ (Gᵀ * G) *ᵥ (xd *ᵥ b)) = w ⬝ᵥ w := by
    rw [← bigW_mul, ← bigW_transpose, ← mulVec_mulVec _ (bigW τ G)ᵀ, dotProduct_mulVec _ (bigW τ G)ᵀ, vecMul_transpose]
  rw [hq, fromBlocks_mulVec, sumElim_dotProduct_sumElim]
  simp only [Sum.elim_comp_inl, Sum.elim_comp_inr]
  have e1 : db ⬝ᵥ (((1 / sig2) • (xdᵀ * xd)) *ᵥ db) = ((xd *ᵥ db) ⬝ᵥ (xd *ᵥ db)) / sig2 := by
    rw [smul_mulVec, dotProduct_smul, ← mulVec_mulVec, dotProduct_mulVec, vecMul_transpose, smul_eq_mul, one_div, div_eq_inv_mul]
  have e0 : db ⬝ᵥ (xdᵀ *ᵥ w) = (xd *ᵥ db) ⬝ᵥ w := by rw [dotProduct_mulVec, vecMul_transpose]
  have e2 : db ⬝ᵥ ((Matrix.of fun i c => ![(xdᵀ *ᵥ w) i / sig2, 0, 0] c) *ᵥ ![dr, dp, ds]) =
      dr * ((xd *ᵥ db) ⬝ᵥ w) / sig2 := by
    rw [← e0]
    simp only [dotProduct, mulVec, Fin.sum_univ_three, of_apply, Matrix.cons_val_zero, Matrix.cons_val_one, Matrix.cons_val]
    rw [Finset.mul_sum, Finset.sum_div]
    refine Finset.sum_congr rfl fun i _ => ?_
    ring
  have e3 : ![dr, dp, ds] ⬝ᵥ ((Matrix.of fun c j => ![(xdᵀ *ᵥ w) j / sig2, 0, 0] c) *ᵥ db) =
      dr * ((xd *ᵥ db) ⬝ᵥ w) / sig2 := by
    rw [← e0, dotProduct, Fin.sum_univ_three]
    simp only [dotProduct, mulVec, of_apply, Matrix.cons_val_zero, Matrix.cons_val_one, Matrix.cons_val, zero_mul,
      Finset.sum_const_zero, mul_zero, add_zero]
    rw [Finset.mul_sum, Finset.mul_sum, Finset.sum_div]
    refine Finset.sum_congr rfl fun i _ => ?_
    ring
  have e4 : ((xd *ᵥ db + dr • w) ⬝ᵥ (xd *ᵥ db + dr • w)) =
      (xd *ᵥ db) ⬝ᵥ (xd *ᵥ db) + 2 * dr * ((xd *ᵥ db) ⬝ᵥ w) + dr ^ 2 * (w ⬝ᵥ w) := by
    rw [add_dotProduct, dotProduct_add, dotProduct_add, dotProduct_smul, smul_dotProduct, smul_dotProduct, dotProduct_smul,
      dotProduct_comm w (xd *ᵥ db)]
    simp only [smul_eq_mul]
    ring
  rw [dotProduct_add, dotProduct_add, e1, e2, e3, e4]
  simp only [lagREInfo3, dotProduct, mulVec, Fin.sum_univ_three, Matrix.of_apply, Matrix.cons_val', Matrix.cons_val_zero,
      Matrix.cons_val_one, Matrix.cons_val_fin_one, Matrix.cons_val]
  field_simp
  ring

theorem reLagDist [Nonempty τ] [Nonempty n] (W : Matrix n n ℝ) (rho phi s2 : ℝ) (hs : 0 ≤ s2) :
    Nonempty (Dist (reLagCov τ W rho phi s2)) := by
  have h : reLagCov τ W rho phi s2 = ((1 - rho • panelW τ W)⁻¹ * (Real.sqrt s2 • mix τ ((1 / phi) • (1 : Matrix n n ℝ)) 1)) *
      ((1 - rho • panelW τ W)⁻¹ * (Real.sqrt s2 • mix τ ((1 / phi) • (1 : Matrix n n ℝ)) 1))ᵀ := by
    unfold reLagCov
    have : mix τ ((1 / phi ^ 2) • (1 : Matrix n n ℝ)) 1 =
        mix τ ((1 / phi) • (1 : Matrix n n ℝ)) 1 * (mix τ ((1 / phi) • (1 : Matrix n n ℝ)) 1)ᵀ := by
      rw [mix_transpose, mix_mul]
      simp [smul_smul, pow_two]
    rw [reCov_phi, this, transpose_mul, transpose_smul]
    simp only [Matrix.mul_smul, Matrix.smul_mul, smul_smul, Real.mul_self_sqrt hs, Matrix.mul_assoc]
  rw [h]
  exact ⟨distOf _⟩

/-- C128, the part that holds: for fixed `phi`, the information matrix of ML_LagRE about the coefficients, rho and the variance is
the Fisher information of the random effects lag model. -/
theorem C128_lagRE_partial [Nonempty τ] (x : Matrix (τ × n) k ℝ) (W ai : Matrix n n ℝ) (hW : ∀ i, W i i = 0) (b : k → ℝ)
    (rho phi sig2 : ℝ) (hs : 0 < sig2) (hphi : 0 < phi) (hai : inv? (filledA W rho) = some ai) (db : k → ℝ) (dr ds : ℝ)
    (P : Dist (reLagCov τ W (rho + 0 * dr) (phi + 0 * 0) (sig2 + 0 * ds))) :
    let v : k ⊕ Fin 3 → ℝ := Sum.elim db ![dr, 0, ds]
    v ⬝ᵥ (lagREInfo x (W * ai) b sig2 phi *ᵥ v) =
      fisherInfo (fun s => sarMean (panelW τ W) x (b + s • db) (rho + s * dr))
        (fun s => reLagCov τ W (rho + s * dr) (phi + s * 0) (sig2 + s * ds)) P := by
  intro v
  rw [filledA_eq W hW] at hai
  obtain ⟨hA0, rfl, -, -⟩ := inv?_eq_some hai
  rw [reLag_fisher x W b rho phi sig2 hs.ne' hphi.ne' hA0 db dr 0 ds P _ rfl,
    lagREInfo_quad x _ b sig2 phi hs.ne' db dr 0 ds v rfl]
  ring

/-- C128 fails: the information matrix of ML_LagRE, which includes `phi`, is the Fisher information of its model only if there
are no individual effects (`phi = 1`), the variance happens to be 1 and the trace of `W (I - rho W)^-1` is zero. -/
theorem C128_lagRE_violated [Nonempty τ] [Nonempty n] (x : Matrix (τ × n) k ℝ) (W ai : Matrix n n ℝ) (hW : ∀ i, W i i = 0)
    (b : k → ℝ) (rho phi sig2 : ℝ) (hs : 0 < sig2) (hphi : 0 < phi) (hai : inv? (filledA W rho) = some ai) :
    (∀ (db : k → ℝ) (dr dp ds : ℝ) (P : Dist (reLagCov τ W (rho + 0 * dr) (phi + 0 * dp) (sig2 + 0 * ds))),
      Sum.elim db ![dr, dp, ds] ⬝ᵥ (lagREInfo x (W * ai) b sig2 phi *ᵥ Sum.elim db ![dr, dp, ds]) =
        fisherInfo (fun s => sarMean (panelW τ W) x (b + s • db) (rho + s * dr))
          (fun s => reLagCov τ W (rho + s * dr) (phi + s * dp) (sig2 + s * ds)) P) ↔
    phi = 1 ∧ sig2 = 1 ∧ (W * ai).trace = 0 := by
  rw [filledA_eq W hW] at hai
  obtain ⟨hA0, rfl, -, -⟩ := inv?_eq_some hai
  set G := W * (1 - rho • W)⁻¹ with hG
  have hn : (0 : ℝ) < Fintype.card n := by exact_mod_cast Fintype.card_pos
  have key : ∀ (db : k → ℝ) (dr dp ds : ℝ) (P : Dist (reLagCov τ W (rho + 0 * dr) (phi + 0 * dp) (sig2 + 0 * ds))),
      (Sum.elim db ![dr, dp, ds] ⬝ᵥ (lagREInfo x G b sig2 phi *ᵥ Sum.elim db ![dr, dp, ds]) =
        fisherInfo (fun s => sarMean (panelW τ W) x (b + s • db) (rho + s * dr))
          (fun s => reLagCov τ W (rho + s * dr) (phi + s * dp) (sig2 + s * ds)) P ↔
      - 2 * dr * dp * G.trace / sig2 + Fintype.card n * (1 + 1 / phi ^ 2) * dp ^ 2
        - Fintype.card n * dp * ds * (1 / sig2 + 1 / sig2 ^ 2) =
      - 4 * dr * dp * G.trace / phi + 2 * Fintype.card n * dp ^ 2 / phi ^ 2
        - 2 * Fintype.card n * dp * ds / (phi * sig2)) := by
    intro db dr dp ds P
    rw [reLag_fisher x W b rho phi sig2 hs.ne' hphi.ne' hA0 db dr dp ds P G hG,
      lagREInfo_quad x G b sig2 phi hs.ne' db dr dp ds _ rfl]
    constructor <;> intro h <;> linear_combination h
  have hP : ∀ dr dp ds, Nonempty (Dist (reLagCov τ W (rho + 0 * dr) (phi + 0 * dp) (sig2 + 0 * ds))) := fun dr dp ds =>
    reLagDist W _ _ _ (by simpa using hs.le)
  constructor
  · intro h
    have hh : ∀ dr dp ds, _ := fun dr dp ds => (key 0 dr dp ds (hP dr dp ds).some).1 (h 0 dr dp ds _)
    have h1 := hh 0 1 0
    have hp : phi = 1 := by
      have h2 : 1 / phi ^ 2 = 1 := by
        apply mul_left_cancel₀ hn.ne'
        linear_combination -h1
      rw [div_eq_iff (by positivity), one_mul] at h2
      nlinarith
    subst hp
    have h2 := hh 0 1 1
    have hs1 : sig2 = 1 := by
      have h3 : 1 / sig2 ^ 2 = 1 / sig2 := by
        apply mul_left_cancel₀ hn.ne'
        linear_combination -h2
      field_simp at h3
      linarith
    subst hs1
    have h3 := hh 1 1 0
    refine ⟨rfl, rfl, ?_⟩
    norm_num at h3
    linarith
  · rintro ⟨rfl, rfl, h0⟩ db dr dp ds P
    rw [key, h0]
    ring

/-- Non-vacuity of C128: the hypotheses hold for two units, `rho = 1/2`, and then the trace is not zero. -/
example : (∀ i, exW i i = 0) ∧ inv? (filledA exW (1 / 2)) = some !![4 / 3, 2 / 3; 2 / 3, 4 / 3] ∧
    (exW * !![4 / 3, 2 / 3; 2 / 3, 4 / 3]).trace ≠ 0 ∧
    Nonempty (Dist (reLagCov (Fin 2) exW (1 / 2 + 0 * 1) (1 / 2 + 0 * 1) (3 + 0 * 1))) :=
  ⟨exW_diag, exW_ai, by norm_num [Matrix.trace, exW, Fin.sum_univ_two, Matrix.mul_apply], reLagDist _ _ _ _ (by norm_num)⟩

end Spreg.PanelML
