import Verif.Props.Fisher5
import Verif.Props.Fisher3
/-
C129: the information matrix of the random effects error model against the Fisher information of its model.
-/
namespace Spreg.PanelML
open Matrix Spreg.Lin Spreg.ML Spreg.Gauss Filter Topology
open scoped Kronecker

variable {τ n k : Type} [Fintype τ] [Fintype n] [Fintype k] [DecidableEq τ] [DecidableEq n] [DecidableEq k]

theorem reErrCov2_eq [Nonempty τ] (W : Matrix n n ℝ) (lam sm s2 : ℝ) (hA0 : IsUnit (1 - lam • W).det) :
    reErrCov2 τ W lam sm s2 = mix τ ((Fintype.card τ * sm) • (1 : Matrix n n ℝ)) 0 +
      s2 • ((1 - lam • bigW τ W)⁻¹ * ((1 - lam • bigW τ W)⁻¹)ᵀ) := by
  have hT : (Fintype.card τ : ℝ) ≠ 0 := by exact_mod_cast Fintype.card_ne_zero
  have hinv : (1 - lam • bigW τ W)⁻¹ = bigW τ (1 - lam • W)⁻¹ := by
    apply Matrix.inv_eq_right_inv
    rw [filt_bigW, bigW_mul, mul_nonsing_inv _ hA0, ← one_bigW]
  rw [hinv, bigW_transpose, bigW_mul, bigW_spec]
  ext a b
  simp only [reErrCov2, panelW, of_apply, Matrix.add_apply, Matrix.smul_apply, mix, Jb, kroneckerMap_apply, Matrix.zero_apply,
    mul_zero, add_zero, smul_eq_mul, one_apply]
  congr 1
  · split_ifs
    · field_simp
    · simp
  · split_ifs <;> simp

/-- Fisher information of the random effects error model about (lambda, variance of the effects, variance), in the direction
`(dl, dm, ds)`; the matrices are those of the code. -/
theorem reErr_fisher [Nonempty τ] (m : τ × n → ℝ) (W : Matrix n n ℝ) (lam r sig2 : ℝ) (hs : sig2 ≠ 0)
    (hA0 : IsUnit (1 - lam • W).det) (dl dm ds : ℝ) (K vi S : Matrix n n ℝ) (hK : K = ((1 - lam • W)ᵀ * (1 - lam • W))⁻¹)
    (hS : S = Wᵀ * (1 - lam • W) + (1 - lam • W)ᵀ * W)
    (hvi : ((Fintype.card τ * r) • (1 : Matrix n n ℝ) + K) * vi = 1)
    (P : Dist (reErrCov2 τ W (lam + 0 * dl) (r * sig2 + 0 * dm) (sig2 + 0 * ds))) :
    let A := (Fintype.card τ * dm / sig2) • vi + (ds / sig2) • (vi * K) + dl • (vi * K * (S * K))
    let B := (ds / sig2) • (1 : Matrix n n ℝ) + dl • (S * K)
    fisherInfo (fun _ => m) (fun s => reErrCov2 τ W (lam + s * dl) (r * sig2 + s * dm) (sig2 + s * ds)) P =
      1 / 2 * ((A * A).trace + ((Fintype.card τ : ℝ) - 1) * (B * B).trace) := by
  intro A B
  have hA : IsUnit (1 - lam • bigW τ W).det := by rw [filt_bigW, det_bigW]; exact hA0.pow _
  have hinv : (1 - lam • bigW τ W)⁻¹ = bigW τ (1 - lam • W)⁻¹ := by
    apply Matrix.inv_eq_right_inv
    rw [filt_bigW, bigW_mul, mul_nonsing_inv _ hA0, ← one_bigW]
  set F0 := (1 - lam • W)⁻¹ with hF0
  have hKF : K = F0 * F0ᵀ := by rw [hK, Matrix.mul_inv_rev, hF0, transpose_nonsing_inv]
  have hA0t : IsUnit ((1 - lam • W)ᵀ).det := by rwa [det_transpose]
  have hKi : K * ((1 - lam • W)ᵀ * (1 - lam • W)) = 1 := by
    rw [hK]; exact nonsing_inv_mul _ (by rw [det_mul]; exact hA0t.mul hA0)
  have hF := filt_inv_line (bigW τ W) lam dl hA
  have h1 := MD2.line (mix τ ((Fintype.card τ * (r * sig2)) • (1 : Matrix n n ℝ)) 0)
    (mix τ ((Fintype.card τ * dm) • (1 : Matrix n n ℝ)) 0)
  have h2 := MD2.smul_line sig2 ds (hF.mul hF.transpose)
  have hC := h1.add h2
  have hder : MD2 (fun s => reErrCov2 τ W (lam + s * dl) (r * sig2 + s * dm) (sig2 + s * ds))
      (mix τ ((Fintype.card τ * dm) • (1 : Matrix n n ℝ) + (ds • K + (sig2 * dl) • (K * S * K)))
        (ds • K + (sig2 * dl) • (K * S * K))) := by
    have hKS : K * S * K = F0 * W * F0 * F0ᵀ + F0 * (F0ᵀ * Wᵀ * F0ᵀ) := by
      have e1 : (1 - lam • W) * K = F0ᵀ := by
        rw [hKF, ← Matrix.mul_assoc, mul_nonsing_inv _ hA0, Matrix.one_mul]
      have e2 : K * (1 - lam • W)ᵀ = F0 := by
        rw [hKF, Matrix.mul_assoc, ← transpose_mul, mul_nonsing_inv _ hA0, transpose_one, Matrix.mul_one]
      rw [hS, Matrix.mul_add, Matrix.add_mul, ← Matrix.mul_assoc K (1 - lam • W)ᵀ W, e2,
        Matrix.mul_assoc K (Wᵀ * (1 - lam • W)) K, Matrix.mul_assoc Wᵀ, e1, hKF, add_comm]
      simp only [Matrix.mul_assoc]
    obtain ⟨C', C'', g1, g2, g3⟩ := hC
    refine ⟨C', C'', ?_, g2, g3.trans ?_⟩
    · have hnear : ∀ᶠ t in 𝓝 (0 : ℝ), (1 - (lam + t * dl) • W).det ≠ 0 := by
        obtain ⟨a', a'', q1, -, -⟩ := filt_line W lam dl
        exact det_near q1.self_of_nhds (by simpa using hA0.ne_zero)
      have hev : (fun s => reErrCov2 τ W (lam + s * dl) (r * sig2 + s * dm) (sig2 + s * ds)) =ᶠ[𝓝 0]
          (fun t => mix τ ((Fintype.card τ * (r * sig2)) • (1 : Matrix n n ℝ)) 0 +
            t • mix τ ((Fintype.card τ * dm) • (1 : Matrix n n ℝ)) 0 +
            (sig2 + t * ds) • ((1 - (lam + t * dl) • bigW τ W)⁻¹ * ((1 - (lam + t * dl) • bigW τ W)⁻¹)ᵀ)) := by
        filter_upwards [hnear] with t ht
        rw [reErrCov2_eq _ _ _ _ (isUnit_iff_ne_zero.2 ht), mix_smul, mix_add, smul_smul, ← add_smul, smul_zero, add_zero,
          mul_add]
        congr 4
        ring
      have hev2 := eventually_eventuallyEq_nhds.2 hev
      filter_upwards [g1, hev2] with t a b i j
      refine (a i j).congr_of_eventuallyEq ?_
      filter_upwards [b] with u hu
      rw [hu]
    · simp only [zero_mul, add_zero]
      rw [hinv]
      simp only [transpose_smul, Matrix.smul_mul, Matrix.mul_smul, bigW_eq, mix_smul, mix_transpose, mix_mul, mix_add]
      congr 1
      · rw [hKS, hKF]
        congr 1
        simp only [transpose_mul, Matrix.mul_smul, Matrix.smul_mul, smul_add, smul_smul, Matrix.mul_assoc]
      · rw [hKS, hKF]
        simp only [transpose_mul, Matrix.mul_smul, Matrix.smul_mul, smul_add, smul_smul, Matrix.mul_assoc, zero_add]
  have h0 : reErrCov2 τ W (lam + 0 * dl) (r * sig2 + 0 * dm) (sig2 + 0 * ds) =
      mix τ (sig2 • ((Fintype.card τ * r) • (1 : Matrix n n ℝ) + K)) (sig2 • K) := by
    simp only [zero_mul, add_zero]
    rw [reErrCov2_eq _ _ _ _ hA0, hinv, bigW_transpose, bigW_mul, bigW_eq, mix_smul, mix_add, ← hKF, zero_add, smul_add, smul_smul]
    congr 3
    ring
  have hKu : IsUnit K.det := (isUnit_iff_isUnit_det _).1 (IsUnit.of_mul_eq_one _ hKi)
  have hvu : IsUnit ((Fintype.card τ * r) • (1 : Matrix n n ℝ) + K).det :=
    (isUnit_iff_isUnit_det _).1 (IsUnit.of_mul_eq_one _ hvi)
  have hu1 : IsUnit (sig2 • ((Fintype.card τ * r) • (1 : Matrix n n ℝ) + K)).det := by
    rw [det_smul]; exact ((isUnit_iff_ne_zero.2 hs).pow _).mul hvu
  have hu2 : IsUnit (sig2 • K).det := by rw [det_smul]; exact ((isUnit_iff_ne_zero.2 hs).pow _).mul hKu
  have hm : VD2 (fun _ : ℝ => m) 0 := ⟨fun _ => 0, 0, Eventually.of_forall fun t => VD.const m t, VD.const 0 0, rfl⟩
  have hfi := fisher P hm hder (by rw [h0]; exact (mix_isUnit _ _ hu1 hu2).ne_zero)
  rw [hfi, h0, mix_inv _ _ hu1 hu2, mix_mul, mix_mul, mix_trace, zero_dotProduct, zero_add]
  have i1 : (sig2 • ((Fintype.card τ * r) • (1 : Matrix n n ℝ) + K))⁻¹ = sig2⁻¹ • vi := by
    apply Matrix.inv_eq_right_inv
    rw [Matrix.smul_mul, Matrix.mul_smul, smul_smul, mul_inv_cancel₀ hs, one_smul, hvi]
  have i2 : (sig2 • K)⁻¹ = sig2⁻¹ • K⁻¹ := by
    apply Matrix.inv_eq_right_inv
    rw [Matrix.smul_mul, Matrix.mul_smul, smul_smul, mul_inv_cancel₀ hs, one_smul, mul_nonsing_inv _ hKu]
  rw [i1, i2]
  have j1 : (sig2⁻¹ • vi) * ((Fintype.card τ * dm) • (1 : Matrix n n ℝ) + (ds • K + (sig2 * dl) • (K * S * K))) = A := by
    simp only [A, Matrix.mul_add, Matrix.mul_smul, Matrix.smul_mul, Matrix.mul_one, Matrix.mul_assoc]
    ext i j
    simp only [Matrix.add_apply, Matrix.smul_apply, smul_eq_mul]
    field_simp
    ring
  have j2 : (sig2⁻¹ • K⁻¹) * (ds • K + (sig2 * dl) • (K * S * K)) = B := by
    have : K⁻¹ * (K * S * K) = S * K := by
      rw [← Matrix.mul_assoc, ← Matrix.mul_assoc, nonsing_inv_mul _ hKu, Matrix.one_mul]
    simp only [B, Matrix.mul_add, Matrix.mul_smul, Matrix.smul_mul, nonsing_inv_mul _ hKu, this]
    ext i j
    simp only [Matrix.add_apply, Matrix.smul_apply, smul_eq_mul]
    field_simp
  rw [j1, j2]

/-- What `errREInfo` computes. -/
theorem errREInfo_some (W : Matrix n n ℝ) (hW : ∀ i, W i i = 0) (lam r sig2 : ℝ) (I : Matrix (Fin 3) (Fin 3) ℝ)
    (h : errREInfo τ W lam r sig2 = some I) :
    ∃ K vi S : Matrix n n ℝ, IsUnit (1 - lam • W).det ∧ K = ((1 - lam • W)ᵀ * (1 - lam • W))⁻¹ ∧
      S = Wᵀ * (1 - lam • W) + (1 - lam • W)ᵀ * W ∧ ((Fintype.card τ * r) • (1 : Matrix n n ℝ) + K) * vi = 1 ∧
      ∀ dl dm ds : ℝ, ![dl, dm, ds] ⬝ᵥ (I *ᵥ ![dl, dm, ds]) =
        dl ^ 2 * (((Fintype.card τ : ℝ) - 1) / 2 * (S * K).trace ^ 2 + 1 / 2 * (vi * K * (S * K)).trace ^ 2) +
        dm ^ 2 * (Fintype.card τ ^ 2 / (2 * sig2 ^ 2) * vi.trace ^ 2) +
        ds ^ 2 * (1 / (2 * sig2 ^ 2) * (((Fintype.card τ : ℝ) - 1) * Fintype.card n + (vi * K).trace ^ 2)) +
        2 * dl * dm * (Fintype.card τ / (2 * sig2) * (vi * K * (S * K) * vi).trace) +
        2 * dl * ds * (((Fintype.card τ : ℝ) - 1) / (2 * sig2) * (S * K).trace + 1 / (2 * sig2) * (vi * K * (S * K) * (vi * K)).trace) +
        2 * dm * ds * (Fintype.card τ / (2 * sig2 ^ 2) * (vi * K * vi).trace) := by
  unfold errREInfo at h
  rw [filledA_eq W hW] at h
  simp only [Option.bind_eq_some_iff, Option.map_eq_some_iff] at h
  obtain ⟨K, hK, vi, hvi, rfl⟩ := h
  obtain ⟨hu, rfl, -, -⟩ := inv?_eq_some hK
  obtain ⟨-, -, hv, -⟩ := inv?_eq_some hvi
  refine ⟨_, vi, _, ?_, rfl, rfl, hv, ?_⟩
  · rw [det_mul, det_transpose] at hu
    exact isUnit_of_mul_isUnit_right hu
  · intro dl dm ds
    simp only [dotProduct, mulVec, Fin.sum_univ_three, Matrix.of_apply, Matrix.cons_val', Matrix.cons_val_zero,
      Matrix.cons_val_one, Matrix.cons_val_fin_one, Matrix.cons_val]
    ring

/-- C129, the part that holds: if `r` is the ratio of the variance of the effects to the variance, the code's information matrix
about (lambda, variance of the effects, variance) differs from the Fisher information of the model on its diagonal only: the
difference is `D 0 dl^2 + D 1 dm^2 + D 2 ds^2`, where each `D i` replaces the trace of a square by the square of a trace. -/
theorem C129_errRE_partial [Nonempty τ] (m : τ × n → ℝ) (W : Matrix n n ℝ) (hW : ∀ i, W i i = 0) (lam r sig2 : ℝ)
    (hs : 0 < sig2) (I : Matrix (Fin 3) (Fin 3) ℝ) (h : errREInfo τ W lam r sig2 = some I) :
    ∃ D : Fin 3 → ℝ, ∀ (dl dm ds : ℝ) (P : Dist (reErrCov2 τ W (lam + 0 * dl) (r * sig2 + 0 * dm) (sig2 + 0 * ds))),
      ![dl, dm, ds] ⬝ᵥ (I *ᵥ ![dl, dm, ds]) =
        fisherInfo (fun _ => m) (fun s => reErrCov2 τ W (lam + s * dl) (r * sig2 + s * dm) (sig2 + s * ds)) P +
          (D 0 * dl ^ 2 + D 1 * dm ^ 2 + D 2 * ds ^ 2) := by
  obtain ⟨K, vi, S, hA0, hK, hS, hvi, hI⟩ := errREInfo_some W hW lam r sig2 I h
  refine ⟨![((Fintype.card τ : ℝ) - 1) / 2 * ((S * K).trace ^ 2 - (S * K * (S * K)).trace) +
      1 / 2 * ((vi * K * (S * K)).trace ^ 2 - (vi * K * (S * K) * (vi * K * (S * K))).trace),
    Fintype.card τ ^ 2 / (2 * sig2 ^ 2) * (vi.trace ^ 2 - (vi * vi).trace),
    1 / (2 * sig2 ^ 2) * ((vi * K).trace ^ 2 - (vi * K * (vi * K)).trace)], fun dl dm ds P => ?_⟩
  rw [hI, reErr_fisher m W lam r sig2 hs.ne' hA0 dl dm ds K vi S hK hS hvi P]
  set G := S * K
  set E := vi * K
  have t1 : (vi * (E * G)).trace = (E * G * vi).trace := trace_mul_comm _ _
  have t2 : (E * (E * G)).trace = (E * G * E).trace := trace_mul_comm _ _
  have t3 : (vi * E).trace = (E * vi).trace := trace_mul_comm _ _
  simp only [Matrix.mul_add, Matrix.add_mul, Matrix.mul_smul, Matrix.smul_mul, Matrix.mul_one, Matrix.one_mul, smul_add,
    trace_add, trace_smul, trace_one, smul_eq_mul, t1, t2, t3, Matrix.cons_val_zero, Matrix.cons_val_one, Matrix.cons_val]
  have := hs.ne'
  field_simp
  ring

/-- The trace of the square of a positive definite matrix is less than the square of its trace, for two or more rows. -/
theorem trace_sq_lt [Nontrivial n] {M : Matrix n n ℝ} (hM : M.PosDef) : (M * M).trace < M.trace ^ 2 := by
  have hsym : ∀ i j, M i j = M j i := fun i j => by
    have := hM.1
    rw [IsHermitian, conjTranspose_eq_transpose_of_trivial] at this
    exact congrFun (congrFun this j) i
  have hd : ∀ i, 0 < M i i := fun i => hM.diag_pos
  have hij : ∀ i j, i ≠ j → M i j * M j i < M i i * M j j := by
    intro i j hne
    have hv : (M j j • Pi.single i (1 : ℝ) - M i j • Pi.single j (1 : ℝ) : n → ℝ) ≠ 0 := by
      intro e
      have := congrFun e i
      simp [hne] at this
      exact (hd j).ne' this
    have := hM.dotProduct_mulVec_pos hv
    simp only [star_trivial, mulVec_sub, mulVec_smul, dotProduct_sub, sub_dotProduct, dotProduct_smul, smul_dotProduct,
      single_one_dotProduct, mulVec_single_one, col_apply, smul_eq_mul] at this
    rw [hsym j i] at this ⊢
    have hj := hd j
    nlinarith
  simp only [Matrix.trace, diag_apply, Matrix.mul_apply]
  rw [pow_two, Finset.sum_mul_sum]
  obtain ⟨a, b, hab⟩ := exists_pair_ne n
  refine Finset.sum_lt_sum (fun i _ => Finset.sum_le_sum fun j _ => ?_) ⟨a, Finset.mem_univ _, ?_⟩
  · by_cases e : i = j
    · rw [e]
    · exact (hij i j e).le
  · refine Finset.sum_lt_sum (fun j _ => ?_) ⟨b, Finset.mem_univ _, hij a b hab⟩
    by_cases e : a = j
    · rw [e]
    · exact (hij a j e).le

/-- The matrices of the code are positive definite. -/
theorem vi_posDef (W : Matrix n n ℝ) (lam c : ℝ) (hc : 0 ≤ c) (hA0 : IsUnit (1 - lam • W).det) (K vi : Matrix n n ℝ)
    (hK : K = ((1 - lam • W)ᵀ * (1 - lam • W))⁻¹) (hvi : (c • (1 : Matrix n n ℝ) + K) * vi = 1) :
    K.PosDef ∧ vi.PosDef ∧ (vi * K).PosDef ∧ vi * K = K * vi := by
  have hA0t : IsUnit ((1 - lam • W)ᵀ).det := by rwa [det_transpose]
  have hgu : IsUnit ((1 - lam • W)ᵀ * (1 - lam • W)).det := by rw [det_mul]; exact hA0t.mul hA0
  have hg : ((1 - lam • W)ᵀ * (1 - lam • W)).PosDef := SUR.posDef_of (psd_gram _) hgu
  have hKp : K.PosDef := by rw [hK]; exact hg.inv
  have hKi : K⁻¹ = (1 - lam • W)ᵀ * (1 - lam • W) := by rw [hK, nonsing_inv_nonsing_inv _ hgu]
  have hKu : IsUnit K.det := by rw [hK]; exact isUnit_nonsing_inv_det _ hgu
  have hsum : (c • (1 : Matrix n n ℝ) + K).PosDef := by
    rcases hc.eq_or_lt with e | e
    · rw [← e, zero_smul, zero_add]; exact hKp
    · exact (PosDef.one.smul e).add hKp
  have hve : vi = (c • (1 : Matrix n n ℝ) + K)⁻¹ := (Matrix.inv_eq_right_inv hvi).symm
  have hvp : vi.PosDef := by rw [hve]; exact hsum.inv
  have hvi' : vi * (c • (1 : Matrix n n ℝ) + K) = 1 := mul_eq_one_comm.1 hvi
  have hcomm : vi * K = K * vi := by
    have e1 : c • vi + K * vi = 1 := by rw [← hvi, Matrix.add_mul, Matrix.smul_mul, Matrix.one_mul]
    have e2 : c • vi + vi * K = 1 := by rw [← hvi', Matrix.mul_add, Matrix.mul_smul, Matrix.mul_one]
    exact add_left_cancel (e2.trans e1.symm)
  refine ⟨hKp, hvp, ?_, hcomm⟩
  have hinv : (vi * K) * (c • K⁻¹ + 1) = 1 := by
    rw [Matrix.mul_add, Matrix.mul_smul, Matrix.mul_assoc, mul_nonsing_inv _ hKu, Matrix.mul_one, Matrix.mul_one, ← hvi',
      Matrix.mul_add, Matrix.mul_smul, Matrix.mul_one]
  have hpd : (c • K⁻¹ + 1).PosDef := by
    rcases hc.eq_or_lt with e | e
    · rw [← e, zero_smul, zero_add]; exact PosDef.one
    · exact (hKp.inv.smul e).add PosDef.one
  have : vi * K = (c • K⁻¹ + 1)⁻¹ := (Matrix.inv_eq_left_inv hinv).symm
  rw [this]
  exact hpd.inv

/-- C129 fails: with two or more units, even when `r` is the true variance ratio, the code's information about the variance of the
effects and about the variance is always too large. -/
theorem C129_errRE_violated [Nonempty τ] [Nontrivial n] (m : τ × n → ℝ) (W : Matrix n n ℝ) (hW : ∀ i, W i i = 0) (lam r sig2 : ℝ)
    (hs : 0 < sig2) (hr : 0 ≤ r) (I : Matrix (Fin 3) (Fin 3) ℝ) (h : errREInfo τ W lam r sig2 = some I) :
    (∀ P : Dist (reErrCov2 τ W (lam + 0 * 0) (r * sig2 + 0 * 1) (sig2 + 0 * 0)),
      fisherInfo (fun _ => m) (fun s => reErrCov2 τ W (lam + s * 0) (r * sig2 + s * 1) (sig2 + s * 0)) P < I 1 1) ∧
    (∀ P : Dist (reErrCov2 τ W (lam + 0 * 0) (r * sig2 + 0 * 0) (sig2 + 0 * 1)),
      fisherInfo (fun _ => m) (fun s => reErrCov2 τ W (lam + s * 0) (r * sig2 + s * 0) (sig2 + s * 1)) P < I 2 2) := by
  obtain ⟨K, vi, S, hA0, hK, hS, hvi, hI⟩ := errREInfo_some W hW lam r sig2 I h
  have hT : (0 : ℝ) < Fintype.card τ := by exact_mod_cast Fintype.card_pos
  obtain ⟨-, hvp, hep, -⟩ := vi_posDef W lam _ (mul_nonneg hT.le hr) hA0 K vi hK hvi
  have l1 := trace_sq_lt hvp
  have l2 := trace_sq_lt hep
  have q1 : I 1 1 = ![0, 1, 0] ⬝ᵥ (I *ᵥ ![0, 1, 0]) := by
    simp [dotProduct, mulVec, Fin.sum_univ_three]
  have q2 : I 2 2 = ![0, 0, 1] ⬝ᵥ (I *ᵥ ![0, 0, 1]) := by
    simp [dotProduct, mulVec, Fin.sum_univ_three]
  constructor
  · intro P
    rw [reErr_fisher m W lam r sig2 hs.ne' hA0 0 1 0 K vi S hK hS hvi P, q1, hI]
    simp only [zero_div, zero_smul, add_zero, Matrix.mul_zero, trace_zero, mul_zero, mul_one, Matrix.mul_smul, Matrix.smul_mul,
      smul_smul, trace_smul, smul_eq_mul]
    have hc : (0 : ℝ) < Fintype.card τ ^ 2 / (2 * sig2 ^ 2) := by positivity
    have := mul_lt_mul_of_pos_left l1 hc
    calc _ = (Fintype.card τ : ℝ) ^ 2 / (2 * sig2 ^ 2) * (vi * vi).trace := by field_simp
      _ < _ := this
      _ = _ := by ring
  · intro P
    rw [reErr_fisher m W lam r sig2 hs.ne' hA0 0 0 1 K vi S hK hS hvi P, q2, hI]
    simp only [zero_div, zero_smul, add_zero, zero_add, Matrix.mul_zero, trace_zero, mul_zero, mul_one, Matrix.mul_smul, Matrix.smul_mul,
      smul_smul, trace_smul, smul_eq_mul, Matrix.mul_one, trace_one]
    have hc : (0 : ℝ) < 1 / (2 * sig2 ^ 2) := by positivity
    have := mul_lt_mul_of_pos_left l2 hc
    calc _ = 1 / (2 * sig2 ^ 2) * (((Fintype.card τ : ℝ) - 1) * Fintype.card n) + 1 / (2 * sig2 ^ 2) * (vi * K * (vi * K)).trace := by
          field_simp
          ring
      _ < 1 / (2 * sig2 ^ 2) * (((Fintype.card τ : ℝ) - 1) * Fintype.card n) + 1 / (2 * sig2 ^ 2) * (vi * K).trace ^ 2 := by gcongr
      _ = _ := by ring

theorem trace_pos [Nonempty n] {M : Matrix n n ℝ} (hM : M.PosDef) : 0 < M.trace :=
  Finset.sum_pos (fun _ _ => hM.diag_pos) Finset.univ_nonempty

/-- `tr(vi K vi)` falls strictly when the variance ratio rises. -/
theorem trace_vi_lt [Nonempty n] (K v1 v2 : Matrix n n ℝ) (c1 c2 : ℝ) (hc : c1 < c2)
    (h1 : (c1 • (1 : Matrix n n ℝ) + K) * v1 = 1) (h2 : (c2 • (1 : Matrix n n ℝ) + K) * v2 = 1)
    (p1 : v1.PosDef) (p2 : v2.PosDef) (q1 : (v1 * K).PosDef) (q2 : (v2 * K).PosDef) (k1 : v1 * K = K * v1) (k2 : v2 * K = K * v2) :
    (v2 * K * v2).trace < (v1 * K * v1).trace := by
  have h1' := mul_eq_one_comm.1 h1
  have hd : v1 - v2 = (c2 - c1) • (v1 * v2) := by
    calc v1 - v2 = v1 * ((c2 • (1 : Matrix n n ℝ) + K) * v2) - (v1 * (c1 • (1 : Matrix n n ℝ) + K)) * v2 := by
          rw [h2, h1', Matrix.mul_one, Matrix.one_mul]
      _ = v1 * (((c2 • (1 : Matrix n n ℝ) + K) - (c1 • (1 : Matrix n n ℝ) + K)) * v2) := by
          rw [Matrix.sub_mul, Matrix.mul_sub, Matrix.mul_assoc]
      _ = _ := by
          rw [add_sub_add_right_eq_sub, ← sub_smul, Matrix.smul_mul, Matrix.one_mul, Matrix.mul_smul]
  have hs1 : v1ᵀ = v1 := by have := p1.1; rwa [IsHermitian, conjTranspose_eq_transpose_of_trivial] at this
  have hs2 : v2ᵀ = v2 := by have := p2.1; rwa [IsHermitian, conjTranspose_eq_transpose_of_trivial] at this
  have i1 : Function.Injective v1.mulVec := mulVec_injective_of_isUnit p1.isUnit
  have i2 : Function.Injective v2.mulVec := mulVec_injective_of_isUnit p2.isUnit
  have t1 : 0 < (v1 * (v2 * K) * v1).trace := by
    have := q2.conjTranspose_mul_mul_same (B := v1) i1
    rw [conjTranspose_eq_transpose_of_trivial, hs1] at this
    exact trace_pos this
  have t2 : 0 < (v2 * (v1 * K) * v2).trace := by
    have := q1.conjTranspose_mul_mul_same (B := v2) i2
    rw [conjTranspose_eq_transpose_of_trivial, hs2] at this
    exact trace_pos this
  have key : (v1 * K * v1).trace - (v2 * K * v2).trace =
      (c2 - c1) * ((v1 * (v2 * K) * v1).trace + (v2 * (v1 * K) * v2).trace) := by
    have e0 : (v1 * K * v1).trace - (v2 * K * v2).trace = ((v1 - v2) * K * v1).trace + (v2 * K * (v1 - v2)).trace := by
      rw [Matrix.sub_mul, Matrix.sub_mul, trace_sub, Matrix.mul_sub, trace_sub]
      ring
    rw [e0, hd]
    simp only [Matrix.smul_mul, Matrix.mul_smul, trace_smul, smul_eq_mul]
    have e1 : (v1 * v2 * K * v1).trace = (v1 * (v2 * K) * v1).trace := by simp only [Matrix.mul_assoc]
    have e2 : (v2 * K * (v1 * v2)).trace = (v2 * (v1 * K) * v2).trace := by rw [k1]; simp only [Matrix.mul_assoc]
    rw [e1, e2]
    ring
  have := mul_pos (sub_pos.2 hc) (add_pos t1 t2)
  linarith

/-- C129 fails, second reason: BaseML_ErrorRE computes `vi` with `sqrt(phi)`, but the ratio of the variances is `phi`. Unless the
estimated ratio is 0 or 1, the term between the variance of the effects and the variance is wrong for all data and weights. -/
theorem C129_ratio_violated [Nonempty τ] [Nonempty n] (m : τ × n → ℝ) (y : τ × n → ℝ) (x : Matrix (τ × n) k ℝ) (W : Matrix n n ℝ)
    (hW : ∀ i, W i i = 0) (ev : n → ℝ) (E : Matrix n n ℝ) (d : n → ℝ) (U : Matrix n n ℝ) (lam phi0 : ℝ) (f : ErrFit τ n k)
    (hf : errRE y x W ev E d U lam phi0 = some f) (hs : 0 < f.sig2) (h0 : 0 < phi0) (h1 : phi0 ≠ 1)
    (I : Matrix (Fin 3) (Fin 3) ℝ) (h : errREFitInfo W f = some I)
    (P : Dist (reErrCov2 τ W (lam + 0 * 0) (f.phi * f.sig2 + 0 * 1) (f.sig2 + 0 * 1)))
    (P1 : Dist (reErrCov2 τ W (lam + 0 * 0) (f.phi * f.sig2 + 0 * 1) (f.sig2 + 0 * 0)))
    (P2 : Dist (reErrCov2 τ W (lam + 0 * 0) (f.phi * f.sig2 + 0 * 0) (f.sig2 + 0 * 1))) :
    I 1 2 + I 2 1 ≠
      fisherInfo (fun _ => m) (fun s => reErrCov2 τ W (lam + s * 0) (f.phi * f.sig2 + s * 1) (f.sig2 + s * 1)) P -
      fisherInfo (fun _ => m) (fun s => reErrCov2 τ W (lam + s * 0) (f.phi * f.sig2 + s * 1) (f.sig2 + s * 0)) P1 -
      fisherInfo (fun _ => m) (fun s => reErrCov2 τ W (lam + s * 0) (f.phi * f.sig2 + s * 0) (f.sig2 + s * 1)) P2 := by
  unfold errRE at hf
  simp only [Option.bind_eq_some_iff, Option.map_eq_some_iff] at hf
  obtain ⟨g, -, B, -, hf⟩ := hf
  have hlam : f.lam = lam := by rw [← hf]
  have hphi : f.phi = phi0 ^ 2 := by rw [← hf]
  unfold errREFitInfo at h
  rw [hlam, hphi, Real.sqrt_sq h0.le] at h
  obtain ⟨K, v1, S, hA0, hK, hS, hv1, hI⟩ := errREInfo_some W hW lam phi0 f.sig2 I h
  have hT : (0 : ℝ) < Fintype.card τ := by exact_mod_cast Fintype.card_pos
  obtain ⟨hKp, p1, q1, k1⟩ := vi_posDef W lam _ (mul_nonneg hT.le h0.le) hA0 K v1 hK hv1
  have hsum : (((Fintype.card τ : ℝ) * phi0 ^ 2) • (1 : Matrix n n ℝ) + K).PosDef :=
    (PosDef.one.smul (by positivity)).add hKp
  have hv2 : (((Fintype.card τ : ℝ) * phi0 ^ 2) • (1 : Matrix n n ℝ) + K) *
      (((Fintype.card τ : ℝ) * phi0 ^ 2) • (1 : Matrix n n ℝ) + K)⁻¹ = 1 :=
    mul_nonsing_inv _ ((isUnit_iff_isUnit_det _).1 hsum.isUnit)
  set v2 := (((Fintype.card τ : ℝ) * phi0 ^ 2) • (1 : Matrix n n ℝ) + K)⁻¹
  obtain ⟨-, p2, q2, k2⟩ := vi_posDef W lam _ (by positivity) hA0 K v2 hK hv2
  have hne : (v2 * K * v2).trace ≠ (v1 * K * v1).trace := by
    rcases lt_or_gt_of_ne h1 with hl | hl
    · refine (trace_vi_lt K v2 v1 _ _ ?_ hv2 hv1 p2 p1 q2 q1 k2 k1).ne'
      exact mul_lt_mul_of_pos_left (by nlinarith) hT
    · refine (trace_vi_lt K v1 v2 _ _ ?_ hv1 hv2 p1 p2 q1 q2 k1 k2).ne
      exact mul_lt_mul_of_pos_left (by nlinarith) hT
  have hq : I 1 2 + I 2 1 = ![0, 1, 1] ⬝ᵥ (I *ᵥ ![0, 1, 1]) - ![0, 1, 0] ⬝ᵥ (I *ᵥ ![0, 1, 0]) - ![0, 0, 1] ⬝ᵥ (I *ᵥ ![0, 0, 1]) := by
    simp [dotProduct, mulVec, Fin.sum_univ_three]
    ring
  revert P P1 P2
  rw [hphi]
  intro P P1 P2
  rw [reErr_fisher m W lam _ f.sig2 hs.ne' hA0 0 1 1 K v2 S hK hS hv2 P, reErr_fisher m W lam _ f.sig2 hs.ne' hA0 0 1 0 K v2 S hK hS hv2 P1,
    reErr_fisher m W lam _ f.sig2 hs.ne' hA0 0 0 1 K v2 S hK hS hv2 P2, hq, hI, hI, hI]
  have t3 : (v2 * (v2 * K)).trace = (v2 * K * v2).trace := trace_mul_comm _ _
  simp only [Matrix.mul_add, Matrix.add_mul, Matrix.mul_smul, Matrix.smul_mul, Matrix.mul_one, Matrix.one_mul, smul_add,
    trace_add, trace_smul, trace_one, smul_eq_mul, t3, zero_smul, add_zero, zero_add, zero_div, Matrix.mul_zero, trace_zero,
    Matrix.zero_mul]
  intro e
  apply hne
  have hs' := hs.ne'
  have hT' := hT.ne'
  field_simp at e
  have e' : (Fintype.card τ : ℝ) * (v2 * K * v2).trace = Fintype.card τ * (v1 * K * v1).trace := by linarith
  exact mul_left_cancel₀ hT' e'

theorem reErrDist [Nonempty τ] [Nonempty n] (W : Matrix n n ℝ) (lam sm s2 : ℝ) (hm : 0 ≤ sm) (hs : 0 ≤ s2) (hA0 : IsUnit (1 - lam • W).det) :
    Nonempty (Dist (reErrCov2 τ W lam sm s2)) := by
  have hT : (0 : ℝ) < Fintype.card τ := by exact_mod_cast Fintype.card_pos
  set F := (1 - lam • W)⁻¹ with hF
  have hpsd : ((Fintype.card τ * sm) • (1 : Matrix n n ℝ) + s2 • (F * Fᵀ)).PosSemidef := by
    have h1 : ((Fintype.card τ * sm) • (1 : Matrix n n ℝ)).PosSemidef := PosSemidef.one.smul (by positivity)
    have h2 : (F * Fᵀ).PosSemidef := by
      have := posSemidef_self_mul_conjTranspose F
      rwa [conjTranspose_eq_transpose_of_trivial] at this
    exact h1.add (h2.smul hs)
  obtain ⟨L, hL⟩ : ∃ L : Matrix n n ℝ, (Fintype.card τ * sm) • (1 : Matrix n n ℝ) + s2 • (F * Fᵀ) = L * Lᵀ := by
    open scoped MatrixOrder in
    obtain ⟨B, hB⟩ := CStarAlgebra.nonneg_iff_eq_star_mul_self.mp hpsd.nonneg
    refine ⟨Bᵀ, ?_⟩
    rw [hB, star_eq_conjTranspose, conjTranspose_eq_transpose_of_trivial, transpose_transpose]
  have hinv : (1 - lam • bigW τ W)⁻¹ = bigW τ F := by
    apply Matrix.inv_eq_right_inv
    rw [filt_bigW, bigW_mul, mul_nonsing_inv _ hA0, ← one_bigW]
  have h : reErrCov2 τ W lam sm s2 = mix τ L (Real.sqrt s2 • F) * (mix τ L (Real.sqrt s2 • F))ᵀ := by
    rw [reErrCov2_eq _ _ _ _ hA0, hinv, bigW_transpose, bigW_mul, bigW_eq, mix_smul, mix_add, mix_transpose, mix_mul, ← hL,
      zero_add, transpose_smul, Matrix.smul_mul, Matrix.mul_smul, smul_smul, Real.mul_self_sqrt hs]
  rw [h]
  exact ⟨distOf _⟩

/-- Non-vacuity of C129: the matrix is computed for two units, `lam = 1/2`, ratio 4 and variance 3. -/
example : (∀ i, exW i i = 0) ∧ (∃ I, errREInfo (Fin 2) exW (1 / 2) 4 3 = some I) ∧
    Nonempty (Dist (reErrCov2 (Fin 2) exW (1 / 2 + 0 * 1) (4 * 3 + 0 * 1) (3 + 0 * 1))) := by
  have hA := exA (1 / 2) (by rw [abs_of_pos (by norm_num)]; norm_num)
  refine ⟨exW_diag, ?_, reErrDist _ _ _ _ (by norm_num) (by norm_num) (by simpa using hA)⟩
  have hgu : IsUnit ((1 - (1 / 2 : ℝ) • exW)ᵀ * (1 - (1 / 2 : ℝ) • exW)).det := by
    rw [det_mul, det_transpose]; exact hA.mul hA
  unfold errREInfo
  rw [filledA_eq _ exW_diag]
  simp only [inv?_of_isUnit hgu, Option.bind_some]
  rw [inv?_of_isUnit]
  · exact ⟨_, rfl⟩
  · have hK : (((1 - (1 / 2 : ℝ) • exW)ᵀ * (1 - (1 / 2 : ℝ) • exW))⁻¹).PosDef := (SUR.posDef_of (psd_gram _) hgu).inv
    have : (((Fintype.card (Fin 2) : ℝ) * 4) • (1 : Matrix (Fin 2) (Fin 2) ℝ) +
        ((1 - (1 / 2 : ℝ) • exW)ᵀ * (1 - (1 / 2 : ℝ) • exW))⁻¹).PosDef := (PosDef.one.smul (by norm_num)).add hK
    exact (isUnit_iff_isUnit_det _).1 this.isUnit

end Spreg.PanelML
