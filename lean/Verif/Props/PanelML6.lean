import Verif.Props.PanelML2
/-
C100-C102: covariance matrices of the ML panel estimators.
-/
namespace Spreg.PanelML
open Matrix Spreg.Lin Spreg.ML Spreg.Gauss
open scoped Kronecker

variable {τ n k : Type} [Fintype τ] [Fintype n] [Fintype k] [DecidableEq τ] [DecidableEq n] [DecidableEq k]

theorem bigW_mul (A B : Matrix n n ℝ) : bigW τ A * bigW τ B = bigW τ (A * B) := by
  unfold bigW; rw [← mul_kronecker_mul, Matrix.one_mul]

theorem bigW_transpose (A : Matrix n n ℝ) : (bigW τ A)ᵀ = bigW τ Aᵀ := by
  unfold bigW; rw [← kroneckerMap_transpose, transpose_one]

theorem bigW_trace (A : Matrix n n ℝ) : (bigW τ A).trace = Fintype.card τ * A.trace := by
  unfold bigW; rw [trace_kronecker, trace_one]

theorem filledA_bigW (W : Matrix n n ℝ) (rho : ℝ) : filledA (bigW τ W) rho = bigW τ (filledA W rho) := by
  ext a b
  simp only [filledA, bigW, of_apply, kroneckerMap_apply, one_apply, Prod.ext_iff]
  by_cases h1 : a.1 = b.1 <;> by_cases h2 : a.2 = b.2 <;> simp [h1, h2]

/-- The traces of the stacked weights. -/
theorem traces_bigW (W ai : Matrix n n ℝ) (rho : ℝ) (h : inv? (filledA W rho) = some ai) :
    traces (bigW τ W) rho = some (Fintype.card τ * (W * ai).trace, Fintype.card τ * ((W * ai) * (W * ai)).trace,
      Fintype.card τ * ((W * ai)ᵀ * (W * ai)).trace) := by
  obtain ⟨hu, rfl, h1, -⟩ := inv?_eq_some h
  unfold traces
  have hb : IsUnit (filledA (bigW τ W) rho).det := by rw [filledA_bigW, det_bigW]; exact hu.pow _
  have hi : (filledA (bigW τ W) rho)⁻¹ = bigW τ (filledA W rho)⁻¹ := by
    apply Matrix.inv_eq_right_inv
    rw [filledA_bigW, bigW_mul, h1]
    unfold bigW; rw [one_kronecker_one]
  rw [inv?_of_isUnit hb, Option.map_some, hi]
  simp only [bigW_mul, bigW_transpose, bigW_trace]

/-- The information matrix of ML_LagFE is that of ML_Lag for the demeaned stacked data. -/
theorem lagFEInfo_eq [Nonempty τ] (x : Matrix (τ × n) k ℝ) (W ai : Matrix n n ℝ) (b : k → ℝ) (sig2 : ℝ) :
    lagFEInfo x (W * ai) b sig2 = lagInfo (quasi τ n 0 * x) (bigW τ (W * ai) *ᵥ ((quasi τ n 0 * x) *ᵥ b)) sig2
      (Fintype.card τ * (W * ai).trace, Fintype.card τ * ((W * ai) * (W * ai)).trace,
        Fintype.card τ * ((W * ai)ᵀ * (W * ai)).trace) := by
  generalize W * ai = G
  have hs : (quasi τ n 0)ᵀ = quasi τ n 0 := by rw [quasi_eq, mix_transpose]; simp
  have hi : quasi τ n 0 * quasi τ n 0 = quasi τ n 0 := by rw [quasi_eq, mix_mul]; simp
  have e1 : xᵀ *ᵥ (bigW τ G *ᵥ ((quasi τ n 0 * x) *ᵥ b)) = (quasi τ n 0 * x)ᵀ *ᵥ (bigW τ G *ᵥ ((quasi τ n 0 * x) *ᵥ b)) := by
    rw [transpose_mul, hs, ← mulVec_mulVec _ xᵀ]
    congr 1
    have hq : quasi τ n 0 *ᵥ ((quasi τ n 0 * x) *ᵥ b) = (quasi τ n 0 * x) *ᵥ b := by
      rw [mulVec_mulVec, ← Matrix.mul_assoc, hi]
    rw [mulVec_mulVec _ (quasi τ n 0) (bigW τ G), quasi_comm, ← mulVec_mulVec _ (bigW τ G), hq]
  have e2 : (bigW τ G *ᵥ ((quasi τ n 0 * x) *ᵥ b)) ⬝ᵥ (bigW τ G *ᵥ ((quasi τ n 0 * x) *ᵥ b)) =
      ((quasi τ n 0 * x) *ᵥ b) ⬝ᵥ (bigW τ (Gᵀ * G) *ᵥ ((quasi τ n 0 * x) *ᵥ b)) := by
    rw [← bigW_mul, ← bigW_transpose, ← mulVec_mulVec _ (bigW τ G)ᵀ, dotProduct_mulVec _ (bigW τ G)ᵀ, vecMul_transpose]
  unfold lagFEInfo lagInfo
  ext i j
  rcases i with i | i | i <;> rcases j with j | j | j <;> simp only [of_apply]
  · rw [e1]
  · rw [e1]
  · rw [e2, mul_add]
  · rw [card_prod]

/-- C100 for ML_LagFE: the information matrix is symmetric positive semidefinite, for all weights, rho and data, and the
reported variances are positive. -/
theorem C100_lagFE [Nonempty τ] [Nonempty n] (x : Matrix (τ × n) k ℝ) (W ai : Matrix n n ℝ) (rho : ℝ) (b : k → ℝ)
    (sig2 : ℝ) (hs : 0 < sig2) (h : inv? (filledA W rho) = some ai) :
    SymPSD (lagFEInfo x (W * ai) b sig2) ∧
    ∀ vm, inv? (lagFEInfo x (W * ai) b sig2) = some vm → ∀ i, 0 < vm i i := by
  rw [lagFEInfo_eq]
  exact ⟨C67_lag_info _ _ sig2 hs (bigW τ W) rho _ (traces_bigW W ai rho h), fun vm hv i =>
    C67_lag_variances _ _ sig2 hs (bigW τ W) rho _ (traces_bigW W ai rho h) vm hv i⟩

/-- C100 for ML_ErrorFE: the covariance matrix of the coefficients is symmetric positive semidefinite, with a positive
variance of lambda. -/
theorem C100_errFE [Nonempty τ] [Nonempty n] (y : τ × n → ℝ) (x : Matrix (τ × n) k ℝ) (W : Matrix n n ℝ) (lam : ℝ)
    (f : ErrFit τ n k) (h : errFE true y x W lam = some f) (h0 : f.eFiltered ≠ 0)
    (vm : Matrix (k ⊕ Unit) (k ⊕ Unit) ℝ) (hv : errFEVm W f = some vm) :
    SymPSD vm ∧ 0 < vm (.inr ()) (.inr ()) := by
  unfold errFE at h
  simp only [Option.map_eq_some_iff, if_true] at h
  obtain ⟨B, hB, hf⟩ := h
  obtain ⟨hu, rfl, -⟩ := inv?_eq_some hB
  have hlam : f.lam = lam := by rw [← hf]
  have hsf : f.sig2 = (f.eFiltered ⬝ᵥ f.eFiltered) / NT τ n := by rw [← hf]
  have hvb : f.varb = f.sig2 • ((quasi τ n 0 * x - lam • (bigW τ W * (quasi τ n 0 * x)))ᵀ *
        (quasi τ n 0 * x - lam • (bigW τ W * (quasi τ n 0 * x))))⁻¹ := by rw [← hf]
  have hs : 0 < f.sig2 := by
    rw [hsf, ← utu_eq_dot]
    have hpos : 0 < utu f.eFiltered := lt_of_le_of_ne (utu_nonneg _) fun e => h0 ((utu_eq_zero _).1 e.symm)
    refine div_pos hpos ?_
    rw [← card_prod]
    exact_mod_cast Fintype.card_pos
  unfold errFEVm at hv
  rw [hlam] at hv
  simp only [Option.bind_eq_some_iff] at hv
  obtain ⟨ai, hai, hv⟩ := hv
  refine (C67_err f.sig2 hs (bigW τ W) lam _ (traces_bigW W ai lam hai)).2 _ hu vm ?_
  unfold errVm errInfo
  rw [← hvb, card_prod, ← mul_add]
  exact hv

/-! ### C101 -/

/-- C101, where the covariance matrix of ML_LagRE is symmetric: exactly when the trace of `W(I - rho W)^-1` is zero or
`sig2 = 1`. `vm` is the reported matrix, without the last row and column. -/
theorem C101_symm_iff_partial [Nonempty τ] [Nonempty n] (x : Matrix (τ × n) k ℝ) (wai : Matrix n n ℝ) (b : k → ℝ)
    (sig2 phi : ℝ) (hs : 0 < sig2) (hx : IsUnit ((quasi τ n phi * x)ᵀ * (quasi τ n phi * x)).det)
    (vm1 : Matrix (k ⊕ Fin 3) (k ⊕ Fin 3) ℝ) (h : inv? (lagREInfo x wai b sig2 phi) = some vm1) :
    vm1 (.inr 0) (.inr 1) = vm1 (.inr 1) (.inr 0) ↔ wai.trace = 0 ∨ sig2 = 1 := by
  obtain ⟨-, -, hr, hl⟩ := inv?_eq_some h
  have hT : (0 : ℝ) < Fintype.card τ := by exact_mod_cast Fintype.card_pos
  have hN : (0 : ℝ) < Fintype.card n := by exact_mod_cast Fintype.card_pos
  set M := lagREInfo x wai b sig2 phi with hM
  set c := Fintype.card τ * wai.trace / sig2 with hc
  set e1 := -(Fintype.card n : ℝ) / sig2 ^ 2 with he1
  set e2 := -(Fintype.card n : ℝ) / sig2 with he2
  set g := NT τ n / (2 * sig2 ^ 2) with hg
  have hgpos : 0 < g := div_pos (mul_pos hN hT) (by positivity)
  -- entries of the last column and row of the information matrix
  have mc : ∀ j, M (.inl j) (.inr 2) = 0 := fun j => by simp [hM, lagREInfo]
  have m0 : M (.inr 0) (.inr 2) = c := by simp [hM, lagREInfo, lagREInfo3, hc]
  have m1 : M (.inr 1) (.inr 2) = e1 := by simp [hM, lagREInfo, lagREInfo3, he1]
  have m2 : M (.inr 2) (.inr 2) = g := by simp [hM, lagREInfo, lagREInfo3, hg]
  have r0 : M (.inr 2) (.inr 0) = c := by simp [hM, lagREInfo, lagREInfo3, hc]
  have r1 : M (.inr 2) (.inr 1) = e2 := by simp [hM, lagREInfo, lagREInfo3, he2]
  have rc : ∀ j, M (.inr 2) (.inl j) = 0 := fun j => by simp [hM, lagREInfo]
  have q1 : ∀ j, M (.inr 1) (.inl j) = 0 := fun j => by simp [hM, lagREInfo]
  have q1' : ∀ j, M (.inl j) (.inr 1) = 0 := fun j => by simp [hM, lagREInfo]
  have hxx : ∀ i j, M (.inl i) (.inl j) = 1 / sig2 * ((quasi τ n phi * x)ᵀ * (quasi τ n phi * x)) i j := fun i j => by
    simp [hM, lagREInfo]
  set d01 := M (.inr 0) (.inr 1)
  have d10 : M (.inr 1) (.inr 0) = M (.inr 0) (.inr 1) := by simp [hM, lagREInfo, lagREInfo3]
  -- V M = 1 for the last column
  have hcol : ∀ i, vm1 i (.inr 0) * c + vm1 i (.inr 1) * e1 + vm1 i (.inr 2) * g =
      (1 : Matrix (k ⊕ Fin 3) (k ⊕ Fin 3) ℝ) i (.inr 2) := by
    intro i
    have := congrFun (congrFun hl i) (.inr 2)
    rw [Matrix.mul_apply, Fintype.sum_sum_type, Fin.sum_univ_three, m0, m1, m2] at this
    simpa [mc] using this
  have c0 := hcol (.inr 0)
  have c1 := hcol (.inr 1)
  rw [one_apply_ne (by simp)] at c0 c1
  -- M V = 1 for the last row
  have hrow : ∀ i, c * vm1 (.inr 0) i + e2 * vm1 (.inr 1) i + g * vm1 (.inr 2) i =
      (1 : Matrix (k ⊕ Fin 3) (k ⊕ Fin 3) ℝ) (.inr 2) i := by
    intro i
    have := congrFun (congrFun hr (.inr 2)) i
    rw [Matrix.mul_apply, Fintype.sum_sum_type, Fin.sum_univ_three, r0, r1, m2] at this
    simpa [rc] using this
  -- the antisymmetric part
  have hanti : vm1 (.inr 0) (.inr 1) - vm1 (.inr 1) (.inr 0) =
      (e2 - e1) * (vm1 (.inr 0) (.inr 1) * vm1 (.inr 1) (.inr 2) - vm1 (.inr 0) (.inr 2) * vm1 (.inr 1) (.inr 1)) := by
    have hmat : vm1 - vm1ᵀ = vm1 * (Mᵀ - M) * vm1ᵀ := by
      have ht : Mᵀ * vm1ᵀ = 1 := by rw [← transpose_mul, hl, transpose_one]
      rw [Matrix.mul_sub, Matrix.sub_mul, Matrix.mul_assoc, ht, Matrix.mul_one, hl, Matrix.one_mul]
    have hD : ∀ i j, (Mᵀ - M) i j = if i = .inr 1 ∧ j = .inr 2 then e2 - e1 else
        if i = .inr 2 ∧ j = .inr 1 then e1 - e2 else 0 := by
      intro i j
      rw [Matrix.sub_apply, transpose_apply]
      rcases i with i | i <;> rcases j with j | j
      · rw [hxx, hxx]
        have : ((quasi τ n phi * x)ᵀ * (quasi τ n phi * x)) j i = ((quasi τ n phi * x)ᵀ * (quasi τ n phi * x)) i j := by
          rw [← transpose_apply ((quasi τ n phi * x)ᵀ * (quasi τ n phi * x)), transpose_mul, transpose_transpose]
        rw [this]; simp
      · fin_cases j <;> simp [hM, lagREInfo]
      · fin_cases i <;> simp [hM, lagREInfo]
      · fin_cases i <;> fin_cases j <;> simp [hM, lagREInfo, lagREInfo3, he1, he2]
    have := congrFun (congrFun hmat (.inr 0)) (.inr 1)
    rw [Matrix.sub_apply, transpose_apply] at this
    rw [this, Matrix.mul_assoc, Matrix.mul_apply]
    have hin : ∀ i, ((Mᵀ - M) * vm1ᵀ) i (.inr 1) = if i = .inr 1 then (e2 - e1) * vm1 (.inr 1) (.inr 2) else
        if i = .inr 2 then (e1 - e2) * vm1 (.inr 1) (.inr 1) else 0 := by
      intro i
      rw [Matrix.mul_apply]
      by_cases h1 : i = .inr 1
      · rw [if_pos h1, Finset.sum_eq_single (.inr 2)]
        · rw [hD, if_pos ⟨h1, rfl⟩, transpose_apply]
        · intro j _ hj; rw [hD, if_neg (fun h => hj h.2), if_neg (fun h => by rw [h1] at h; simp at h), zero_mul]
        · simp
      · by_cases h2 : i = .inr 2
        · rw [if_neg h1, if_pos h2, Finset.sum_eq_single (.inr 1)]
          · rw [hD, if_neg (fun h => h1 h.1), if_pos ⟨h2, rfl⟩, transpose_apply]
          · intro j _ hj; rw [hD, if_neg (fun h => h1 h.1), if_neg (fun h => hj h.2), zero_mul]
          · simp
        · rw [if_neg h1, if_neg h2]
          exact Finset.sum_eq_zero fun j _ => by
            rw [hD, if_neg (fun h => h1 h.1), if_neg (fun h => h2 h.1), zero_mul]
    rw [Finset.sum_congr rfl fun i _ => by rw [hin i], Fintype.sum_sum_type, Fin.sum_univ_three]
    simp
    ring
  -- the minor
  have hminor : g * (vm1 (.inr 0) (.inr 1) * vm1 (.inr 1) (.inr 2) - vm1 (.inr 0) (.inr 2) * vm1 (.inr 1) (.inr 1)) =
      c * (vm1 (.inr 0) (.inr 0) * vm1 (.inr 1) (.inr 1) - vm1 (.inr 0) (.inr 1) * vm1 (.inr 1) (.inr 0)) := by
    linear_combination vm1 (.inr 0) (.inr 1) * c1 - vm1 (.inr 1) (.inr 1) * c0
  have hnz : vm1 (.inr 0) (.inr 0) * vm1 (.inr 1) (.inr 1) - vm1 (.inr 0) (.inr 1) * vm1 (.inr 1) (.inr 0) ≠ 0 := by
    intro hz
    -- a combination of two columns with zeros in both places
    have key : ∀ p q : ℝ, p * vm1 (.inr 0) (.inr 0) + q * vm1 (.inr 0) (.inr 1) = 0 →
        p * vm1 (.inr 1) (.inr 0) + q * vm1 (.inr 1) (.inr 1) = 0 → p = 0 ∧ q = 0 := by
      intro p q hp hq
      let v : k ⊕ Fin 3 → ℝ := fun i => p * vm1 i (.inr 0) + q * vm1 i (.inr 1)
      have hMv : ∀ i, ∑ j, M i j * v j = p * (1 : Matrix (k ⊕ Fin 3) (k ⊕ Fin 3) ℝ) i (.inr 0) +
          q * (1 : Matrix (k ⊕ Fin 3) (k ⊕ Fin 3) ℝ) i (.inr 1) := by
        intro i
        rw [← hr, Matrix.mul_apply, Matrix.mul_apply, Finset.mul_sum, Finset.mul_sum, ← Finset.sum_add_distrib]
        exact Finset.sum_congr rfl fun j _ => by simp only [v]; ring
      have v0 : v (.inr 0) = 0 := hp
      have v1 : v (.inr 1) = 0 := hq
      have v2 : v (.inr 2) = 0 := by
        have := hMv (.inr 2)
        rw [Fintype.sum_sum_type, Fin.sum_univ_three, v0, v1, m2] at this
        simp [rc] at this
        exact this.resolve_left hgpos.ne'
      have vb : (fun j => v (.inl j)) = 0 := by
        have hz : ((quasi τ n phi * x)ᵀ * (quasi τ n phi * x)) *ᵥ (fun j => v (.inl j)) = 0 := by
          funext i
          have := hMv (.inl i)
          rw [Fintype.sum_sum_type, Fin.sum_univ_three, v0, v1, v2] at this
          simp only [hxx, mul_zero, add_zero, one_apply_ne (by simp : (Sum.inl i : k ⊕ Fin 3) ≠ .inr 0),
            one_apply_ne (by simp : (Sum.inl i : k ⊕ Fin 3) ≠ .inr 1), mul_assoc, ← Finset.mul_sum] at this
          rcases mul_eq_zero.1 this with h | h
          · exact absurd h (by positivity)
          · exact h
        rw [← one_mulVec (fun j => v (.inl j)), ← nonsing_inv_mul _ hx, ← mulVec_mulVec, hz, mulVec_zero]
      have hvz : ∀ i, v i = 0 := by
        intro i
        rcases i with i | i
        · exact congrFun vb i
        · fin_cases i
          · exact v0
          · exact v1
          · exact v2
      have p0 := hMv (.inr 0)
      have p1 := hMv (.inr 1)
      simp only [hvz, mul_zero, Finset.sum_const_zero] at p0 p1
      simp at p0 p1
      exact ⟨p0.symm, p1.symm⟩
    have k1 := key (vm1 (.inr 1) (.inr 1)) (-vm1 (.inr 1) (.inr 0)) (by linear_combination hz) (by ring)
    have k2 := key (vm1 (.inr 0) (.inr 1)) (-vm1 (.inr 0) (.inr 0)) (by ring) (by linear_combination -hz)
    have k3 := key 1 0 (by have := k2.2; linarith) (by have := k1.2; linarith)
    exact one_ne_zero k3.1
  constructor
  · intro heq
    rw [sub_eq_zero.2 heq] at hanti
    by_contra hcon
    push Not at hcon
    have hce : c ≠ 0 := div_ne_zero (mul_ne_zero hT.ne' hcon.1) hs.ne'
    have hee : e2 - e1 ≠ 0 := by
      intro h
      have : sig2 = 1 := by
        rw [he1, he2] at h
        field_simp at h
        have : (Fintype.card n : ℝ) * (1 - sig2) = 0 := by linarith
        rcases mul_eq_zero.1 this with h | h
        · exact absurd h hN.ne'
        · linarith
      exact hcon.2 this
    have hmz : vm1 (.inr 0) (.inr 1) * vm1 (.inr 1) (.inr 2) - vm1 (.inr 0) (.inr 2) * vm1 (.inr 1) (.inr 1) = 0 :=
      (mul_eq_zero.1 hanti.symm).resolve_left hee
    rw [hmz, mul_zero] at hminor
    exact mul_ne_zero hce hnz hminor.symm
  · rintro (h | h)
    · have hc0 : c = 0 := by rw [hc, h, mul_zero, zero_div]
      rw [hc0, zero_mul] at hminor
      have := (mul_eq_zero.1 hminor).resolve_left hgpos.ne'
      rw [this, mul_zero] at hanti
      linarith
    · have : e2 - e1 = 0 := by rw [he1, he2, h]; ring
      rw [this, zero_mul] at hanti
      linarith

/-- C101 fails: for two neighbours in two periods, a constant, rho = 1/2, `sig2 = 2`, `phi = 1/2` the covariance of rho and
phi reported by ML_LagRE differs from the covariance of phi and rho. -/
theorem C101_lagRE_violated :
    ∃ ai vm1, inv? (filledA (!![0, 1; 1, 0] : Matrix (Fin 2) (Fin 2) ℝ) (1 / 2)) = some ai ∧
      inv? (lagREInfo (τ := Fin 2) (Matrix.of fun _ _ => 1 : Matrix (Fin 2 × Fin 2) Unit ℝ) (!![0, 1; 1, 0] * ai) (fun _ => 0)
        2 (1 / 2)) = some vm1 ∧ vm1 (.inr 0) (.inr 1) ≠ vm1 (.inr 1) (.inr 0) := by
  have hF : filledA (!![0, 1; 1, 0] : Matrix (Fin 2) (Fin 2) ℝ) (1 / 2) = !![1, -1/2; -1/2, 1] := by
    ext i j; fin_cases i <;> fin_cases j <;> simp [filledA] <;> norm_num
  have hFu : IsUnit (!![1, -1/2; -1/2, 1] : Matrix (Fin 2) (Fin 2) ℝ).det := by
    rw [isUnit_iff_ne_zero, det_fin_two]; norm_num
  have hFi : (!![1, -1/2; -1/2, 1] : Matrix (Fin 2) (Fin 2) ℝ)⁻¹ = !![4/3, 2/3; 2/3, 4/3] := by
    apply Matrix.inv_eq_right_inv
    ext i j; fin_cases i <;> fin_cases j <;> simp [Matrix.mul_apply, Fin.sum_univ_two] <;> norm_num
  have hwai : (!![0, 1; 1, 0] * !![4/3, 2/3; 2/3, 4/3] : Matrix (Fin 2) (Fin 2) ℝ) = !![2/3, 4/3; 4/3, 2/3] := by
    ext i j; fin_cases i <;> fin_cases j <;> simp [Matrix.mul_apply, Fin.sum_univ_two]
  have t1 : (!![2/3, 4/3; 4/3, 2/3] : Matrix (Fin 2) (Fin 2) ℝ).trace = 4 / 3 := by
    simp [Matrix.trace, Fin.sum_univ_two]; norm_num
  have t2 : (!![2/3, 4/3; 4/3, 2/3] * !![2/3, 4/3; 4/3, 2/3] : Matrix (Fin 2) (Fin 2) ℝ).trace = 40 / 9 := by
    simp [Matrix.trace, Fin.sum_univ_two, Matrix.mul_apply]; norm_num
  have tt : (!![2/3, 4/3; 4/3, 2/3] : Matrix (Fin 2) (Fin 2) ℝ)ᵀ = !![2/3, 4/3; 4/3, 2/3] := by
    ext i j; fin_cases i <;> fin_cases j <;> rfl
  set X : Matrix (Fin 2 × Fin 2) Unit ℝ := Matrix.of fun _ _ => 1
  have hQX : quasi (Fin 2) (Fin 2) (1 / 2) * X = Matrix.of fun _ _ => 1 / 2 := by
    have : X = Matrix.of fun (a : Fin 2 × Fin 2) (_ : Unit) => (fun _ => 1 : Fin 2 × Fin 2 → ℝ) a := rfl
    ext a j
    have h1 : (quasi (Fin 2) (Fin 2) (1 / 2) * X) a j = (quasi (Fin 2) (Fin 2) (1 / 2) *ᵥ fun _ => 1) a := rfl
    rw [h1, quasi_eq, mix_apply]
    simp [one_apply, Finset.sum_sub_distrib]
  have hXX : ((quasi (Fin 2) (Fin 2) (1 / 2) * X)ᵀ * (quasi (Fin 2) (Fin 2) (1 / 2) * X)) = Matrix.of fun _ _ => 1 := by
    rw [hQX]
    ext i j
    simp [Matrix.mul_apply, Fintype.sum_prod_type]
    norm_num
  have hXu : IsUnit ((quasi (Fin 2) (Fin 2) (1 / 2) * X)ᵀ * (quasi (Fin 2) (Fin 2) (1 / 2) * X)).det := by
    rw [hXX, det_unique]; simp
  have hI : lagREInfo (τ := Fin 2) X !![2/3, 4/3; 4/3, 2/3] (fun _ => 0) 2 (1 / 2) =
      fromBlocks ((1 / 2 : ℝ) • (Matrix.of fun _ _ => 1 : Matrix Unit Unit ℝ)) 0 0
        !![160/9, -2/3, 4/3; -2/3, 10, -1/2; 4/3, -1, 1/2] := by
    unfold lagREInfo
    have hz : (quasi (Fin 2) (Fin 2) (1 / 2) * X) *ᵥ (fun _ => (0 : ℝ)) = 0 := by
      rw [show (fun _ : Unit => (0 : ℝ)) = 0 from rfl, mulVec_zero]
    simp only [hz, mulVec_zero, dotProduct_zero, zero_dotProduct, hXX]
    congr 1
    · ext i c; fin_cases c <;> simp
    · ext c i; fin_cases c <;> simp
    · rw [tt, t1, t2]
      ext i j; fin_cases i <;> fin_cases j <;> simp [lagREInfo3, NT] <;> norm_num
  have hIu : IsUnit (lagREInfo (τ := Fin 2) X !![2/3, 4/3; 4/3, 2/3] (fun _ => 0) 2 (1 / 2)).det := by
    rw [hI, det_fromBlocks_zero₂₁, det_unique, det_fin_three, isUnit_iff_ne_zero]
    simp
    norm_num
  refine ⟨_, _, by rw [hF]; exact inv?_of_isUnit hFu, by rw [hFi, hwai]; exact inv?_of_isUnit hIu, ?_⟩
  have := C101_symm_iff_partial X !![2/3, 4/3; 4/3, 2/3] (fun _ => 0) 2 (1 / 2) (by norm_num) hXu _ (inv?_of_isUnit hIu)
  rw [Ne, this, t1]
  norm_num

/-! ### C102 -/

/-- C102 fails for ML_ErrorRE: the information matrix has `tr(Gamma)^2` in the place of `tr(Gamma^2)`, so that for
`lambda = 0` (the starting value of the optimiser) the row of lambda is zero and the inversion raises, for all weights with zero
diagonal. -/
theorem C102_errRE_violated (W : Matrix n n ℝ) (hW : ∀ i, W i i = 0) (r sig2 : ℝ) (v : Matrix (Fin 3) (Fin 3) ℝ)
    (h : errREInfo τ W 0 r sig2 = some v) : (∀ j, v 0 j = 0) ∧ inv? v = none := by
  unfold errREInfo at h
  have ha : filledA W 0 = 1 := by rw [filledA_eq W hW, zero_smul, sub_zero]
  simp only [ha, transpose_one, Matrix.one_mul] at h
  rw [inv?_of_isUnit (by rw [det_one]; exact isUnit_one), Option.bind_some, inv_one] at h
  simp only [Matrix.mul_one, Matrix.one_mul] at h
  rw [Option.map_eq_some_iff] at h
  obtain ⟨vi, hvi, rfl⟩ := h
  obtain ⟨hu, rfl, -⟩ := inv?_eq_some hvi
  set T : ℝ := (Fintype.card τ : ℝ)
  have hvi' : (((T * r) • (1 : Matrix n n ℝ)) + 1) = (T * r + 1) • 1 := by rw [add_smul, one_smul]
  have hscal : ∃ c : ℝ, (((T * r) • (1 : Matrix n n ℝ)) + 1)⁻¹ = c • 1 := by
    rw [hvi']
    rw [hvi'] at hu
    by_cases hn : Nonempty n
    · have hne : T * r + 1 ≠ 0 := by
        intro e
        rw [e, zero_smul, det_zero] at hu
        exact not_isUnit_zero hu
      refine ⟨(T * r + 1)⁻¹, ?_⟩
      apply Matrix.inv_eq_right_inv
      rw [Matrix.smul_mul, Matrix.mul_smul, smul_smul, mul_inv_cancel₀ hne, one_smul, Matrix.one_mul]
    · haveI := not_nonempty_iff.1 hn
      exact ⟨0, Subsingleton.elim _ _⟩
  obtain ⟨c, hc⟩ := hscal
  have htr : (Wᵀ + W).trace = 0 := by
    rw [trace_add, trace_transpose]
    simp [Matrix.trace, hW]
  rw [hc]
  have t4 : ((c • (1 : Matrix n n ℝ)) * (Wᵀ + W)).trace = 0 := by
    rw [Matrix.smul_mul, Matrix.one_mul, trace_smul, htr, smul_zero]
  have t6 : ((c • (1 : Matrix n n ℝ)) * (Wᵀ + W) * (c • 1)).trace = 0 := by
    rw [Matrix.mul_smul, Matrix.mul_one, trace_smul, t4, smul_zero]
  have hrow : ∀ j, (!![(T - 1) / 2 * (Wᵀ + W).trace ^ 2 + 1 / 2 * ((c • (1 : Matrix n n ℝ)) * (Wᵀ + W)).trace ^ 2,
        T / (2 * sig2) * ((c • (1 : Matrix n n ℝ)) * (Wᵀ + W) * (c • 1)).trace,
        (T - 1) / (2 * sig2) * (Wᵀ + W).trace + 1 / (2 * sig2) * ((c • (1 : Matrix n n ℝ)) * (Wᵀ + W) * (c • 1)).trace;
      T / (2 * sig2) * ((c • (1 : Matrix n n ℝ)) * (Wᵀ + W) * (c • 1)).trace,
        T ^ 2 / (2 * sig2 ^ 2) * (c • (1 : Matrix n n ℝ)).trace ^ 2,
        T / (2 * sig2 ^ 2) * ((c • (1 : Matrix n n ℝ)) * (c • 1)).trace;
      (T - 1) / (2 * sig2) * (Wᵀ + W).trace + 1 / (2 * sig2) * ((c • (1 : Matrix n n ℝ)) * (Wᵀ + W) * (c • 1)).trace,
        T / (2 * sig2 ^ 2) * ((c • (1 : Matrix n n ℝ)) * (c • 1)).trace,
        1 / (2 * sig2 ^ 2) * ((T - 1) * Fintype.card n + (c • (1 : Matrix n n ℝ)).trace ^ 2)] : Matrix (Fin 3) (Fin 3) ℝ) 0 j = 0 := by
    intro j
    rw [t4, t6, htr]
    fin_cases j <;> simp
  refine ⟨hrow, ?_⟩
  by_contra hne
  obtain ⟨B, hB⟩ := Option.ne_none_iff_exists'.1 hne
  obtain ⟨hu, -⟩ := inv?_eq_some hB
  rw [det_eq_zero_of_row_eq_zero 0 hrow] at hu
  exact absurd hu not_isUnit_zero

/-- The hypothesis of `C102_errRE_violated` is met for all weights with zero diagonal and nonnegative ratios. -/
theorem errREInfo_zero (W : Matrix n n ℝ) (hW : ∀ i, W i i = 0) (r sig2 : ℝ) (hr : 0 ≤ r) :
    ∃ v, errREInfo τ W 0 r sig2 = some v := by
  unfold errREInfo
  have ha : filledA W 0 = 1 := by rw [filledA_eq W hW, zero_smul, sub_zero]
  simp only [ha, transpose_one, Matrix.one_mul]
  rw [inv?_of_isUnit (by rw [det_one]; exact isUnit_one), Option.bind_some, inv_one]
  have hT : (0 : ℝ) ≤ Fintype.card τ := Nat.cast_nonneg _
  have h1 : ((Fintype.card τ : ℝ) * r) • (1 : Matrix n n ℝ) + 1 = ((Fintype.card τ : ℝ) * r + 1) • 1 := by
    rw [add_smul, one_smul]
  rw [inv?_of_isUnit (by
    rw [h1, det_smul, det_one, mul_one, isUnit_iff_ne_zero]
    exact pow_ne_zero _ (by have := mul_nonneg hT hr; linarith)), Option.map_some]
  exact ⟨_, rfl⟩

end Spreg.PanelML
