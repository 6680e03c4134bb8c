import Verif.Props.PanelGLS4

/-! C108: the weighting matrix of `BaseGM_ErrorRE` and the covariance matrix of its six moments. -/
namespace Spreg.PanelGLS
open Matrix Spreg.Lin Spreg.PanelML Spreg.Gauss Spreg.GM

variable {τ n k : Type} [Fintype τ] [Fintype n] [Fintype k] [DecidableEq τ] [DecidableEq n] [DecidableEq k]

/-- Symmetric matrices of the quadratic forms `e'e`, `(We)'(We)`, `e'We` (specification). -/
noncomputable def formMat (W : Matrix n n ℝ) : Fin 3 → Matrix n n ℝ := ![1, Wᵀ * W, (1 / 2 : ℝ) • (W + Wᵀ)]

/-- `formMat W i` is the matrix of the form, and symmetric. -/
theorem formMat_spec (W : Matrix n n ℝ) (e : n → ℝ) :
    (∀ i, e ⬝ᵥ (formMat W i *ᵥ e) = ![e ⬝ᵥ e, (W *ᵥ e) ⬝ᵥ (W *ᵥ e), e ⬝ᵥ (W *ᵥ e)] i) ∧
    ∀ i, (formMat W i)ᵀ = formMat W i := by
  constructor
  · intro i
    fin_cases i
    · simp [formMat]
    · show e ⬝ᵥ ((Wᵀ * W) *ᵥ e) = (W *ᵥ e) ⬝ᵥ (W *ᵥ e)
      rw [← mulVec_mulVec, dotProduct_mulVec, vecMul_transpose]
    · show e ⬝ᵥ (((1 / 2 : ℝ) • (W + Wᵀ)) *ᵥ e) = e ⬝ᵥ (W *ᵥ e)
      have : e ⬝ᵥ (Wᵀ *ᵥ e) = e ⬝ᵥ (W *ᵥ e) := by rw [dotProduct_mulVec, vecMul_transpose, dotProduct_comm]
      rw [smul_mulVec, dotProduct_smul, add_mulVec, dotProduct_add, this, smul_eq_mul]; ring
  · intro i
    fin_cases i
    · simp [formMat]
    · simp [formMat]
    · simp [formMat, add_comm]

/-- Covariance of `e'Ae` and `e'Be` for normal `e` with covariance matrix `S` and symmetric `A`, `B` (specification). -/
def quadCov {ι : Type} [Fintype ι] (A B S : Matrix ι ι ℝ) : ℝ := 2 * (A * S * (B * S)).trace

/-- `N` times the covariance matrix of the three moments for `e ~ N(0, I)` (specification): `T_W` of Kapoor, Kelejian and
Prucha. -/
noncomputable def tauSpec (W : Matrix n n ℝ) : Matrix (Fin 3) (Fin 3) ℝ :=
  Matrix.of fun i j => quadCov (formMat W i) (formMat W j) 1 / Fintype.card n

theorem trace_sym_mul (A B : Matrix n n ℝ) (hA : Aᵀ = A) : (A * B).trace = ∑ i, ∑ j, A i j * B i j := by
  simp only [trace, diag_apply, mul_apply]
  rw [Finset.sum_comm]
  refine Finset.sum_congr rfl fun i _ => Finset.sum_congr rfl fun j _ => ?_
  rw [show A j i = Aᵀ i j from rfl, hA]

/-- `C108`. The weighting matrix has the structure of the covariance matrix of the six moments under normality: with the exact `T_W`
it would be `N` times that covariance matrix. -/
theorem C108_structure_partial [Nonempty τ] [Nonempty n] (hT : 1 < Fintype.card τ) (W : Matrix n n ℝ) (sv sm : ℝ) :
    let N : ℝ := Fintype.card n
    let T : ℝ := Fintype.card τ
    let S := compCov τ n sv sm
    -- the quadratic forms behind the moments: deviations from unit means over N (T-1), unit means over N
    let A : Fin 2 × Fin 3 → Matrix (τ × n) (τ × n) ℝ := fun r =>
      if r.1 = 0 then (1 / (N * (T - 1))) • (quasi τ n 0 * bigW τ (formMat W r.2))
      else (1 / N) • (kkpQ1 τ n * bigW τ (formMat W r.2))
    ∀ r c, kkpXi T sv (sv + T * sm) (tauSpec W) r c = N * quadCov (A r) (A c) S := by
  intro N T S A r c
  have hN : (N : ℝ) ≠ 0 := by positivity
  have hT1 : T - 1 ≠ 0 := by
    have : (1 : ℝ) < Fintype.card τ := by exact_mod_cast hT
    exact ne_of_gt (sub_pos.2 this)
  have hS : S = _ := compCov_mix sv sm
  obtain ⟨r1, r2⟩ := r
  obtain ⟨c1, c2⟩ := c
  have hA0 : A (0, r2) = (1 / (N * (T - 1))) • mix τ 0 (formMat W r2) := by
    simp only [A, if_true]
    rw [quasi0_mix, bigW_eq, mix_mul]; simp
  have hA1 : A (1, r2) = (1 / N) • mix τ (formMat W r2) 0 := by
    simp only [A, one_ne_zero, if_false]
    rw [kkpQ1_mix, bigW_eq, mix_mul]; simp
  have hC0 : A (0, c2) = (1 / (N * (T - 1))) • mix τ 0 (formMat W c2) := by
    simp only [A, if_true]
    rw [quasi0_mix, bigW_eq, mix_mul]; simp
  have hC1 : A (1, c2) = (1 / N) • mix τ (formMat W c2) 0 := by
    simp only [A, one_ne_zero, if_false]
    rw [kkpQ1_mix, bigW_eq, mix_mul]; simp
  simp only [kkpXi, kroneckerMap_apply, tauSpec, of_apply, quadCov, Matrix.mul_one]
  fin_cases r1 <;> fin_cases c1 <;>
  simp only [Fin.zero_eta, Fin.mk_one, hA0, hA1, hC0, hC1, hS, Matrix.smul_mul, Matrix.mul_smul, mix_mul, trace_smul, trace_mix, smul_eq_mul,
    Matrix.zero_mul, Matrix.mul_zero, Matrix.mul_one, trace_zero, diagonal_apply_eq, smul_zero]
  · simp
    simp only [N, T] at *
    field_simp
  · simp
  · simp
  · simp
    simp only [N, T] at *
    field_simp

/-- The exact `T_W` is a covariance matrix. -/
theorem tauSpec_psd (W : Matrix n n ℝ) : SymPSD (tauSpec W) := by
  constructor
  · ext i j
    simp only [transpose_apply, tauSpec, of_apply, quadCov, Matrix.mul_one]
    rw [trace_mul_comm]
  · intro c
    have h : ∀ i j, tauSpec W i j = 2 / Fintype.card n * (formMat W i * formMat W j).trace := by
      intro i j
      simp only [tauSpec, of_apply, quadCov, Matrix.mul_one]; ring
    have hs := (formMat_spec W (0 : n → ℝ)).2
    set B := ∑ i, c i • formMat W i with hB
    have hBs : Bᵀ = B := by
      rw [hB, transpose_sum]
      refine Finset.sum_congr rfl fun i _ => ?_
      rw [transpose_smul, hs]
    have : ∑ i, ∑ j, c i * tauSpec W i j * c j = 2 / Fintype.card n * (B * B).trace := by
      rw [hB, Finset.sum_mul_sum, trace_sum, Finset.mul_sum]
      refine Finset.sum_congr rfl fun i _ => ?_
      rw [trace_sum, Finset.mul_sum]
      refine Finset.sum_congr rfl fun j _ => ?_
      rw [h, Matrix.smul_mul, Matrix.mul_smul, trace_smul, trace_smul, smul_eq_mul, smul_eq_mul]; ring
    rw [this, trace_sym_mul B B hBs]
    refine mul_nonneg (by positivity) (Finset.sum_nonneg fun i _ => Finset.sum_nonneg fun j _ => mul_self_nonneg _)

/-- `C108`. `_get_Tau` is not `T_W`: the covariance of the first two moments is divided by `N` twice, and the variance of the
second is half of what it should be. -/
theorem C108_tau_violated (W : Matrix n n ℝ) (hd : ∀ i, W i i = 0) (hW : W ≠ 0) (hN : 2 ≤ Fintype.card n) :
    getTau W 0 1 = tauSpec W 0 1 / Fintype.card n ∧ getTau W 1 1 = tauSpec W 1 1 / 2 ∧
    (∀ i j, (i, j) ≠ (0, 1) → (i, j) ≠ (1, 0) → (i, j) ≠ (1, 1) → getTau W i j = tauSpec W i j) ∧
    getTau W 0 1 ≠ tauSpec W 0 1 ∧ getTau W 1 1 ≠ tauSpec W 1 1 := by
  have hn : (Fintype.card n : ℝ) ≠ 0 := by
    have : (2 : ℝ) ≤ Fintype.card n := by exact_mod_cast hN
    linarith
  have htr : (Wᵀ * W).trace = traceW2 W := by
    simp only [trace, diag_apply, mul_apply, transpose_apply, ← pow_two, traceW2]
    exact Finset.sum_comm
  have hwtw : (Wᵀ * W)ᵀ = Wᵀ * W := by simp
  have h22 : ((Wᵀ * W) * (Wᵀ * W)).trace = ∑ i, ∑ j, (Wᵀ * W) i j ^ 2 := by
    rw [trace_sym_mul _ _ hwtw]; simp only [pow_two]
  have h23 : ((Wᵀ * W) * (W + Wᵀ)).trace = ∑ i, ∑ j, (Wᵀ * W) i j * (Wᵀ + W) i j := by
    rw [trace_sym_mul _ _ hwtw, add_comm]
  have hs : (W + Wᵀ)ᵀ = W + Wᵀ := by rw [transpose_add, transpose_transpose, add_comm]
  have h33 : ((W + Wᵀ) * (W + Wᵀ)).trace = 2 * ∑ j, ((∑ i, W i j * W j i) + (Wᵀ * W) j j) := by
    have e1 : (W * W).trace = ∑ j, ∑ i, W i j * W j i := by
      simp only [trace, diag_apply, mul_apply]
      exact Finset.sum_congr rfl fun i _ => Finset.sum_congr rfl fun j _ => mul_comm _ _
    have e2 : (Wᵀ * Wᵀ).trace = (W * W).trace := by rw [← transpose_mul, trace_transpose]
    have e3 : (Wᵀ * W).trace = ∑ j, (Wᵀ * W) j j := rfl
    rw [Matrix.add_mul, Matrix.mul_add, Matrix.mul_add, trace_add, trace_add, trace_add, e2, trace_mul_comm W Wᵀ, e1, e3,
      Finset.sum_add_distrib]
    ring
  have h02 : (W + Wᵀ).trace = 0 := by simp [trace, hd]
  have hsp : ∀ i j, tauSpec W i j = 2 * (formMat W i * formMat W j).trace / Fintype.card n := by
    intro i j
    simp only [tauSpec, of_apply, quadCov, Matrix.mul_one]
  have f0 : formMat W 0 = 1 := rfl
  have f1 : formMat W 1 = Wᵀ * W := rfl
  have f2 : formMat W 2 = (1 / 2 : ℝ) • (W + Wᵀ) := rfl
  have t01 : getTau W 0 1 = tauSpec W 0 1 / Fintype.card n := by
    rw [hsp, f0, f1, Matrix.one_mul, htr]
    simp [getTau]
  have t11 : getTau W 1 1 = tauSpec W 1 1 / 2 := by
    rw [hsp, f1, h22]
    simp only [getTau, of_apply, cons_val_one, cons_val_zero]; ring
  have hpos : 0 < traceW2 W := by
    obtain ⟨i, j, hij⟩ : ∃ i j, W i j ≠ 0 := by
      by_contra h
      push Not at h
      exact hW (by ext i j; simpa using h i j)
    exact Finset.sum_pos' (fun i _ => Finset.sum_nonneg fun j _ => sq_nonneg _)
      ⟨i, Finset.mem_univ _, Finset.sum_pos' (fun j _ => sq_nonneg _) ⟨j, Finset.mem_univ _, by positivity⟩⟩
  have hpos2 : 0 < ∑ i, ∑ j, (Wᵀ * W) i j ^ 2 := by
    obtain ⟨i, hi⟩ : ∃ i, (Wᵀ * W) i i ≠ 0 := by
      by_contra h
      push Not at h
      have : (Wᵀ * W).trace = 0 := by simp only [trace, diag_apply, h, Finset.sum_const_zero]
      linarith
    exact Finset.sum_pos' (fun i _ => Finset.sum_nonneg fun j _ => sq_nonneg _)
      ⟨i, Finset.mem_univ _, Finset.sum_pos' (fun j _ => sq_nonneg _) ⟨i, Finset.mem_univ _, by positivity⟩⟩
  have hN2 : (2 : ℝ) ≤ Fintype.card n := by exact_mod_cast hN
  refine ⟨t01, t11, ?_, ?_, ?_⟩
  · intro i j a b c
    fin_cases i <;> fin_cases j <;> simp only [Fin.zero_eta, Fin.mk_one, Fin.reduceFinMk] at a b c ⊢
    · rw [hsp, f0, Matrix.one_mul, trace_one]
      simp [getTau]
    · exact absurd rfl a
    · rw [hsp, f0, f2, Matrix.one_mul, trace_smul, h02]
      simp [getTau]
    · exact absurd rfl b
    · exact absurd rfl c
    · rw [hsp, f1, f2, Matrix.mul_smul, trace_smul, h23]
      simp [getTau]
    · rw [hsp, f0, f2, Matrix.mul_one, trace_smul, h02]
      simp [getTau]
    · rw [hsp, f1, f2, Matrix.smul_mul, trace_smul, trace_mul_comm, h23]
      simp [getTau]
    · rw [hsp, f2, Matrix.smul_mul, Matrix.mul_smul, trace_smul, trace_smul, h33]
      simp [getTau]
  · rw [t01, hsp, f0, f1, Matrix.one_mul, htr]
    intro h
    field_simp at h
    linarith
  · rw [t11, hsp, f1, h22]
    intro h
    field_simp at h
    linarith

/-! ### The weighting matrix need not be positive definite -/

/-- A full weighting matrix whose `Tau` is indefinite makes the estimator raise, whatever the data, unless the first step
estimates the variances as 0. -/
theorem kkp_indefinite (hT : 1 < Fintype.card τ) (opt3 : Moments (Fin 3) (Fin 3) → ℝ × ℝ)
    (opt6 : Moments (Fin 2 × Fin 3) (Fin 4) → Option (Matrix (Fin 2 × Fin 3) (Fin 2 × Fin 3) ℝ) → ℝ × ℝ × ℝ)
    (y : τ × n → ℝ) (x : Matrix (τ × n) k ℝ) (W : Matrix n n ℝ) (c : Fin 3 → ℝ) (hc : c ⬝ᵥ (getTau W *ᵥ c) < 0)
    (hs : ∀ o, ols x y = some o → (opt3 (momentsKKP0 W o.u)).2 ≠ 0) :
    kkp opt3 opt6 y x W true = none := by
  unfold kkp
  cases ho : ols x y with
  | none => rfl
  | some o =>
    rw [Option.bind_some]
    dsimp only
    rw [if_pos rfl]
    set p := opt3 (momentsKKP0 W o.u) with hp
    set s1 := (panelFilter W p.1 o.u ⬝ᵥ (kkpQ1 τ n *ᵥ panelFilter W p.1 o.u)) / (Fintype.card n : ℝ)
    set Xi := kkpXi (Fintype.card τ) p.2 s1 (getTau W) with hXi
    have hT1 : (0 : ℝ) < Fintype.card τ - 1 := by
      have : (1 : ℝ) < Fintype.card τ := by exact_mod_cast hT
      linarith
    have hsv : 0 < p.2 * p.2 / (Fintype.card τ - 1) := by
      exact div_pos (mul_self_pos.2 (hs o ho)) hT1
    set w : Fin 2 × Fin 3 → ℝ := fun r => if r.1 = 0 then c r.2 else 0 with hw
    have hq : w ⬝ᵥ (Xi *ᵥ w) = p.2 * p.2 / (Fintype.card τ - 1) * (c ⬝ᵥ (getTau W *ᵥ c)) := by
      simp only [dotProduct, mulVec, hXi, kkpXi, kroneckerMap_apply, Fintype.sum_prod_type, Fin.sum_univ_two, hw, if_true, one_ne_zero,
        if_false, zero_mul, mul_zero, Finset.sum_const_zero, add_zero, diagonal_apply_eq, cons_val_zero]
      rw [Finset.mul_sum]
      refine Finset.sum_congr rfl fun i _ => ?_
      rw [Finset.mul_sum, Finset.mul_sum, Finset.mul_sum]
      exact Finset.sum_congr rfl fun j _ => by ring
    have hneg : w ⬝ᵥ (Xi *ᵥ w) < 0 := by rw [hq]; exact mul_neg_of_pos_of_neg hsv hc
    have hX0 : Xi ≠ 0 := by
      intro h
      rw [h] at hneg
      simp at hneg
    rw [if_neg hX0]
    cases hi : inv? Xi with
    | none => rfl
    | some Xii =>
      rw [Option.bind_some, if_neg]
      intro hpd
      obtain ⟨-, hB, hAB, hBA⟩ := inv?_eq_some hi
      have hv : w = Xii *ᵥ (Xi *ᵥ w) := by rw [mulVec_mulVec, hBA, one_mulVec]
      have hps := hpd.posSemidef.dotProduct_mulVec_nonneg (Xi *ᵥ w)
      rw [← hv] at hps
      have : star (Xi *ᵥ w) ⬝ᵥ w = w ⬝ᵥ (Xi *ᵥ w) := by rw [dotProduct_comm]; rfl
      rw [this] at hps
      linarith

/-- Row-standardised weights of four units that are all neighbours. -/
noncomputable def w4 : Matrix (Fin 4) (Fin 4) ℝ := Matrix.of fun i j => if i = j then 0 else 1 / 3

theorem w4_tau : ![0, 16 / 9, -(28 / 27)] ⬝ᵥ (getTau w4 *ᵥ ![0, 16 / 9, -(28 / 27)]) < 0 := by
  have hw : ∀ i j, (w4ᵀ * w4) i j = if i = j then 1 / 3 else 2 / 9 := by
    intro i j
    fin_cases i <;> fin_cases j <;> simp [w4, Matrix.mul_apply, Fin.sum_univ_four] <;> norm_num
  have h11 : getTau w4 1 1 = 7 / 27 := by
    simp only [getTau, of_apply, hw]
    simp [Fin.sum_univ_four]; norm_num
  have h12 : getTau w4 1 2 = 4 / 9 := by
    simp only [getTau, of_apply, hw]
    simp [Fin.sum_univ_four, w4]; norm_num
  have h21 : getTau w4 2 1 = 4 / 9 := by
    simp only [getTau, of_apply, hw]
    simp [Fin.sum_univ_four, w4]; norm_num
  have h22 : getTau w4 2 2 = 2 / 3 := by
    simp only [getTau, of_apply, hw]
    simp [Fin.sum_univ_four, w4]; norm_num
  simp only [dotProduct, mulVec, Fin.sum_univ_three, cons_val_zero, cons_val_one, zero_mul, mul_zero, zero_add, h11, h21]
  simp [h12, h22]
  norm_num

/-- `C108`. For four units that are all neighbours (row-standardised), `full_weights=True` raises for all data, although the
identity weights work: no covariance matrix has this `Tau`. -/
theorem C108_full_weights_violated (hT : 1 < Fintype.card τ) (opt3 : Moments (Fin 3) (Fin 3) → ℝ × ℝ)
    (opt6 : Moments (Fin 2 × Fin 3) (Fin 4) → Option (Matrix (Fin 2 × Fin 3) (Fin 2 × Fin 3) ℝ) → ℝ × ℝ × ℝ)
    (y : τ × Fin 4 → ℝ) (x : Matrix (τ × Fin 4) k ℝ)
    (hs : ∀ o, ols x y = some o → (opt3 (momentsKKP0 w4 o.u)).2 ≠ 0) :
    kkp opt3 opt6 y x w4 true = none ∧ ¬ SymPSD (getTau w4) := by
  refine ⟨kkp_indefinite hT opt3 opt6 y x w4 _ w4_tau hs, fun h => ?_⟩
  have := h.2 ![0, 16 / 9, -(28 / 27)]
  rw [quad_eq] at this
  linarith [w4_tau]

/-- `C108`. With identity weights the estimator runs for all data whose first step variances are not 0, and the weights are those of
the two sets of moments. -/
theorem C108_identity_partial (hT : 1 < Fintype.card τ) (opt3 : Moments (Fin 3) (Fin 3) → ℝ × ℝ)
    (opt6 : Moments (Fin 2 × Fin 3) (Fin 4) → Option (Matrix (Fin 2 × Fin 3) (Fin 2 × Fin 3) ℝ) → ℝ × ℝ × ℝ)
    (y : τ × n → ℝ) (x : Matrix (τ × n) k ℝ) (W : Matrix n n ℝ) (o : OLSFit (τ × n) k) (ho : ols x y = some o) :
    let T : ℝ := Fintype.card τ
    let p := opt3 (momentsKKP0 W o.u)
    let e : τ × n → ℝ := fun a => o.u a - p.1 * ∑ j, W a.2 j * o.u (a.1, j)
    let s1 := T * (∑ i, ((∑ t, e (t, i)) / T) ^ 2) / Fintype.card n
    p.2 ≠ 0 → s1 ≠ 0 →
    let q := opt6 (moments6 W o.u)
      (some (diagonal fun r => if r.1 = 0 then p.2 ^ 2 / (T - 1) else s1 ^ 2))
    kkp opt3 opt6 y x W false = kkpGLS y x W q.1 q.2.1 q.2.2 := by
  intro T p e s1 hp hs1 q
  have hne : Nonempty τ := Fintype.card_pos_iff.1 (by omega)
  have hT1 : (0 : ℝ) < T - 1 := by
    have : (1 : ℝ) < Fintype.card τ := by exact_mod_cast hT
    exact sub_pos.2 this
  have he : panelFilter W p.1 o.u = e := by
    funext a
    simp only [panelFilter, Pi.sub_apply, Pi.smul_apply, bigW_apply, smul_eq_mul, e]
  have hs : (e ⬝ᵥ (kkpQ1 τ n *ᵥ e)) / (Fintype.card n : ℝ) = s1 := by
    have := kkpQ_mat false e
    simp only [Bool.false_eq_true, if_false] at this
    rw [← this, kkpQ_dot]
    simp only [kkpQ, Bool.false_eq_true, if_false]
    rw [tile_dot, unitMean_tile]
    simp only [s1, unitMean, pow_two, T]
  have hXi : kkpXi (Fintype.card τ) p.2 s1 1 = diagonal fun r : Fin 2 × Fin 3 => if r.1 = 0 then p.2 ^ 2 / (T - 1) else s1 ^ 2 := by
    unfold kkpXi
    rw [← diagonal_one, diagonal_kronecker_diagonal]
    congr 1
    funext r
    obtain ⟨r1, r2⟩ := r
    fin_cases r1 <;> simp [pow_two, T]
  have hd : ∀ r : Fin 2 × Fin 3, 0 < (if r.1 = 0 then p.2 ^ 2 / (T - 1) else s1 ^ 2 : ℝ) := by
    intro r
    split_ifs <;> positivity
  unfold kkp
  rw [ho, Option.bind_some]
  dsimp only
  rw [if_neg (by decide : ¬ (false = true)), he, hs, hXi]
  rw [if_neg]
  · have hu : IsUnit (diagonal fun r : Fin 2 × Fin 3 => (if r.1 = 0 then p.2 ^ 2 / (T - 1) else s1 ^ 2 : ℝ)).det := by
      rw [det_diagonal, isUnit_iff_ne_zero]
      exact Finset.prod_ne_zero_iff.2 fun r _ => (hd r).ne'
    rw [inv?_of_isUnit hu, Option.bind_some, if_pos]
    exact (PosDef.diagonal hd).inv
  · intro h
    have := congrFun (congrFun h (0, 0)) (0, 0)
    rw [diagonal_apply_eq] at this
    exact (hd (0, 0)).ne' this

/-! ### Examples -/

/-- Two units that are neighbours. -/
def w2 : Matrix (Fin 2) (Fin 2) ℝ := !![0, 1; 1, 0]

theorem w2_filter : IsUnit (1 - (1 / 2 : ℝ) • panelW (Fin 2) w2).det := by
  have h2 : w2 * w2 = 1 := by ext i j; fin_cases i <;> fin_cases j <;> simp [w2]
  have h : (1 - (1 / 2 : ℝ) • panelW (Fin 2) w2) * ((4 / 3 : ℝ) • (1 + (1 / 2 : ℝ) • panelW (Fin 2) w2)) = 1 := by
    rw [← bigW_spec, Matrix.mul_smul, Matrix.sub_mul, Matrix.mul_add, Matrix.mul_add]
    simp only [Matrix.smul_mul, Matrix.mul_smul, bigW_eq, mix_mul, h2, mix_one, Matrix.mul_one, Matrix.one_mul]
    ext a b
    simp only [Matrix.smul_apply, Matrix.sub_apply, Matrix.add_apply, smul_eq_mul]
    ring
  exact (isUnit_iff_isUnit_det _).1 (IsUnit.of_mul_eq_one _ h)

/-- The hypotheses of `C107_gls` are met: two units, two periods, a constant, `lam = 1/2`, `sig_v = 1`, `sig_1 = 4`. -/
example (y : Fin 2 × Fin 2 → ℝ) : ∃ f, kkpGLS y (Matrix.of fun _ (_ : Unit) => 1) w2 (1 / 2) 1 4 = some f := by
  have h2 : Real.sqrt 4 = 2 := by rw [show (4 : ℝ) = 2 ^ 2 by norm_num]; exact Real.sqrt_sq (by norm_num)
  have hx : (1 - (1 - Real.sqrt 1 / Real.sqrt 4) • kkpQ1 (Fin 2) (Fin 2) : Matrix (Fin 2 × Fin 2) (Fin 2 × Fin 2) ℝ) *
      panelFilterM w2 (1 / 2) (Matrix.of fun (_ : Fin 2 × Fin 2) (_ : Unit) => (1 : ℝ)) = Matrix.of fun _ _ => 1 / 4 := by
    have hf : panelFilterM w2 (1 / 2) (Matrix.of fun (_ : Fin 2 × Fin 2) (_ : Unit) => (1 : ℝ)) = Matrix.of fun (_ : Fin 2 × Fin 2) (_ : Unit) => (1 / 2 : ℝ) := by
      ext ⟨t, i⟩ j
      unfold panelFilterM
      have := bigW_apply w2 (fun _ : Fin 2 × Fin 2 => (1 : ℝ)) (t, i)
      have h1 : (bigW (Fin 2) w2 * (Matrix.of fun _ _ => 1 : Matrix (Fin 2 × Fin 2) Unit ℝ)) (t, i) j = 1 := by
        refine Eq.trans this ?_
        fin_cases i <;> simp [w2, Fin.sum_univ_two]
      rw [Matrix.sub_apply, Matrix.smul_apply, h1]
      simp; norm_num
    rw [hf, h2, Real.sqrt_one]
    ext ⟨t, i⟩ j
    rw [Matrix.sub_mul, Matrix.one_mul, Matrix.smul_mul, Matrix.sub_apply, Matrix.smul_apply]
    have : (kkpQ1 (Fin 2) (Fin 2) * (Matrix.of fun _ _ => 1 / 2 : Matrix (Fin 2 × Fin 2) Unit ℝ)) (t, i) j = 1 / 2 := by
      fin_cases i <;> simp [kkpQ1, Matrix.mul_apply, Fintype.sum_prod_type, one_apply, Fin.sum_univ_two]
    rw [this]
    simp; norm_num
  unfold kkpGLS
  dsimp only
  rw [hx, ols_of_isUnit]
  · exact ⟨_, rfl⟩
  · rw [det_unique, isUnit_iff_ne_zero]
    simp [Matrix.mul_apply]

/-- The hypotheses of `C108_tau_violated` and `C106_expectation` are met. -/
example : (∀ i, w2 i i = 0) ∧ w2 ≠ 0 := by
  refine ⟨fun i => by fin_cases i <;> rfl, fun h => ?_⟩
  have := congrFun (congrFun h 0) 1
  simp [w2] at this

end Spreg.PanelGLS
