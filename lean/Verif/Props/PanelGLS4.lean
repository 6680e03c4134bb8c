import Verif.Props.PanelGLS3
import Verif.Props.GM

/-! C106: the moment conditions of `BaseGM_ErrorRE` (Kapoor, Kelejian, Prucha). C107: its last step is generalised least
squares. -/
namespace Spreg.PanelGLS
open Matrix Spreg.Lin Spreg.PanelML Spreg.Gauss Spreg.GM

variable {τ n k : Type} [Fintype τ] [Fintype n] [Fintype k] [DecidableEq τ] [DecidableEq n] [DecidableEq k]

theorem unitMean_sub (a b : τ × n → ℝ) (c : ℝ) : unitMean (a - c • b) = unitMean a - c • unitMean b := by
  funext i
  simp only [unitMean, Pi.sub_apply, Pi.smul_apply, smul_eq_mul, Finset.sum_sub_distrib, ← Finset.mul_sum]
  ring

theorem kkpQ_sub (f : Bool) (a b : τ × n → ℝ) (c : ℝ) : kkpQ f (a - c • b) = kkpQ f a - c • kkpQ f b := by
  unfold kkpQ
  rw [unitMean_sub]
  cases f
  · rfl
  · funext p
    simp only [tile, Pi.sub_apply, Pi.smul_apply, smul_eq_mul, if_true]
    ring

theorem tile_dot [Nonempty τ] (m : n → ℝ) (b : τ × n → ℝ) :
    tile τ m ⬝ᵥ b = Fintype.card τ * ∑ i, m i * unitMean b i := by
  have hT : (Fintype.card τ : ℝ) ≠ 0 := by positivity
  simp only [tile, dotProduct, unitMean, Fintype.sum_prod_type]
  rw [Finset.sum_comm, Finset.mul_sum]
  refine Finset.sum_congr rfl fun i _ => ?_
  rw [← Finset.mul_sum]
  field_simp

theorem unitMean_tile [Nonempty τ] (m : n → ℝ) : unitMean (tile τ m) = m := by
  have hT : (Fintype.card τ : ℝ) ≠ 0 := by positivity
  funext i
  simp [unitMean, tile]

theorem kkpQ_dot [Nonempty τ] (f : Bool) (a b : τ × n → ℝ) : a ⬝ᵥ kkpQ f b = kkpQ f a ⬝ᵥ kkpQ f b := by
  have h1 : a ⬝ᵥ tile τ (unitMean b) = tile τ (unitMean a) ⬝ᵥ tile τ (unitMean b) := by
    rw [dotProduct_comm, tile_dot, dotProduct_comm, tile_dot, unitMean_tile]
  have h2 : tile τ (unitMean a) ⬝ᵥ b = tile τ (unitMean a) ⬝ᵥ tile τ (unitMean b) := by
    rw [tile_dot, tile_dot, unitMean_tile]
  cases f
  · exact h1
  · simp only [kkpQ, if_true, sub_dotProduct, dotProduct_sub]
    rw [← h1, h2, ← h1]; ring

theorem bigW_apply (W : Matrix n n ℝ) (u : τ × n → ℝ) (a : τ × n) : (bigW τ W *ᵥ u) a = ∑ j, W a.2 j * u (a.1, j) := by
  rw [bigW_spec]
  simp only [mulVec, dotProduct, panelW, of_apply, Fintype.sum_prod_type]
  rw [Finset.sum_eq_single a.1 (fun t _ ht => by simp [ht.symm]) (by simp)]
  simp

theorem mv3 {r : Type} (G : Matrix r (Fin 3) ℝ) (v : Fin 3 → ℝ) (i : r) : (G *ᵥ v) i = G i 0 * v 0 + G i 1 * v 1 + G i 2 * v 2 := by
  simp [mulVec, dotProduct, Fin.sum_univ_three]

theorem mv4 {r : Type} (G : Matrix r (Fin 4) ℝ) (v : Fin 4 → ℝ) (i : r) :
    (G *ᵥ v) i = G i 0 * v 0 + G i 1 * v 1 + G i 2 * v 2 + G i 3 * v 3 := by
  simp [mulVec, dotProduct, Fin.sum_univ_four]

/-- `C106`. For every `lam`, `sv`, `s1`: with `e_ti = u_ti - lam (W u_t)_i` and `we = W e`, the six moments that the code
minimises are the second moments of the deviations from unit means (divided by `N (T-1)`) and of the unit means (divided
by `N`) of `e` and `we`, minus `sv`, `sv tr(W'W)/N`, `0` and `s1`, `s1 tr(W'W)/N`, `0`. -/
theorem C106_moments [Nonempty n] [Nonempty τ] (hT : 1 < Fintype.card τ) (W : Matrix n n ℝ) (u : τ × n → ℝ) (lam sv s1 : ℝ) :
    let N : ℝ := Fintype.card n
    let T : ℝ := Fintype.card τ
    let e : τ → n → ℝ := fun t i => u (t, i) - lam * ∑ j, W i j * u (t, j)
    let we : τ → n → ℝ := fun t i => ∑ j, W i j * e t j
    let mean : (τ → n → ℝ) → n → ℝ := fun v i => (∑ t, v t i) / T
    let trW : ℝ := ∑ i, ∑ j, W i j ^ 2
    (∀ r, (momentsKKP0 W u).g r - ((momentsKKP0 W u).G *ᵥ ![lam, lam ^ 2, sv]) r =
      ![(∑ t, ∑ i, (e t i - mean e i) ^ 2) / (N * (T - 1)) - sv,
        (∑ t, ∑ i, (we t i - mean we i) ^ 2) / (N * (T - 1)) - sv * trW / N,
        (∑ t, ∑ i, (e t i - mean e i) * (we t i - mean we i)) / (N * (T - 1))] r) ∧
    (∀ r, (moments6 W u).g (0, r) - ((moments6 W u).G *ᵥ ![lam, lam ^ 2, sv, s1]) (0, r) =
      (momentsKKP0 W u).g r - ((momentsKKP0 W u).G *ᵥ ![lam, lam ^ 2, sv]) r) ∧
    (∀ r, (moments6 W u).g (1, r) - ((moments6 W u).G *ᵥ ![lam, lam ^ 2, sv, s1]) (1, r) =
      ![(∑ _t : τ, ∑ i, mean e i ^ 2) / N - s1, (∑ _t : τ, ∑ i, mean we i ^ 2) / N - s1 * trW / N,
        (∑ _t : τ, ∑ i, mean e i * mean we i) / N] r) := by
  intro N T e we mean trW
  have hN : (N : ℝ) ≠ 0 := by positivity
  have hT1 : T - 1 ≠ 0 := by
    have : (1 : ℝ) < Fintype.card τ := by exact_mod_cast hT
    exact ne_of_gt (sub_pos.2 this)
  set ub := bigW τ W *ᵥ u with hub
  set ubb := bigW τ W *ᵥ ub with hubb
  have hE : (fun a : τ × n => e a.1 a.2) = u - lam • ub := by
    funext a
    simp only [Pi.sub_apply, Pi.smul_apply, smul_eq_mul, e, hub, bigW_apply]
  have hWE : (fun a : τ × n => we a.1 a.2) = ub - lam • ubb := by
    have : (fun a : τ × n => we a.1 a.2) = bigW τ W *ᵥ (fun a : τ × n => e a.1 a.2) := by
      funext a
      rw [bigW_apply]
    rw [this, hE, mulVec_sub, mulVec_smul]
  have q1 : ∀ v : τ → n → ℝ, ∀ t i, kkpQ true (fun a : τ × n => v a.1 a.2) (t, i) = v t i - mean v i := fun v t i => rfl
  have q2 : ∀ v : τ → n → ℝ, ∀ t i, kkpQ false (fun a : τ × n => v a.1 a.2) (t, i) = mean v i := fun v t i => rfl
  have key : ∀ f, ∀ c : ℝ, c ≠ 0 → 
      (kkpQ f (u - lam • ub) ⬝ᵥ kkpQ f (u - lam • ub) = u ⬝ᵥ kkpQ f u - 2 * (u ⬝ᵥ kkpQ f ub) * lam + (ub ⬝ᵥ kkpQ f ub) * lam ^ 2) ∧
      (kkpQ f (ub - lam • ubb) ⬝ᵥ kkpQ f (ub - lam • ubb) = ub ⬝ᵥ kkpQ f ub - 2 * (ubb ⬝ᵥ kkpQ f ub) * lam + (ubb ⬝ᵥ kkpQ f ubb) * lam ^ 2) ∧
      (kkpQ f (u - lam • ub) ⬝ᵥ kkpQ f (ub - lam • ubb) = u ⬝ᵥ kkpQ f ub - (u ⬝ᵥ kkpQ f ubb + ub ⬝ᵥ kkpQ f ub) * lam + (ub ⬝ᵥ kkpQ f ubb) * lam ^ 2) := by
    intro f c _
    rw [kkpQ_dot f u, kkpQ_dot f u, kkpQ_dot f u, kkpQ_dot f ub, kkpQ_dot f ub, kkpQ_dot f ubb, kkpQ_dot f ubb, kkpQ_sub, kkpQ_sub]
    simp only [sub_dotProduct, dotProduct_sub, smul_dotProduct, dotProduct_smul, smul_eq_mul]
    rw [dotProduct_comm (kkpQ f ub) (kkpQ f u), dotProduct_comm (kkpQ f ubb) (kkpQ f ub)]
    refine ⟨by ring, by ring, by ring⟩
  have s0 : ∀ (f : Bool) (a b : τ → n → ℝ), (∑ t, ∑ i, kkpQ f (fun a' : τ × n => a a'.1 a'.2) (t, i) * kkpQ f (fun a' : τ × n => b a'.1 a'.2) (t, i)) =
      kkpQ f (fun a' : τ × n => a a'.1 a'.2) ⬝ᵥ kkpQ f (fun a' : τ × n => b a'.1 a'.2) := by
    intro f a b
    rw [dotProduct, Fintype.sum_prod_type]
  refine ⟨?_, ?_, ?_⟩
  · have e1 : ∑ t, ∑ i, (e t i - mean e i) ^ 2 = kkpQ true (u - lam • ub) ⬝ᵥ kkpQ true (u - lam • ub) := by
      rw [← hE, ← s0]; simp only [q1, pow_two]
    have e2 : ∑ t, ∑ i, (we t i - mean we i) ^ 2 = kkpQ true (ub - lam • ubb) ⬝ᵥ kkpQ true (ub - lam • ubb) := by
      rw [← hWE, ← s0]; simp only [q1, pow_two]
    have e3 : ∑ t, ∑ i, (e t i - mean e i) * (we t i - mean we i) = kkpQ true (u - lam • ub) ⬝ᵥ kkpQ true (ub - lam • ubb) := by
      rw [← hE, ← hWE, ← s0]; simp only [q1]
    rw [e1, e2, e3, (key true 1 one_ne_zero).1, (key true 1 one_ne_zero).2.1, (key true 1 one_ne_zero).2.2]
    intro r
    fin_cases r <;>
    · rw [mv3]
      simp [momentsKKP0, kkpEntries, traceW2, ← hub, ← hubb]
      simp only [N, T, trW] at hN hT1 ⊢
      field_simp
      ring
  · intro r
    rw [mv3, mv4]
    simp [moments6]
  · have e1 : ∑ _t : τ, ∑ i, mean e i ^ 2 = kkpQ false (u - lam • ub) ⬝ᵥ kkpQ false (u - lam • ub) := by
      rw [← hE, ← s0]; simp only [q2, pow_two]
    have e2 : ∑ _t : τ, ∑ i, mean we i ^ 2 = kkpQ false (ub - lam • ubb) ⬝ᵥ kkpQ false (ub - lam • ubb) := by
      rw [← hWE, ← s0]; simp only [q2, pow_two]
    have e3 : ∑ _t : τ, ∑ i, mean e i * mean we i = kkpQ false (u - lam • ub) ⬝ᵥ kkpQ false (ub - lam • ubb) := by
      rw [← hE, ← hWE, ← s0]; simp only [q2]
    rw [e1, e2, e3, (key false 1 one_ne_zero).1, (key false 1 one_ne_zero).2.1, (key false 1 one_ne_zero).2.2]
    intro r
    fin_cases r <;>
    · rw [mv4]
      simp [moments6, momentsKKP1, kkpEntries, traceW2, ← hub, ← hubb]
      simp only [N, trW] at hN ⊢
      field_simp
      ring

/-! ### Expected moments -/

theorem trace_mix [Nonempty τ] (P B : Matrix n n ℝ) : (mix τ P B).trace = P.trace + (Fintype.card τ - 1) * B.trace := by
  have hT : (Fintype.card τ : ℝ) ≠ 0 := by positivity
  have hJ : (Jb τ).trace = 1 := by simp [Jb, trace, hT]
  unfold mix
  rw [trace_add, trace_kronecker, trace_kronecker, trace_sub, trace_one, hJ]; ring

theorem compCov_mix [Nonempty τ] (se sm : ℝ) :
    compCov τ n se sm = mix τ ((se + Fintype.card τ * sm) • (1 : Matrix n n ℝ)) (se • 1) := by
  have hT : (Fintype.card τ : ℝ) ≠ 0 := by positivity
  ext a b
  simp only [compCov, mix, of_apply, Matrix.add_apply, kroneckerMap_apply, Matrix.sub_apply, Matrix.smul_apply, smul_eq_mul, Jb,
    one_apply, Prod.ext_iff]
  by_cases h1 : a.1 = b.1 <;> by_cases h2 : a.2 = b.2 <;> simp [h1, h2] <;> field_simp <;> ring

theorem kkpQ1_mix : kkpQ1 τ n = mix τ 1 0 := by
  unfold kkpQ1 mix
  rw [kroneckerMap_zero_right _ (fun _ => mul_zero _), add_zero]
  congr 1

theorem quasi0_mix : quasi τ n 0 = mix τ 0 1 := by rw [quasi_eq, zero_smul]

/-- `Q` as a matrix. -/
theorem kkpQ_mat (f : Bool) (v : τ × n → ℝ) : kkpQ f v = (if f then quasi τ n 0 else kkpQ1 τ n) *ᵥ v := by
  cases f
  · rw [kkpQ1_mix]
    funext a
    simp [mix_apply, kkpQ, tile, unitMean, one_apply, zero_mulVec]
  · funext a
    rw [if_pos rfl, quasi0_apply]; rfl

/-- `C106`. The moment conditions hold in expectation: if the disturbances `e` have the covariance matrix
`sv I + sm (same unit)`, the expectations `tr (A Cov e)` of the quadratic forms `e'Ae` behind the six moments are the
values the code subtracts, with `s1 = sv + T sm`, provided the weights have a zero diagonal. -/
theorem C106_expectation [Nonempty τ] (W : Matrix n n ℝ) (sv sm : ℝ) (hW : ∀ i, W i i = 0) :
    let N : ℝ := Fintype.card n
    let T : ℝ := Fintype.card τ
    let S := compCov τ n sv sm
    let B := panelW τ W
    let trW : ℝ := ∑ i, ∑ j, W i j ^ 2
    -- deviations from unit means, unit means
    let D : Matrix (τ × n) (τ × n) ℝ := Matrix.of fun a b => (if a = b then 1 else 0) - if a.2 = b.2 then 1 / T else 0
    let M : Matrix (τ × n) (τ × n) ℝ := Matrix.of fun a b => if a.2 = b.2 then 1 / T else 0
    (D * S).trace = N * (T - 1) * sv ∧ (Bᵀ * D * B * S).trace = (T - 1) * (sv * trW) ∧ (D * B * S).trace = 0 ∧
    (M * S).trace = N * (sv + T * sm) ∧ (Bᵀ * M * B * S).trace = (sv + T * sm) * trW ∧ (M * B * S).trace = 0 := by
  intro N T S B trW D M
  have hT : (T : ℝ) ≠ 0 := by positivity
  have hM : M = mix τ 1 0 := by
    rw [← kkpQ1_mix]
    ext a b
    simp only [M, kkpQ1, of_apply, kroneckerMap_apply, one_apply]
    split_ifs <;> simp [T]
  have hD : D = mix τ 0 1 := by
    have : D = 1 - M := by ext a b; simp [D, M, one_apply]
    rw [this, hM, ← mix_one, mix_sub]; simp
  have hB : B = mix τ W W := by rw [← bigW_eq, bigW_spec]
  have hS : S = _ := compCov_mix sv sm
  have htr : (Wᵀ * W).trace = trW := by
    simp only [trace, diag_apply, mul_apply, transpose_apply, ← pow_two, trW]
    exact Finset.sum_comm
  have htw : W.trace = 0 := by simp [trace, hW]
  rw [hM, hD, hB, hS]
  simp only [mix_mul, mix_transpose, trace_mix, Matrix.mul_smul, Matrix.smul_mul, Matrix.mul_one, Matrix.one_mul, Matrix.mul_zero,
    Matrix.zero_mul, trace_smul, htr, htw, trace_one, smul_eq_mul, smul_zero, trace_zero]
  refine ⟨?_, ?_, ?_, ?_, ?_, ?_⟩ <;> ring

/-! ### The last step -/

/-- Covariance matrix of `u = lam W u + (mu_i + e_it)` (specification). -/
noncomputable def kkpCov (W : Matrix n n ℝ) (lam sv sm : ℝ) : Matrix (τ × n) (τ × n) ℝ :=
  (1 - lam • panelW τ W)⁻¹ * compCov τ n sv sm * ((1 - lam • panelW τ W)⁻¹)ᵀ

/-- `C107`. The coefficients are the generalised least squares estimates for the covariance matrix of the KKP model at the
reported parameters, `vm` is the corresponding variance matrix up to the factor `sig2 / sig_v`, and the filtered residuals are
`u - lam W u`. -/
theorem C107_gls [Nonempty τ] (y : τ × n → ℝ) (x : Matrix (τ × n) k ℝ) (W : Matrix n n ℝ) (lam sv s1 : ℝ)
    (f : KKPFit τ n k) (h : kkpGLS y x W lam sv s1 = some f) (hv : 0 < sv) (h1 : 0 < s1)
    (hl : IsUnit (1 - lam • panelW τ W).det) :
    let sm := (s1 - sv) / Fintype.card τ
    let Om := kkpCov W lam sv sm
    (∀ c, glsCrit Om y x f.betas ≤ glsCrit Om y x c) ∧
    f.vm = (glsCrit Om y x f.betas / (Fintype.card (τ × n) - Fintype.card k)) • (xᵀ * Om⁻¹ * x)⁻¹ ∧
    f.predy = x *ᵥ f.betas ∧ f.u = y - x *ᵥ f.betas ∧
    ∀ t i, f.eFiltered (t, i) = f.u (t, i) - lam * ∑ j, W i j * f.u (t, j) := by
  intro sm Om
  have hT : (Fintype.card τ : ℝ) ≠ 0 := by positivity
  set F := 1 - lam • panelW τ W with hF
  set phi := Real.sqrt sv / Real.sqrt s1 with hphi
  have hphi2 : phi ^ 2 * (sv + Fintype.card τ * sm) = sv := by
    have : sv + Fintype.card τ * sm = s1 := by simp only [sm]; field_simp; ring
    rw [this, hphi, div_pow, Real.sq_sqrt hv.le, Real.sq_sqrt h1.le, div_mul_cancel₀ _ h1.ne']
  have hinv := compCov_inv (τ := τ) (n := n) sv sm phi hv.ne' hphi2
  set Q := quasi τ n phi with hQ
  have hOm : Om⁻¹ = (1 / sv) • ((Q * F)ᵀ * (Q * F)) := by
    simp only [Om, kkpCov]
    rw [← hF, Matrix.mul_inv_rev, Matrix.mul_inv_rev, nonsing_inv_nonsing_inv _ hl, ← transpose_nonsing_inv,
      nonsing_inv_nonsing_inv _ hl, hinv, Matrix.smul_mul, Matrix.mul_smul, transpose_mul]
    simp only [Matrix.mul_assoc]
  have hQ' : (1 - (1 - phi) • kkpQ1 τ n : Matrix (τ × n) (τ × n) ℝ) = Q := by
    rw [kkpQ1_mix, hQ, quasi_eq, ← mix_one, mix_smul, mix_sub]
    congr 1
    · rw [sub_smul, one_smul]; simp
    · simp
  have hfx : panelFilterM W lam x = F * x := by
    unfold panelFilterM
    rw [bigW_spec, hF, Matrix.sub_mul, Matrix.one_mul, Matrix.smul_mul]
  have hfv : ∀ v : τ × n → ℝ, panelFilter W lam v = F *ᵥ v := by
    intro v
    unfold panelFilter
    rw [bigW_spec, hF, sub_mulVec, one_mulVec, smul_mulVec]
  unfold kkpGLS at h
  simp only [Option.map_eq_some_iff] at h
  obtain ⟨o, ho, rfl⟩ := h
  rw [← hphi, hQ', hfx, hfv, ← Matrix.mul_assoc, mulVec_mulVec] at ho
  obtain ⟨hu, ho'⟩ := ols_eq_some ho
  set Z := Q * F with hZ
  clear_value Z
  have hcrit : ∀ c, glsCrit Om y x c = 1 / sv * utu (Z *ᵥ y - (Z * x) *ᵥ c) := by
    intro c
    unfold glsCrit
    rw [hOm, smul_mulVec, dotProduct_smul, smul_eq_mul, ← mulVec_mulVec, dotProduct_mulVec, vecMul_transpose,
      ← utu_eq_dot, mulVec_sub, mulVec_mulVec]
  have hg : xᵀ * Om⁻¹ * x = (1 / sv) • ((Z * x)ᵀ * (Z * x)) := by
    rw [hOm, Matrix.mul_smul, Matrix.smul_mul, transpose_mul]
    simp only [Matrix.mul_assoc]
  have hgi : ((1 / sv) • ((Z * x)ᵀ * (Z * x)))⁻¹ = sv • ((Z * x)ᵀ * (Z * x))⁻¹ := by
    apply Matrix.inv_eq_right_inv
    rw [Matrix.smul_mul, Matrix.mul_smul, smul_smul, mul_nonsing_inv _ hu, one_div_mul_cancel hv.ne', one_smul]
  refine ⟨fun c => ?_, ?_, rfl, rfl, fun t i => ?_⟩
  · rw [hcrit, hcrit]
    dsimp only
    rw [ho']
    exact mul_le_mul_of_nonneg_left (ols_min (Z * x) (Z *ᵥ y) hu c) (by positivity)
  · rw [hcrit, hg, hgi, smul_smul]
    dsimp only
    rw [ho']
    congr 1
    have hr : (olsWith (Z * x) (Z *ᵥ y) ((Z * x)ᵀ * (Z * x))⁻¹).u =
      Z *ᵥ y - (Z * x) *ᵥ (olsWith (Z * x) (Z *ᵥ y) ((Z * x)ᵀ * (Z * x))⁻¹).betas := rfl
    rw [← hr]
    unfold sig2nk
    field_simp
  · dsimp only [panelFilter]
    rw [Pi.sub_apply, Pi.smul_apply, bigW_apply]; rfl

end Spreg.PanelGLS
