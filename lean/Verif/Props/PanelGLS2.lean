import Verif.Props.PanelGLS
import Verif.Props.LM
/-
C104: PanelRE is generalised least squares for its variance components. C105: its Hausman test.
-/
namespace Spreg.PanelGLS
open Matrix Spreg.Lin Spreg.PanelML Spreg.Gauss

variable {τ n k : Type} [Fintype τ] [Fintype n] [Fintype k] [DecidableEq τ] [DecidableEq n] [DecidableEq k]

/-- Covariance matrix of `mu_i + e_it` with variances `sm` and `se` (specification). -/
def compCov (τ n : Type) [DecidableEq τ] [DecidableEq n] (se sm : ℝ) : Matrix (τ × n) (τ × n) ℝ :=
  Matrix.of fun a b => (if a = b then se else 0) + if a.2 = b.2 then sm else 0

/-- The criterion of generalised least squares (specification). -/
noncomputable def glsCrit {ι : Type} [Fintype ι] [DecidableEq ι] (S : Matrix ι ι ℝ) (y : ι → ℝ) (x : Matrix ι k ℝ) (b : k → ℝ) : ℝ :=
  (y - x *ᵥ b) ⬝ᵥ (S⁻¹ *ᵥ (y - x *ᵥ b))

theorem quasi_tile (theta : ℝ) (y : τ × n → ℝ) : y - theta • tile τ (unitMean y) = quasi τ n (1 - theta) *ᵥ y := by
  funext a
  rw [quasi_eq, mix_apply]
  simp [tile, unitMean, one_apply, sub_mul]
  ring

theorem quasi_tileM (theta : ℝ) (x : Matrix (τ × n) k ℝ) :
    x - theta • tileM τ (unitMeanM x) = quasi τ n (1 - theta) * x := by
  ext a j
  have h := congrFun (quasi_tile theta fun a => x a j) a
  have : (quasi τ n (1 - theta) * x) a j = (quasi τ n (1 - theta) *ᵥ fun a => x a j) a := rfl
  rw [this, ← h]; rfl

theorem quasi_symm (phi : ℝ) : (quasi τ n phi)ᵀ = quasi τ n phi := by rw [quasi_eq, mix_transpose]; simp

/-- The quasi-demeaning matrix is a square root of the inverse covariance matrix. -/
theorem compCov_left [Nonempty τ] (se sm phi : ℝ) (hs : se ≠ 0) (hphi : phi ^ 2 * (se + Fintype.card τ * sm) = se) :
    ((1 / se) • ((quasi τ n phi)ᵀ * quasi τ n phi)) * compCov τ n se sm = 1 := by
  have h1 : compCov τ n se sm = se • reCov τ n (sm / se) := by
    ext a b
    simp only [compCov, reCov, of_apply, Matrix.smul_apply, smul_eq_mul]
    split_ifs <;> field_simp <;> ring
  rw [h1, Matrix.smul_mul, Matrix.mul_smul, smul_smul, one_div_mul_cancel hs, one_smul, quasi_eq, mix_transpose, mix_mul,
    reCov_eq, mix_mul]
  simp only [transpose_smul, transpose_one, Matrix.mul_one, Matrix.smul_mul, Matrix.mul_smul, smul_smul]
  rw [← mix_one]
  congr 1
  rw [show (1 + Fintype.card τ * (sm / se)) * (phi * phi) = 1 by
    have : phi ^ 2 * (1 + Fintype.card τ * (sm / se)) = (phi ^ 2 * (se + Fintype.card τ * sm)) / se := by field_simp
    rw [← pow_two, mul_comm, this, hphi, div_self hs], one_smul]

theorem compCov_inv [Nonempty τ] (se sm phi : ℝ) (hs : se ≠ 0) (hphi : phi ^ 2 * (se + Fintype.card τ * sm) = se) :
    (compCov τ n se sm)⁻¹ = (1 / se) • ((quasi τ n phi)ᵀ * quasi τ n phi) :=
  Matrix.inv_eq_left_inv (compCov_left se sm phi hs hphi)

/-- What a successful PanelRE consists of. -/
theorem panelRE_some {pinv : Matrix k k ℝ → Matrix k k ℝ} {y : τ × n → ℝ} {x : Matrix (τ × n) k ℝ} {f : REFit τ n k}
    (h : panelRE pinv y x = some f) :
    0 ≤ f.sigma2mu ∧ f.theta = 1 - Real.sqrt (f.sigma2e / (f.sigma2e + Fintype.card τ * f.sigma2mu)) ∧
    ∃ reg, ols (quasi τ n (1 - f.theta) * x) (quasi τ n (1 - f.theta) *ᵥ y) = some reg ∧ f.betas = reg.betas ∧
      f.sig2 = sig2n reg.u ∧ f.vm = f.sig2 • reg.xtxi ∧ f.predy = x *ᵥ f.betas ∧ f.u = y - f.predy ∧
      ∃ w, within (x - tileM τ (unitMeanM x)) (y - tile τ (unitMean y)) = some w ∧
        f.hausman = hausman (x - tileM τ (unitMeanM x)) w.1 f.sigma2e f.betas f.vm := by
  classical
  unfold panelRE at h
  simp only [Option.bind_eq_some_iff, Option.map_eq_some_iff] at h
  obtain ⟨w, hw, reg, hreg, rfl⟩ := h
  dsimp only
  refine ⟨?_, rfl, reg, ?_, rfl, rfl, rfl, rfl, rfl, w, hw, rfl⟩
  · split_ifs with h
    · exact le_rfl
    · exact not_lt.1 h
  · rw [← quasi_tile, ← quasi_tileM]; exact hreg

/-- C104: the variance of the individual effects is never negative and, when the residuals of the within regression do not
vanish, theta lies in [0, 1) and is 0 exactly when that variance is. -/
theorem C104_theta [Nonempty τ] (pinv : Matrix k k ℝ → Matrix k k ℝ) (y : τ × n → ℝ) (x : Matrix (τ × n) k ℝ)
    (f : REFit τ n k) (h : panelRE pinv y x = some f) (hs : 0 < f.sigma2e) :
    0 ≤ f.sigma2mu ∧ 0 ≤ f.theta ∧ f.theta < 1 ∧ (f.theta = 0 ↔ f.sigma2mu = 0) := by
  obtain ⟨hm, ht, -⟩ := panelRE_some h
  have hT : (0 : ℝ) < Fintype.card τ := by exact_mod_cast Fintype.card_pos
  have hd : 0 < f.sigma2e + Fintype.card τ * f.sigma2mu := by have := mul_nonneg hT.le hm; linarith
  have hq : 0 < f.sigma2e / (f.sigma2e + Fintype.card τ * f.sigma2mu) := div_pos hs hd
  have hq1 : f.sigma2e / (f.sigma2e + Fintype.card τ * f.sigma2mu) ≤ 1 := by
    rw [div_le_one hd]; have := mul_nonneg hT.le hm; linarith
  refine ⟨hm, ?_, ?_, ?_⟩
  · rw [ht, sub_nonneg]; exact Real.sqrt_le_one.2 hq1
  · rw [ht]; have := Real.sqrt_pos.2 hq; linarith
  · rw [ht, sub_eq_zero, eq_comm, Real.sqrt_eq_one, div_eq_one_iff_eq hd.ne']
    constructor
    · intro e
      have : Fintype.card τ * f.sigma2mu = 0 := by linarith
      rcases mul_eq_zero.1 this with h | h
      · exact absurd h hT.ne'
      · exact h
    · intro e; rw [e, mul_zero, add_zero]

theorem phi_sq [Nonempty τ] {pinv : Matrix k k ℝ → Matrix k k ℝ} {y : τ × n → ℝ} {x : Matrix (τ × n) k ℝ}
    {f : REFit τ n k} (h : panelRE pinv y x = some f) (hs : 0 < f.sigma2e) :
    (1 - f.theta) ^ 2 * (f.sigma2e + Fintype.card τ * f.sigma2mu) = f.sigma2e := by
  obtain ⟨hm, ht, -⟩ := panelRE_some h
  have hT : (0 : ℝ) < Fintype.card τ := by exact_mod_cast Fintype.card_pos
  have hd : 0 < f.sigma2e + Fintype.card τ * f.sigma2mu := by have := mul_nonneg hT.le hm; linarith
  rw [ht, sub_sub_cancel, Real.sq_sqrt (div_nonneg hs.le hd.le), div_mul_cancel₀ _ hd.ne']

/-- C104: the coefficients of PanelRE are the generalised least squares estimates for the covariance matrix with the reported
variance components, and `vm` is their variance matrix up to the factor `sig2 / sigma2_epsilon`. -/
theorem C104_gls [Nonempty τ] (pinv : Matrix k k ℝ → Matrix k k ℝ) (y : τ × n → ℝ) (x : Matrix (τ × n) k ℝ)
    (f : REFit τ n k) (h : panelRE pinv y x = some f) (hs : 0 < f.sigma2e) :
    (∀ c, glsCrit (compCov τ n f.sigma2e f.sigma2mu) y x f.betas ≤ glsCrit (compCov τ n f.sigma2e f.sigma2mu) y x c) ∧
    f.vm = (f.sig2 / f.sigma2e) • (xᵀ * (compCov τ n f.sigma2e f.sigma2mu)⁻¹ * x)⁻¹ ∧
    SymPSD f.vm := by
  have hphi := phi_sq h hs
  obtain ⟨-, -, reg, hreg, hb, hs2, hvm, -⟩ := panelRE_some h
  obtain ⟨hu, hreg'⟩ := ols_eq_some hreg
  have hinv := compCov_inv (τ := τ) (n := n) f.sigma2e f.sigma2mu (1 - f.theta) hs.ne' hphi
  set Q := quasi τ n (1 - f.theta) with hQ
  have hcrit : ∀ c, glsCrit (compCov τ n f.sigma2e f.sigma2mu) y x c = 1 / f.sigma2e * utu (Q *ᵥ y - (Q * x) *ᵥ c) := by
    intro c
    unfold glsCrit
    rw [hinv, smul_mulVec, dotProduct_smul, smul_eq_mul, ← mulVec_mulVec, dotProduct_mulVec, vecMul_transpose,
      ← utu_eq_dot, mulVec_sub, mulVec_mulVec]
  have hxtxi : reg.xtxi = ((Q * x)ᵀ * (Q * x))⁻¹ := by rw [hreg']; rfl
  have hbe : f.betas = (olsWith (Q * x) (Q *ᵥ y) ((Q * x)ᵀ * (Q * x))⁻¹).betas := by rw [hb, hreg']
  refine ⟨fun c => ?_, ?_, ?_⟩
  · rw [hcrit, hcrit, hbe]
    exact mul_le_mul_of_nonneg_left (ols_min (Q * x) (Q *ᵥ y) hu c) (by positivity)
  · have hg : xᵀ * (compCov τ n f.sigma2e f.sigma2mu)⁻¹ * x = (1 / f.sigma2e) • ((Q * x)ᵀ * (Q * x)) := by
      rw [hinv, Matrix.mul_smul, Matrix.smul_mul, transpose_mul]
      simp only [Matrix.mul_assoc]
    have hgi : ((1 / f.sigma2e) • ((Q * x)ᵀ * (Q * x)))⁻¹ = f.sigma2e • ((Q * x)ᵀ * (Q * x))⁻¹ := by
      apply Matrix.inv_eq_right_inv
      rw [Matrix.smul_mul, Matrix.mul_smul, smul_smul, mul_nonsing_inv _ hu, one_div_mul_cancel hs.ne', one_smul]
    rw [hvm, hxtxi, hg, hgi, smul_smul, div_mul_cancel₀ _ hs.ne']
  · rw [hvm, hxtxi]
    refine psd_smul (psd_inv_gram _ hu) _ ?_
    rw [hs2]
    exact div_nonneg (utu_nonneg _) (Nat.cast_nonneg _)

theorem quasi_one : quasi τ n 1 = 1 := by rw [quasi_eq, one_smul, mix_one]

/-- C104: without individual variance PanelRE is pooled OLS. -/
theorem C104_pooled [Nonempty τ] (pinv : Matrix k k ℝ → Matrix k k ℝ) (y : τ × n → ℝ) (x : Matrix (τ × n) k ℝ)
    (f : REFit τ n k) (h : panelRE pinv y x = some f) (hs : 0 < f.sigma2e) (hm : f.sigma2mu = 0) :
    ∃ o, ols x y = some o ∧ f.betas = o.betas ∧ f.u = o.u ∧ f.vm = sig2n o.u • o.xtxi := by
  have h0 := (C104_theta pinv y x f h hs).2.2.2.2 hm
  obtain ⟨-, -, reg, hreg, hb, hs2, hvm, hp, hu, -⟩ := panelRE_some h
  rw [h0, sub_zero, quasi_one, Matrix.one_mul, one_mulVec] at hreg
  refine ⟨reg, hreg, hb, ?_, by rw [hvm, hs2]⟩
  obtain ⟨-, e⟩ := ols_eq_some hreg
  rw [hu, hp, hb, e]; rfl

/-! ### C105: the Hausman test -/

/-- The within variance is at least the GLS variance (without the variance estimates): if the columns that are left out of the
within regression do not vary over time. -/
theorem within_ge {s : Type} [Fintype s] [DecidableEq s] (A : Matrix s s ℝ) (hA : SymPSD A) (hAu : IsUnit A.det)
    (G : Matrix k k ℝ) (hG : SymPSD G) (hGu : IsUnit G.det) (e : s → k) (he : Function.Injective e)
    (hle : ∀ v : k → ℝ, (fun i => v (e i)) ⬝ᵥ (A *ᵥ fun i => v (e i)) ≤ v ⬝ᵥ (G *ᵥ v)) (c : s → ℝ) :
    c ⬝ᵥ (G⁻¹.submatrix e e *ᵥ c) ≤ c ⬝ᵥ (A⁻¹ *ᵥ c) := by
  classical
  -- extension of `c` by zeros
  set C : k → ℝ := fun j => ∑ i, if e i = j then c i else 0 with hC
  have hCd : ∀ v : k → ℝ, C ⬝ᵥ v = ∑ i, c i * v (e i) := by
    intro v
    simp only [hC, dotProduct, Finset.sum_mul]
    rw [Finset.sum_comm]
    refine Finset.sum_congr rfl fun i _ => ?_
    simp
  set v := G⁻¹ *ᵥ C with hv
  have hGv : G *ᵥ v = C := by rw [hv, mulVec_mulVec, mul_nonsing_inv _ hGu, one_mulVec]
  have hve : ∀ i, v (e i) = (G⁻¹.submatrix e e *ᵥ c) i := by
    intro i
    rw [hv, mulVec, dotProduct_comm, hCd]
    simp only [mulVec, dotProduct, submatrix_apply]
    exact Finset.sum_congr rfl fun j _ => mul_comm _ _
  have h1 : c ⬝ᵥ (G⁻¹.submatrix e e *ᵥ c) = C ⬝ᵥ v := by
    rw [hCd]; exact Finset.sum_congr rfl fun i _ => by rw [hve]
  have h2 : C ⬝ᵥ v = v ⬝ᵥ (G *ᵥ v) := by rw [hGv, dotProduct_comm]
  have h3 := hle v
  set w : s → ℝ := fun i => v (e i) with hw
  have h4 : c ⬝ᵥ w = C ⬝ᵥ v := by rw [hCd]; rfl
  set d := A⁻¹ *ᵥ c with hd
  have hAd : A *ᵥ d = c := by rw [hd, mulVec_mulVec, mul_nonsing_inv _ hAu, one_mulVec]
  have h5 : 0 ≤ (w - d) ⬝ᵥ (A *ᵥ (w - d)) := by rw [← quad_eq]; exact hA.2 _
  rw [mulVec_sub, hAd, sub_dotProduct, dotProduct_sub, dotProduct_sub, dotProduct_comm w c] at h5
  have h6 : d ⬝ᵥ (A *ᵥ w) = c ⬝ᵥ w := by
    rw [dotProduct_mulVec, ← mulVec_transpose, hA.1, hAd]
  rw [h6] at h5
  have h7 : d ⬝ᵥ c = c ⬝ᵥ d := dotProduct_comm _ _
  rw [h1]
  linarith

theorem gram_quad {ι s : Type} [Fintype ι] [Fintype s] (z : Matrix ι s ℝ) (v : s → ℝ) :
    v ⬝ᵥ ((zᵀ * z) *ᵥ v) = utu (z *ᵥ v) := by
  rw [← mulVec_mulVec, dotProduct_mulVec, vecMul_transpose, ← utu_eq_dot]

/-- C105, partial: the Hausman statistic is nonnegative if the variance estimate of the random effects regression is not
larger than that of the within regression (and the regressors left out of the within regression do not vary over time).
Missing: the other case, `C105_negative_violated`. -/
theorem C105_nonneg_partial [Nonempty τ] (pinv : Matrix k k ℝ → Matrix k k ℝ) (y : τ × n → ℝ) (x : Matrix (τ × n) k ℝ)
    (f : REFit τ n k) (h : panelRE pinv y x = some f) (hs : 0 < f.sigma2e) (hle : f.sig2 ≤ f.sigma2e)
    (hinv : ∀ j, ¬Valid (x - tileM τ (unitMeanM x)) j → ∀ a, (x - tileM τ (unitMeanM x)) a j = 0) (H : ℝ) (hH : f.hausman = some H) : 0 ≤ H := by
  classical
  have hphi := phi_sq h hs
  obtain ⟨-, -, reg, hreg, hb, hs2, hvm, -, -, w, hw, hh⟩ := panelRE_some h
  obtain ⟨hu, hreg'⟩ := ols_eq_some hreg
  set Q := quasi τ n (1 - f.theta) with hQ
  have hxd := demM_eq x
  generalize x - tileM τ (unitMeanM x) = xd at *
  have hxtxi : reg.xtxi = ((Q * x)ᵀ * (Q * x))⁻¹ := by rw [hreg']; rfl
  rw [hh] at hH
  unfold hausman at hH
  simp only [Option.bind_eq_some_iff, Option.map_eq_some_iff] at hH
  obtain ⟨p, hp, vi, hvi, rfl⟩ := hH
  unfold within at hw
  split_ifs at hw with hc
  · simp only [Option.map_eq_some_iff] at hw
    obtain ⟨xi, hxi, rfl⟩ := hw
    cases hp
    dsimp only at hvi ⊢
    set xs : Matrix (τ × n) {j // Valid xd j} ℝ := xd.submatrix id Subtype.val with hxs
    obtain ⟨hxu, rfl, -⟩ := inv?_eq_some hxi
    obtain ⟨-, -, hright, -⟩ := inv?_eq_some hvi
    refine (LM.psd_inv ?_ hright _).1
    have hs2n : 0 ≤ f.sig2 := by rw [hs2]; exact div_nonneg (utu_nonneg _) (Nat.cast_nonneg _)
    have hxds : ∀ v : k → ℝ, xs *ᵥ (fun i => v i.1) = xd *ᵥ v := by
      intro v
      funext a
      simp only [mulVec, dotProduct, hxs, submatrix_apply, id]
      have e2 := Fintype.sum_subtype_add_sum_subtype (fun j => Valid xd j) (fun j => xd a j * v j)
      have e3 : ∑ j : {j // ¬Valid xd j}, xd a j.1 * v j.1 = 0 :=
        Finset.sum_eq_zero fun j _ => by rw [hinv j.1 j.2 a, zero_mul]
      rw [e3, add_zero] at e2
      exact e2
    have hQQ : ∀ v, utu (xd *ᵥ v) ≤ utu ((Q * x) *ᵥ v) := by
      intro v
      have e1 : xd *ᵥ v = quasi τ n 0 *ᵥ ((Q * x) *ᵥ v) := by
        rw [hxd, mulVec_mulVec, ← Matrix.mul_assoc]
        congr 2
        rw [hQ, quasi_eq, quasi_eq, mix_mul]; simp
      rw [e1]; exact utu_quasi0_le _
    have key := within_ge (xsᵀ * xs) (psd_gram xs) hxu ((Q * x)ᵀ * (Q * x)) (psd_gram _) hu
      (Subtype.val : {j // Valid xd j} → k) Subtype.val_injective (fun v => by
        rw [gram_quad xs, gram_quad (Q * x), hxds]
        exact hQQ v)
    refine ⟨?_, fun v => ?_⟩
    · have e2 : (f.vm)ᵀ = f.vm := by rw [hvm, hxtxi, transpose_smul, xtxi_symm]
      rw [transpose_sub, transpose_smul, xtxi_symm xs, transpose_submatrix f.vm, e2]
    · rw [quad_eq, sub_mulVec, dotProduct_sub, smul_mulVec, dotProduct_smul, smul_eq_mul, hvm, hxtxi]
      have e1 : ((f.sig2 • ((Q * x)ᵀ * (Q * x))⁻¹).submatrix (Subtype.val : {j // Valid xd j} → k)
            (Subtype.val : {j // Valid xd j} → k)) =
          f.sig2 • (((Q * x)ᵀ * (Q * x))⁻¹.submatrix (Subtype.val : {j // Valid xd j} → k)
            (Subtype.val : {j // Valid xd j} → k)) := rfl
      rw [e1, smul_mulVec, dotProduct_smul, smul_eq_mul]
      have k1 := key v
      have k2 : 0 ≤ v ⬝ᵥ ((((Q * x)ᵀ * (Q * x))⁻¹.submatrix (Subtype.val : {j // Valid xd j} → k) Subtype.val) *ᵥ v) := by
        have := psd_inv_gram (Q * x) hu
        set G := ((Q * x)ᵀ * (Q * x))⁻¹
        have h3 := this.2 (fun j => if hj : Valid xd j then v ⟨j, hj⟩ else 0)
        rw [quad_eq] at h3
        convert h3 using 1
        simp only [dotProduct, mulVec, submatrix_apply]
        have split : ∀ F : k → ℝ, (∀ j, ¬Valid xd j → F j = 0) → ∑ j, F j = ∑ j : {j // Valid xd j}, F j.1 := by
          intro F hF
          have e2 := Fintype.sum_subtype_add_sum_subtype (fun j => Valid xd j) F
          have e3 : ∑ j : {j // ¬Valid xd j}, F j.1 = 0 := Finset.sum_eq_zero fun j _ => hF j.1 j.2
          rw [e3, add_zero] at e2
          exact e2.symm
        rw [split _ (fun j hj => by rw [dif_neg hj, zero_mul])]
        refine Finset.sum_congr rfl fun i _ => ?_
        rw [dif_pos i.2, split _ (fun j hj => by rw [dif_neg hj, mul_zero])]
        congr 1
        exact Finset.sum_congr rfl fun j _ => by rw [dif_pos j.2]
      nlinarith
  · cases hw; cases hp

end Spreg.PanelGLS
