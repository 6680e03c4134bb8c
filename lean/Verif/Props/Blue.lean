import Verif.Spec.Blue
import Verif.Props.Sampling
import Verif.Props.GM
import Verif.Props.PanelGLS4
import Verif.Props.SUR
import Mathlib.Analysis.Matrix.Order
import Verif.Props.SUR
import Mathlib.Analysis.Matrix.Order
/-
Least squares and generalised least squares are best linear unbiased (C173).
-/
set_option linter.unusedSectionVars false
namespace Spreg.Blue
open Matrix MeasureTheory ProbabilityTheory Spreg Spreg.Lin Spreg.Gauss

variable {Ω n k l τ : Type} [MeasurableSpace Ω] [Fintype n] [Fintype k] [DecidableEq n] [DecidableEq k] [Fintype τ] [DecidableEq τ]
  {P : Measure Ω} {v : Ω → n → ℝ} {V : Matrix n n ℝ}

theorem dot_sq (h : HasCov P v V) (l : n → ℝ) : MemLp (fun ω => l ⬝ᵥ v ω) 2 P := by
  simp only [dotProduct]
  exact memLp_finsetSum _ fun i _ => (h.sq i).const_mul (l i)

theorem dot_mean (h : HasCov P v V) (l : n → ℝ) : ∫ ω, l ⬝ᵥ v ω ∂P = 0 := by
  have := h.prob
  simp only [dotProduct]
  rw [integral_finsetSum _ fun i _ => ((h.sq i).integrable (by norm_num)).const_mul (l i)]
  simp only [integral_const_mul, h.mean, mul_zero, Finset.sum_const_zero]

theorem dot_var (h : HasCov P v V) (l : n → ℝ) : ∫ ω, (l ⬝ᵥ v ω) ^ 2 ∂P = l ⬝ᵥ (V *ᵥ l) := by
  have e1 : ∀ ω, (l ⬝ᵥ v ω) ^ 2 = ∑ i, ∑ j, l i * l j * (v ω i * v ω j) := by
    intro ω
    rw [pow_two, dotProduct, Finset.sum_mul_sum]
    exact Finset.sum_congr rfl fun i _ => Finset.sum_congr rfl fun j _ => by ring
  have hi : ∀ i j, Integrable (fun ω => l i * l j * (v ω i * v ω j)) P := fun i j => ((h.sq i).integrable_mul (h.sq j)).const_mul _
  simp only [e1]
  rw [integral_finsetSum _ fun i _ => integrable_finsetSum _ fun j _ => hi i j]
  simp only [dotProduct, mulVec, Finset.mul_sum]
  refine Finset.sum_congr rfl fun i _ => ?_
  rw [integral_finsetSum _ fun j _ => hi i j]
  refine Finset.sum_congr rfl fun j _ => ?_
  rw [integral_const_mul, h.cov]; ring

theorem unbiased_iff (h : HasCov P v V) (x : Matrix n k ℝ) (a : k → ℝ) (l : n → ℝ) (c : ℝ) :
    UnbiasedLinear P x v a l c ↔ c = 0 ∧ l ᵥ* x = a := by
  have := h.prob
  have e : ∀ beta : k → ℝ, ∫ ω, (l ⬝ᵥ (x *ᵥ beta + v ω) + c) ∂P = (l ᵥ* x) ⬝ᵥ beta + c := by
    intro beta
    have e1 : ∀ ω, l ⬝ᵥ (x *ᵥ beta + v ω) + c = ((l ᵥ* x) ⬝ᵥ beta + c) + l ⬝ᵥ v ω := by
      intro ω; rw [dotProduct_add, dotProduct_mulVec]; ring
    simp only [e1]
    refine (integral_add (integrable_const _) ((dot_sq h l).integrable (by norm_num))).trans ?_
    rw [dot_mean h, integral_const]
    simp
  unfold UnbiasedLinear
  simp only [e]
  constructor
  · intro hb
    have h0 := hb 0
    simp only [dotProduct_zero, zero_add] at h0
    refine ⟨h0, ?_⟩
    funext j
    have := hb (Pi.single j 1)
    rw [h0] at this
    simpa using this
  · rintro ⟨rfl, rfl⟩ beta
    simp

theorem mse_linear (h : HasCov P v V) (x : Matrix n k ℝ) (a : k → ℝ) (l : n → ℝ) (hl : l ᵥ* x = a) (beta : k → ℝ) :
    mse P x v a (fun y => l ⬝ᵥ y) beta = l ⬝ᵥ (V *ᵥ l) := by
  unfold mse
  rw [← dot_var h]
  refine integral_congr_ae (.of_forall fun ω => ?_)
  simp only
  rw [dotProduct_add, dotProduct_mulVec, hl, add_sub_cancel_left]

theorem symm (h : HasCov P v V) : Vᵀ = V := by
  ext i j; rw [transpose_apply, ← h.cov, ← h.cov]
  exact integral_congr_ae (.of_forall fun ω => mul_comm _ _)

theorem psd (h : HasCov P v V) : V.PosSemidef := by
  refine Matrix.PosSemidef.of_dotProduct_mulVec_nonneg ?_ fun d => ?_
  · rw [Matrix.IsHermitian, conjTranspose_eq_transpose_of_trivial, symm h]
  · rw [star_trivial, ← dot_var h]
    exact integral_nonneg fun ω => sq_nonneg _

/-- Aitken's theorem: an estimator that solves the normal equations of generalised least squares with weights proportional to the
inverse of the covariance matrix is best. -/
theorem aitken (h : HasCov P v V) (x : Matrix n k ℝ) (S : Matrix n n ℝ) (c : ℝ) (hc : c ≠ 0) (hV : V * (c • S) = 1)
    (hu : IsUnit (xᵀ * S * x).det) (b : (n → ℝ) → k → ℝ) (hb : ∀ y, xᵀ *ᵥ (S *ᵥ (y - x *ᵥ b y)) = 0) (a : k → ℝ) :
    BestLinearUnbiased P x v a (fun y => a ⬝ᵥ b y) := by
  set G : Matrix k n ℝ := (xᵀ * S * x)⁻¹ * (xᵀ * S) with hG
  have hbG : ∀ y, b y = G *ᵥ y := by
    intro y
    have e := hb y
    rw [mulVec_sub, mulVec_sub, sub_eq_zero, mulVec_mulVec, mulVec_mulVec, mulVec_mulVec] at e
    rw [hG, ← mulVec_mulVec, e, mulVec_mulVec, nonsing_inv_mul _ hu, one_mulVec]
  have hGx : G * x = 1 := by
    rw [hG, Matrix.mul_assoc, nonsing_inv_mul _ hu]
  have hsym := symm h
  have hVS : c • (V * S) = 1 := by rw [← Matrix.mul_smul]; exact hV
  have hSV : (c • S) * V = 1 := mul_eq_one_comm.1 hV
  set g : n → ℝ := a ᵥ* G with hg
  have hest : (fun y => a ⬝ᵥ b y) = fun y => g ⬝ᵥ y := by
    funext y; rw [hbG, dotProduct_mulVec]
  have hgx : g ᵥ* x = a := by rw [hg, vecMul_vecMul, hGx, vecMul_one]
  have hpos : ∀ d : n → ℝ, 0 ≤ d ⬝ᵥ (V *ᵥ d) ∧ (d ⬝ᵥ (V *ᵥ d) = 0 → d = 0) := by
    intro d
    have hp := psd h
    refine ⟨by simpa using hp.dotProduct_mulVec_nonneg d, fun h0 => ?_⟩
    have := (hp.dotProduct_mulVec_zero_iff d).1 (by simpa using h0)
    rw [← one_mulVec d, ← hSV, ← mulVec_mulVec, this, mulVec_zero]
  have hS : Sᵀ = S := by
    have : (c • S)ᵀ = c • S := by
      have e1 := congrArg transpose hV
      rw [transpose_mul, hsym, transpose_one] at e1
      calc (c • S)ᵀ = (c • S)ᵀ * (V * (c • S)) := by rw [hV, Matrix.mul_one]
        _ = ((c • S)ᵀ * V) * (c • S) := by rw [Matrix.mul_assoc]
        _ = _ := by rw [e1, Matrix.one_mul]
    rw [transpose_smul] at this
    exact smul_right_injective _ hc this
  have horth : ∀ d : n → ℝ, d ᵥ* x = 0 → d ⬝ᵥ (V *ᵥ g) = 0 := by
    intro d hd
    have e1 : c • (V *ᵥ g) = x *ᵥ ((xᵀ * S * x)⁻¹ᵀ *ᵥ a) := by
      rw [hg, ← mulVec_transpose, hG, transpose_mul, transpose_mul, transpose_transpose, hS, mulVec_mulVec, ← smul_mulVec]
      rw [show c • (V * (S * x * (xᵀ * S * x)⁻¹ᵀ)) = (c • (V * S)) * (x * (xᵀ * S * x)⁻¹ᵀ) by
        rw [Matrix.smul_mul]; simp only [Matrix.mul_assoc]]
      rw [hVS, Matrix.one_mul, ← mulVec_mulVec]
    have e2 : c * (d ⬝ᵥ (V *ᵥ g)) = 0 := by
      rw [← smul_eq_mul, ← dotProduct_smul, e1, dotProduct_mulVec, hd, zero_dotProduct]
    exact (mul_eq_zero.1 e2).resolve_left hc
  have hdec : ∀ l : n → ℝ, l ᵥ* x = a → l ⬝ᵥ (V *ᵥ l) = g ⬝ᵥ (V *ᵥ g) + (l - g) ⬝ᵥ (V *ᵥ (l - g)) := by
    intro l hl
    have ho := horth (l - g) (by rw [sub_vecMul, hl, hgx, sub_self])
    have ho2 : g ⬝ᵥ (V *ᵥ (l - g)) = 0 := by
      rw [dotProduct_mulVec, ← mulVec_transpose, hsym, dotProduct_comm]; exact ho
    have e : l = g + (l - g) := by abel
    conv_lhs => rw [e]
    rw [mulVec_add, dotProduct_add, add_dotProduct, add_dotProduct, ho, ho2]; ring
  have hc0 : ∀ l : n → ℝ, (fun y : n → ℝ => l ⬝ᵥ y + 0) = fun y => l ⬝ᵥ y := fun l => by funext y; rw [add_zero]
  refine ⟨⟨g, fun y => congrFun hest y, (unbiased_iff h x a g 0).2 ⟨rfl, hgx⟩⟩, fun l c' hl beta => ?_, fun l c' hl beta hle y => ?_⟩
  · obtain ⟨rfl, hl'⟩ := (unbiased_iff h x a l c').1 hl
    rw [hest, hc0, mse_linear h x a g hgx, mse_linear h x a l hl', hdec l hl']
    linarith [(hpos (l - g)).1]
  · obtain ⟨rfl, hl'⟩ := (unbiased_iff h x a l c').1 hl
    rw [hest, hc0, mse_linear h x a g hgx, mse_linear h x a l hl', hdec l hl'] at hle
    have := (hpos (l - g)).2 (le_antisymm (by linarith) (hpos (l - g)).1)
    rw [sub_eq_zero] at this
    rw [congrFun hest y, this, add_zero]

/-- The same for least squares on data transformed by `T`. -/
theorem aitken_ols {m : Type} [Fintype m] [DecidableEq m] (h : HasCov P v V) (x : Matrix n k ℝ) (T : Matrix m n ℝ) (c : ℝ) (hc : c ≠ 0)
    (hV : V * (c • (Tᵀ * T)) = 1) (b : (n → ℝ) → k → ℝ) (hb : ∀ y, ∃ o, ols (T * x) (T *ᵥ y) = some o ∧ o.betas = b y) (a : k → ℝ) :
    BestLinearUnbiased P x v a (fun y => a ⬝ᵥ b y) := by
  have hu : IsUnit ((T * x)ᵀ * (T * x)).det := by
    obtain ⟨o, ho, -⟩ := hb 0
    exact (ols_eq_some ho).1
  have e : xᵀ * (Tᵀ * T) * x = (T * x)ᵀ * (T * x) := by
    rw [transpose_mul]; simp only [Matrix.mul_assoc]
  refine aitken h x (Tᵀ * T) c hc hV (by rwa [e]) b (fun y => ?_) a
  obtain ⟨o, ho, eb⟩ := hb y
  obtain ⟨-, rfl⟩ := ols_eq_some ho
  have hn := normal_eq (T * x) (T *ᵥ y) hu
  rw [← eb]
  rw [mulVec_mulVec, ← Matrix.mul_assoc, ← transpose_mul, ← mulVec_mulVec, mulVec_sub, mulVec_mulVec]
  exact hn

/-- Uncorrelated errors have a diagonal covariance matrix. -/
theorem errors_cov {e : Ω → n → ℝ} {s2 : n → ℝ} (h : Errors P e s2) : HasCov P e (diagonal s2) :=
  ⟨h.prob, h.sq, h.mean, fun i j => by rw [h.cov, diagonal_apply]⟩

/-- Covariance of transformed errors. -/
theorem cov_linear {m : Type} [Fintype m] (h : HasCov P v V) (A : Matrix m n ℝ) : HasCov P (fun ω => A *ᵥ v ω) (A * V * Aᵀ) where
  prob := h.prob
  sq i := dot_sq h (A i)
  mean i := dot_mean h (A i)
  cov i j := by
    have p := dot_var h (A i + A j)
    have q := dot_var h (A i)
    have r := dot_var h (A j)
    have e1 : ∀ ω, ((A i + A j) ⬝ᵥ v ω) ^ 2 = (A i ⬝ᵥ v ω) ^ 2 + (A j ⬝ᵥ v ω) ^ 2 + 2 * (A i ⬝ᵥ v ω * A j ⬝ᵥ v ω) := by
      intro ω; rw [add_dotProduct]; ring
    simp only [e1] at p
    have i1 := (dot_sq h (A i)).integrable_sq
    have i2 := (dot_sq h (A j)).integrable_sq
    have i3 : Integrable (fun ω => 2 * (A i ⬝ᵥ v ω * A j ⬝ᵥ v ω)) P := ((dot_sq h (A i)).integrable_mul (dot_sq h (A j))).const_mul 2
    have p' := ((integral_add (i1.add i2) i3).symm.trans p)
    have p2 : ∫ ω, (A i ⬝ᵥ v ω) ^ 2 + (A j ⬝ᵥ v ω) ^ 2 ∂P = _ := integral_add i1 i2
    simp only [Pi.add_apply] at p'
    rw [p2, q, r, integral_const_mul, mulVec_add, dotProduct_add, add_dotProduct, add_dotProduct] at p'
    have sy : A j ⬝ᵥ (V *ᵥ A i) = A i ⬝ᵥ (V *ᵥ A j) := by
      rw [dotProduct_mulVec, ← mulVec_transpose, symm h, dotProduct_comm]
    show ∫ ω, A i ⬝ᵥ v ω * A j ⬝ᵥ v ω ∂P = _
    have e3 : (A * V * Aᵀ) i j = A i ⬝ᵥ (V *ᵥ A j) := by
      rw [Matrix.mul_assoc]
      rfl
    rw [e3]
    linarith

/-- `C173` for `OLS`. Under uncorrelated errors with equal variances every linear combination of the coefficients is the best linear
unbiased estimator. -/
theorem C173_ols {e : Ω → n → ℝ} {s : ℝ} (hs : 0 < s) (h : Errors P e fun _ => s) (x : Matrix n k ℝ) (f : (n → ℝ) → OLSFit n k)
    (hf : ∀ y, ols x y = some (f y)) (a : k → ℝ) : BestLinearUnbiased P x e a (fun y => a ⬝ᵥ (f y).betas) := by
  refine aitken_ols (errors_cov h) x (1 : Matrix n n ℝ) (1 / s) (by positivity) ?_ _ (fun y => ⟨f y, ?_, rfl⟩) a
  · rw [transpose_one, Matrix.mul_one, Matrix.mul_smul, Matrix.mul_one, ← smul_one_eq_diagonal, smul_smul, one_div,
      inv_mul_cancel₀ hs.ne', one_smul]
  · rw [Matrix.one_mul, one_mulVec, hf]

/-- `C173` for `WLS`: errors whose variances are inversely proportional to the weights. `G` is what `la.pinv` returns. -/
theorem C173_wls {e : Ω → n → ℝ} {s : ℝ} (hs : 0 < s) (w : n → ℝ) (hw : ∀ i, 0 < w i) (h : Errors P e fun i => s / w i)
    (x : Matrix n k ℝ) (hx : IsUnit (xᵀ * x).det) (G : Matrix k k ℝ)
    (hG : IsGInv ((Matrix.of fun i j => x i j * Real.sqrt (w i) : Matrix n k ℝ)ᵀ * (Matrix.of fun i j => x i j * Real.sqrt (w i) : Matrix n k ℝ)) G)
    (a : k → ℝ) : BestLinearUnbiased P x e a (fun y => a ⬝ᵥ (wls x y (fun i => Real.sqrt (w i)) G).2.betas) := by
  have hs' : ∀ i, Real.sqrt (w i) * Real.sqrt (w i) = w i := fun i => Real.mul_self_sqrt (hw i).le
  have hTT : (diagonal fun i => Real.sqrt (w i))ᵀ * (diagonal fun i => Real.sqrt (w i)) = diagonal w := by
    rw [diagonal_transpose, diagonal_mul_diagonal]
    congr 1; funext i; exact hs' i
  have hxw : (Matrix.of fun i j => x i j * Real.sqrt (w i) : Matrix n k ℝ) = diagonal (fun i => Real.sqrt (w i)) * x := by
    ext i j; rw [diagonal_mul, of_apply, mul_comm]
  have hu : IsUnit ((diagonal (fun i => Real.sqrt (w i)) * x)ᵀ * (diagonal (fun i => Real.sqrt (w i)) * x)).det := by
    rw [xtx_isUnit_iff]
    intro b hb
    rw [xtx_isUnit_iff] at hx
    refine hx b ?_
    rw [← mulVec_mulVec] at hb
    funext i
    have := congrFun hb i
    rw [mulVec_diagonal] at this
    exact (mul_eq_zero.1 this).resolve_left (Real.sqrt_pos.2 (hw i)).ne'
  refine aitken_ols (errors_cov h) x (diagonal fun i => Real.sqrt (w i)) (1 / s) (by positivity) ?_ _ (fun y => ?_) a
  · rw [hTT, Matrix.mul_smul, diagonal_mul_diagonal, ← diagonal_smul, ← diagonal_one]
    congr 1; funext i
    have := (hw i).ne'
    simp only [Pi.smul_apply, smul_eq_mul]
    field_simp
  · refine ⟨_, ols_of_isUnit _ _ hu, ?_⟩
    have hGe : G = ((diagonal (fun i => Real.sqrt (w i)) * x)ᵀ * (diagonal (fun i => Real.sqrt (w i)) * x))⁻¹ := by
      rw [hxw] at hG
      set A := (diagonal (fun i => Real.sqrt (w i)) * x)ᵀ * (diagonal (fun i => Real.sqrt (w i)) * x)
      have hG' : A * G * A = A := hG
      calc G = A⁻¹ * (A * G * A) * A⁻¹ := by
            rw [Matrix.mul_assoc, Matrix.mul_assoc, Matrix.mul_assoc, mul_nonsing_inv _ hu, Matrix.mul_one, ← Matrix.mul_assoc,
              nonsing_inv_mul _ hu, Matrix.one_mul]
        _ = A⁻¹ := by rw [hG', nonsing_inv_mul _ hu, Matrix.one_mul]
    have hyw : (fun i => y i * Real.sqrt (w i)) = diagonal (fun i => Real.sqrt (w i)) *ᵥ y := by
      funext i; rw [mulVec_diagonal, mul_comm]
    simp only [wls, hxw, hyw, hGe]

/-- `C173` for `GM_Error`: if the estimate of `lambda` is the true one, the coefficients are best linear unbiased under errors
`v = lam W v + e`. -/
theorem C173_gmError {e : Ω → n → ℝ} {s : ℝ} (hs : 0 < s) (h : Errors P e fun _ => s) (W : Matrix n n ℝ) (lam : ℝ)
    (hW : IsUnit (1 - lam • W).det) (hv : ∀ ω i, v ω i = lam * ∑ j, W i j * v ω j + e ω i)
    (x : Matrix n k ℝ) (f : (n → ℝ) → GM.GMErrorFit n k) (hf : ∀ y, GM.gmError (fun _ => lam) W x y = some (f y)) (a : k → ℝ) :
    BestLinearUnbiased P x v a (fun y => a ⬝ᵥ (f y).betas) := by
  set F := 1 - lam • W with hF
  have hv' : ∀ ω, v ω = F⁻¹ *ᵥ e ω := by
    intro ω
    have : F *ᵥ v ω = e ω := by
      funext i
      rw [hF, sub_mulVec, one_mulVec, smul_mulVec]
      simp only [Pi.sub_apply, Pi.smul_apply, smul_eq_mul]
      have e1 := hv ω i
      show v ω i - lam * ∑ j, W i j * v ω j = e ω i
      linarith
    rw [← this, mulVec_mulVec, nonsing_inv_mul _ hW, one_mulVec]
  have hc : HasCov P v (F⁻¹ * diagonal (fun _ => s) * (F⁻¹)ᵀ) := by
    have := cov_linear (errors_cov h) F⁻¹
    simpa only [← hv'] using this
  refine aitken_ols hc x F (1 / s) (by positivity) ?_ _ (fun y => ?_) a
  · have e1 : F⁻¹ * diagonal (fun _ => s) * (F⁻¹)ᵀ = s • (F⁻¹ * (F⁻¹)ᵀ) := by
      rw [← smul_one_eq_diagonal, Matrix.mul_smul, Matrix.mul_one, Matrix.smul_mul]
    rw [e1, Matrix.smul_mul, Matrix.mul_smul, smul_smul, mul_one_div, div_self hs.ne', one_smul, Matrix.mul_assoc,
      ← Matrix.mul_assoc _ Fᵀ, ← transpose_mul, mul_nonsing_inv _ hW, transpose_one, Matrix.one_mul, nonsing_inv_mul _ hW]
  · have := hf y
    unfold GM.gmError at this
    rw [Option.bind_eq_some_iff] at this
    obtain ⟨o, -, h2⟩ := this
    rw [Option.map_eq_some_iff] at h2
    obtain ⟨o2, ho2, e2⟩ := h2
    refine ⟨o2, ?_, by rw [← e2]⟩
    have e3 : GM.spFilterM W lam x = F * x := by
      unfold GM.spFilterM; rw [hF, Matrix.sub_mul, Matrix.one_mul, Matrix.smul_mul]
    have e4 : GM.spFilter W lam y = F *ᵥ y := by
      unfold GM.spFilter; rw [hF, sub_mulVec, one_mulVec, smul_mulVec]
    rw [← e3, ← e4]; exact ho2

/-- Covariance of the sum of random effects and errors. -/
theorem effects_cov {mu : Ω → n → ℝ} {nu : Ω → τ × n → ℝ} {smu snu : ℝ} (h : RandomEffects P mu nu smu snu) :
    HasCov P (fun ω (p : τ × n) => mu ω p.2 + nu ω p) (PanelGLS.compCov τ n snu smu) where
  prob := h.effect.prob
  sq p := (h.effect.sq p.2).add (h.error.sq p)
  mean p := by
    have := h.effect.prob
    have := integral_add ((h.effect.sq p.2).integrable (by norm_num)) ((h.error.sq p).integrable (by norm_num))
    rw [h.effect.mean, h.error.mean, add_zero] at this
    exact this
  cov p q := by
    have i1 := (h.effect.sq p.2).integrable_mul (h.effect.sq q.2)
    have i2 := (h.effect.sq p.2).integrable_mul (h.error.sq q)
    have i3 := (h.effect.sq q.2).integrable_mul (h.error.sq p)
    have i4 := (h.error.sq p).integrable_mul (h.error.sq q)
    have e1 : ∀ ω, (mu ω p.2 + nu ω p) * (mu ω q.2 + nu ω q) =
        ((mu ω p.2 * mu ω q.2 + mu ω p.2 * nu ω q) + mu ω q.2 * nu ω p) + nu ω p * nu ω q := fun ω => by ring
    simp only [e1]
    refine (integral_add ((i1.add i2).add i3) i4).trans ?_
    rw [show ∫ ω, ((fun ω => mu ω p.2) * (fun ω => mu ω q.2) + (fun ω => mu ω p.2) * (fun ω => nu ω q) +
      (fun ω => mu ω q.2) * (fun ω => nu ω p)) ω ∂P = _ from (integral_add (i1.add i2) i3).trans
      (congrArg (· + _) (integral_add i1 i2))]
    simp only [Pi.mul_apply]
    rw [h.effect.cov, h.cross, h.cross, h.error.cov]
    simp only [PanelGLS.compCov, of_apply]
    ring

/-- `C173` for the last step of `GM_ErrorRE`: with the true `lambda`, variance of the errors and `sig_1 = sig_v + T sig_mu` it is best
linear unbiased for unit effects and errors that follow the spatial process `v = lam W v + mu + nu` in every period. -/
theorem C173_kkp [Nonempty τ] {mu : Ω → n → ℝ} {nu : Ω → τ × n → ℝ} {smu snu : ℝ} (hs : 0 < snu) (hm : 0 ≤ smu)
    (h : RandomEffects P mu nu smu snu) (W : Matrix n n ℝ) (lam : ℝ) (hW : IsUnit (1 - lam • panelW τ W).det) (v : Ω → τ × n → ℝ)
    (hv : ∀ ω t i, v ω (t, i) = lam * ∑ j, W i j * v ω (t, j) + (mu ω i + nu ω (t, i)))
    (x : Matrix (τ × n) k ℝ) (f : (τ × n → ℝ) → PanelGLS.KKPFit τ n k)
    (hf : ∀ y, PanelGLS.kkpGLS y x W lam snu (snu + Fintype.card τ * smu) = some (f y)) (a : k → ℝ) :
    BestLinearUnbiased P x v a (fun y => a ⬝ᵥ (f y).betas) := by
  set F := 1 - lam • panelW τ W with hF
  have hFv : ∀ v : τ × n → ℝ, ∀ t i, (F *ᵥ v) (t, i) = v (t, i) - lam * ∑ j, W i j * v (t, j) := by
    intro v t i
    rw [hF, sub_mulVec, one_mulVec, smul_mulVec]
    simp only [Pi.sub_apply, Pi.smul_apply, smul_eq_mul]
    congr 2
    simp [panelW, mulVec, dotProduct, Fintype.sum_prod_type]
  have hv' : ∀ ω, v ω = F⁻¹ *ᵥ (fun p : τ × n => mu ω p.2 + nu ω p) := by
    intro ω
    have : F *ᵥ v ω = fun p : τ × n => mu ω p.2 + nu ω p := by
      funext ⟨t, i⟩
      rw [hFv, hv ω t i]; ring
    rw [← this, mulVec_mulVec, nonsing_inv_mul _ hW, one_mulVec]
  have hc : HasCov P v (F⁻¹ * PanelGLS.compCov τ n snu smu * (F⁻¹)ᵀ) := by
    have := cov_linear (effects_cov h) F⁻¹
    simpa only [← hv'] using this
  have hT : (0 : ℝ) < Fintype.card τ := by exact_mod_cast Fintype.card_pos
  set s1 := snu + Fintype.card τ * smu with hs1
  have h1 : 0 < s1 := by have := mul_nonneg hT.le hm; linarith
  set phi := Real.sqrt snu / Real.sqrt s1 with hphi
  have hphi2 : phi ^ 2 * (snu + Fintype.card τ * smu) = snu := by
    rw [← hs1, hphi, div_pow, Real.sq_sqrt hs.le, Real.sq_sqrt h1.le, div_mul_cancel₀ _ h1.ne']
  have hinv := PanelGLS.compCov_inv (τ := τ) (n := n) snu smu phi hs.ne' hphi2
  set Q := PanelML.quasi τ n phi with hQ
  have hQ' : (1 - (1 - phi) • PanelGLS.kkpQ1 τ n : Matrix (τ × n) (τ × n) ℝ) = Q := by
    rw [PanelGLS.kkpQ1_mix, hQ, PanelML.quasi_eq, ← PanelML.mix_one, PanelML.mix_smul, PanelML.mix_sub]
    congr 1
    · rw [sub_smul, one_smul]; simp
    · simp
  have hcu : IsUnit (PanelGLS.compCov τ n snu smu).det := by
    have := congrArg det (PanelGLS.compCov_left (τ := τ) (n := n) snu smu phi hs.ne' hphi2)
    rw [det_mul, det_one] at this
    exact IsUnit.of_mul_eq_one_right _ this
  refine aitken_ols hc x (Q * F) (1 / snu) (by positivity) ?_ _ (fun y => ?_) a
  · have e1 : (1 / snu) • ((Q * F)ᵀ * (Q * F)) = Fᵀ * (PanelGLS.compCov τ n snu smu)⁻¹ * F := by
      rw [hinv, Matrix.mul_smul, Matrix.smul_mul, transpose_mul]
      simp only [Matrix.mul_assoc]
    rw [e1]
    calc F⁻¹ * PanelGLS.compCov τ n snu smu * F⁻¹ᵀ * (Fᵀ * (PanelGLS.compCov τ n snu smu)⁻¹ * F)
        = F⁻¹ * (PanelGLS.compCov τ n snu smu * ((F⁻¹ᵀ * Fᵀ) * (PanelGLS.compCov τ n snu smu)⁻¹)) * F := by simp only [Matrix.mul_assoc]
      _ = 1 := by
        rw [← transpose_mul, mul_nonsing_inv _ hW, transpose_one, Matrix.one_mul, mul_nonsing_inv _ hcu, Matrix.mul_one,
          nonsing_inv_mul _ hW]
  · have hk := hf y
    unfold PanelGLS.kkpGLS at hk
    simp only [Option.map_eq_some_iff] at hk
    obtain ⟨o, ho, e2⟩ := hk
    refine ⟨o, ?_, by rw [← e2]⟩
    have hfx : PanelGLS.panelFilterM W lam x = F * x := by
      unfold PanelGLS.panelFilterM
      rw [PanelML.bigW_spec, hF, Matrix.sub_mul, Matrix.one_mul, Matrix.smul_mul]
    have hfv : PanelGLS.panelFilter W lam y = F *ᵥ y := by
      unfold PanelGLS.panelFilter
      rw [PanelML.bigW_spec, hF, sub_mulVec, one_mulVec, smul_mulVec]
    rw [← hphi, hQ', hfx, hfv, ← Matrix.mul_assoc, mulVec_mulVec] at ho
    exact ho

/-- `C173` for the estimator of `SUR`: if the residuals that enter have a covariance matrix proportional to that of the errors of the
equations, the coefficients of all equations are best linear unbiased. -/
theorem C173_sur {R : Type} [Fintype R] [DecidableEq R] {K : R → Type} [∀ r, Fintype (K r)] [∀ r, DecidableEq (K r)]
    {Sig : Matrix R R ℝ} (v : Ω → R × n → ℝ) (h : HasCov P v (Matrix.of fun p q => if p.2 = q.2 then Sig p.1 q.1 else 0))
    (X : ∀ r, Matrix n (K r) ℝ) (E : Matrix n R ℝ) (c : ℝ) (hE : SUR.sigOf E = c • Sig) (hc : c ≠ 0)
    (f : (R × n → ℝ) → SUR.Est R K)
    (hf : ∀ y, SUR.surEst (SUR.crossXX X) (SUR.crossXy X fun r i => y (r, i)) E = some (f y)) (a : (Σ r, K r) → ℝ) :
    BestLinearUnbiased P (SUR.bigZ X) v a (fun y => a ⬝ᵥ fun p => (f y).b p.1 p.2) := by
  have h0 := SUR.surEst_some X _ E (f 0) (hf 0)
  have hsig : ∀ y, (f y).sig = c • Sig := fun y => (SUR.surEst_some X _ E (f y) (hf y)).1.trans hE
  have hV : (Matrix.of fun p q : R × n => if p.2 = q.2 then Sig p.1 q.1 else 0) = SUR.omega n Sig := by
    ext p q
    simp [SUR.omega, kroneckerMap_apply, Matrix.one_apply]
  rw [hV] at h
  refine aitken h (SUR.bigZ X) (SUR.omega n (c • Sig)⁻¹) c hc ?_ (by have := h0.2.2.1; rwa [hsig] at this) _ (fun y => ?_) a
  · have hu : IsUnit (SUR.omega n (c • Sig)).det := by
      have := h0.2.1
      rw [hsig] at this
      rw [SUR.omega, det_kronecker]
      simpa using (this.pow _)
    have e1 : c • SUR.omega n Sig = SUR.omega n (c • Sig) := by
      unfold SUR.omega; rw [smul_kronecker]
    rw [Matrix.mul_smul, ← Matrix.smul_mul, e1, ← SUR.omega_inv, mul_nonsing_inv _ hu]
  · have := (SUR.C41_gls X _ E (f y) (hf y)).1
    rw [hsig, SUR.omega_inv] at this
    exact this

/-- A case for `C173_ols` and `C173_gmError`: normal errors of three regions, each the neighbour of the next, with `lambda = 1/2`. -/
theorem C173_example : ∃ (P : Measure (Fin 3 → ℝ)) (v : (Fin 3 → ℝ) → Fin 3 → ℝ), Errors P (fun u => u) (fun _ => 1) ∧
    IsUnit (1 - (1 / 2 : ℝ) • DGPRandom.ring3).det ∧
    (∀ u i, v u i = 1 / 2 * ∑ j, DGPRandom.ring3 i j * v u j + u i) ∧
    (∃ f : (Fin 3 → ℝ) → OLSFit (Fin 3) Unit, ∀ y, ols DGPRandom.ones3 y = some (f y)) ∧
    ∃ f : (Fin 3 → ℝ) → GM.GMErrorFit (Fin 3) Unit, ∀ y, GM.gmError (fun _ => 1 / 2) DGPRandom.ring3 DGPRandom.ones3 y = some (f y) := by
  obtain ⟨P, -, hS⟩ := (DGPRandom.C165_error 3 0 1 "normal" (.inl rfl)).1 (by norm_num)
  have hd : (1 - (1 / 2 : ℝ) • DGPRandom.ring3).det = 7 / 8 := by
    rw [det_fin_three]
    simp [DGPRandom.ring3]
    norm_num
  have hx : IsUnit (DGPRandom.ones3ᵀ * DGPRandom.ones3).det := by
    rw [det_unique]
    simp [DGPRandom.ones3, mul_apply]
  have hu : IsUnit (1 - (1 / 2 : ℝ) • DGPRandom.ring3).det := by rw [hd]; norm_num
  refine ⟨P, fun u => (1 - (1 / 2 : ℝ) • DGPRandom.ring3)⁻¹ *ᵥ u, Sampling.sample_errors hS, hu, fun u i => ?_,
    ⟨fun y => _, fun y => ols_of_isUnit _ y hx⟩, ?_⟩
  · set z := (1 - (1 / 2 : ℝ) • DGPRandom.ring3)⁻¹ *ᵥ u with hz
    have : (1 - (1 / 2 : ℝ) • DGPRandom.ring3) *ᵥ z = u := by rw [hz, mulVec_mulVec, mul_nonsing_inv _ hu, one_mulVec]
    have e := congrFun this i
    rw [sub_mulVec, one_mulVec, smul_mulVec] at e
    simp only [Pi.sub_apply, Pi.smul_apply, smul_eq_mul] at e
    have e2 : (DGPRandom.ring3 *ᵥ z) i = ∑ j, DGPRandom.ring3 i j * z j := rfl
    rw [e2] at e
    linarith
  · have hxs : IsUnit ((GM.spFilterM DGPRandom.ring3 (1 / 2) DGPRandom.ones3)ᵀ * GM.spFilterM DGPRandom.ring3 (1 / 2) DGPRandom.ones3).det := by
      have e : GM.spFilterM DGPRandom.ring3 (1 / 2) DGPRandom.ones3 = (1 - (1 / 2 : ℝ) • DGPRandom.ring3) * DGPRandom.ones3 := by
        unfold GM.spFilterM; rw [Matrix.sub_mul, Matrix.one_mul, Matrix.smul_mul]
      rw [e, xtx_isUnit_iff]
      intro b hb
      rw [← mulVec_mulVec] at hb
      have := congrArg ((1 - (1 / 2 : ℝ) • DGPRandom.ring3)⁻¹ *ᵥ ·) hb
      simp only [mulVec_zero, mulVec_mulVec _ (1 - (1 / 2 : ℝ) • DGPRandom.ring3)⁻¹] at this
      rw [nonsing_inv_mul _ hu, one_mulVec] at this
      exact (xtx_isUnit_iff _).1 hx b this
    have hall : ∀ y, ∃ g, GM.gmError (fun _ => 1 / 2) DGPRandom.ring3 DGPRandom.ones3 y = some g := by
      intro y
      unfold GM.gmError
      rw [ols_of_isUnit _ y hx, Option.bind_some]
      simp only
      rw [ols_of_isUnit _ _ hxs, Option.map_some]
      exact ⟨_, rfl⟩
    choose f hf using hall
    exact ⟨f, hf⟩

end Spreg.Blue
