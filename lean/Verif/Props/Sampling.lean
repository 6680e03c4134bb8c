import Verif.Spec.Errors
import Verif.Props.Density
import Verif.Props.OLS
/-
Sampling properties of least squares on generated data (C167).
-/
set_option linter.unusedSectionVars false
namespace Spreg.Sampling
open Matrix MeasureTheory ProbabilityTheory Spreg Spreg.Lin

variable {Ω n k l : Type} [MeasurableSpace Ω] [Fintype n] [Fintype k] [Fintype l] [DecidableEq n] [DecidableEq k] [DecidableEq l]
  {P : Measure Ω} {e : Ω → n → ℝ} {s2 : n → ℝ}

theorem lin_sq (h : Errors P e s2) (A : Matrix l n ℝ) (a : l) : MemLp (fun ω => (A *ᵥ e ω) a) 2 P := by
  simp only [mulVec, dotProduct]
  exact memLp_finsetSum _ fun i _ => (h.sq i).const_mul (A a i)

theorem lin_mean (h : Errors P e s2) (A : Matrix l n ℝ) (a : l) : ∫ ω, (A *ᵥ e ω) a ∂P = 0 := by
  have := h.prob
  simp only [mulVec, dotProduct]
  rw [integral_finsetSum _ fun i _ => ((h.sq i).integrable (by norm_num)).const_mul (A a i)]
  simp only [integral_const_mul, h.mean, mul_zero, Finset.sum_const_zero]

theorem int_mul (h : Errors P e s2) (i j : n) : Integrable (fun ω => e ω i * e ω j) P :=
  (h.sq i).integrable_mul (h.sq j)

/-- Expectation of a bilinear form. -/
theorem bilin_mean (h : Errors P e s2) (M : Matrix n n ℝ) : Integrable (fun ω => e ω ⬝ᵥ (M *ᵥ e ω)) P ∧
    ∫ ω, e ω ⬝ᵥ (M *ᵥ e ω) ∂P = ∑ i, s2 i * M i i := by
  have e1 : ∀ ω, e ω ⬝ᵥ (M *ᵥ e ω) = ∑ i, ∑ j, M i j * (e ω i * e ω j) := by
    intro ω
    simp only [dotProduct, mulVec, Finset.mul_sum]
    exact Finset.sum_congr rfl fun i _ => Finset.sum_congr rfl fun j _ => by ring
  have hi : ∀ i j, Integrable (fun ω => M i j * (e ω i * e ω j)) P := fun i j => (int_mul h i j).const_mul _
  simp only [e1]
  refine ⟨integrable_finsetSum _ fun i _ => integrable_finsetSum _ fun j _ => hi i j, ?_⟩
  rw [integral_finsetSum _ fun i _ => integrable_finsetSum _ fun j _ => hi i j]
  refine Finset.sum_congr rfl fun i _ => ?_
  rw [integral_finsetSum _ fun j _ => hi i j]
  simp only [integral_const_mul, h.cov]
  simp [mul_comm]

theorem lin_cov (h : Errors P e s2) (A : Matrix k n ℝ) (B : Matrix l n ℝ) (a : k) (b : l) :
    Integrable (fun ω => (A *ᵥ e ω) a * (B *ᵥ e ω) b) P ∧
    ∫ ω, (A *ᵥ e ω) a * (B *ᵥ e ω) b ∂P = (A * diagonal s2 * Bᵀ) a b := by
  have := bilin_mean h (Matrix.of fun i j => A a i * B b j)
  have e1 : ∀ ω, e ω ⬝ᵥ ((Matrix.of fun i j => A a i * B b j) *ᵥ e ω) = (A *ᵥ e ω) a * (B *ᵥ e ω) b := by
    intro ω
    simp only [dotProduct, mulVec, of_apply]
    rw [Finset.sum_mul_sum]
    simp only [Finset.mul_sum]
    exact Finset.sum_congr rfl fun i _ => Finset.sum_congr rfl fun j _ => by ring
  simp only [e1, of_apply] at this
  refine ⟨this.1, this.2.trans ?_⟩
  rw [mul_apply]
  simp only [mul_diagonal, transpose_apply]
  exact Finset.sum_congr rfl fun i _ => by ring

/-- Least squares on `y = x beta + e`. -/
theorem ols_linear (x : Matrix n k ℝ) (beta : k → ℝ) (v : n → ℝ) (f : OLSFit n k) (hf : ols x (x *ᵥ beta + v) = some f) :
    f.xtxi = (xᵀ * x)⁻¹ ∧ f.betas = beta + ((xᵀ * x)⁻¹ * xᵀ) *ᵥ v ∧ f.u = (1 - x * (xᵀ * x)⁻¹ * xᵀ) *ᵥ v := by
  obtain ⟨hu, rfl⟩ := ols_eq_some hf
  have hb : (olsWith x (x *ᵥ beta + v) (xᵀ * x)⁻¹).betas = beta + ((xᵀ * x)⁻¹ * xᵀ) *ᵥ v := by
    simp only [olsWith, mulVec_add, mulVec_mulVec]
    rw [nonsing_inv_mul _ hu, one_mulVec]
  refine ⟨rfl, hb, ?_⟩
  show x *ᵥ beta + v - x *ᵥ (olsWith x (x *ᵥ beta + v) (xᵀ * x)⁻¹).betas = _
  rw [hb, mulVec_add, mulVec_mulVec, sub_mulVec, one_mulVec, Matrix.mul_assoc]
  abel

/-- The residual maker is a symmetric projection with trace `n - k`. -/
theorem annihilator (x : Matrix n k ℝ) (hu : IsUnit (xᵀ * x).det) :
    let M := 1 - x * (xᵀ * x)⁻¹ * xᵀ
    Mᵀ * M = M ∧ M.trace = (Fintype.card n : ℝ) - Fintype.card k := by
  intro M
  have hs : Mᵀ = M := by
    simp only [M, transpose_sub, transpose_one, transpose_mul, transpose_transpose, transpose_nonsing_inv, Matrix.mul_assoc]
  have hH : x * (xᵀ * x)⁻¹ * xᵀ * (x * (xᵀ * x)⁻¹ * xᵀ) = x * (xᵀ * x)⁻¹ * xᵀ := by
    calc _ = x * (xᵀ * x)⁻¹ * ((xᵀ * x) * (xᵀ * x)⁻¹) * xᵀ := by simp only [Matrix.mul_assoc]
      _ = _ := by rw [mul_nonsing_inv _ hu, Matrix.mul_one]
  refine ⟨?_, ?_⟩
  · rw [hs]
    simp only [M]
    rw [Matrix.sub_mul, Matrix.mul_sub, Matrix.mul_sub, hH, Matrix.one_mul, Matrix.mul_one, Matrix.one_mul]
    simp
  · simp only [M]
    rw [trace_sub, trace_one, Matrix.mul_assoc, trace_mul_comm, Matrix.mul_assoc, nonsing_inv_mul _ hu, trace_one]

/-- What a user expects of the estimates of a linear regression. -/
structure Unbiased (P : Measure Ω) (beta : k → ℝ) (s2 : ℝ) (f : Ω → OLSFit n k) : Prop where
  /-- the coefficients are right on average -/
  betas : ∀ j, ∫ ω, (f ω).betas j ∂P = beta j
  /-- so is the variance of the errors -/
  sig2 : ∫ ω, sig2nk (f ω).u (Fintype.card k) ∂P = s2
  /-- and so is the variance matrix: its mean is the covariance matrix of the coefficients -/
  vm : ∀ i j, ∫ ω, vmClassic (sig2nk (f ω).u (Fintype.card k)) (f ω).xtxi i j ∂P =
    ∫ ω, ((f ω).betas i - beta i) * ((f ω).betas j - beta j) ∂P

/-- **C167.** OLS with `sig2n_k`: coefficients, variance of the errors and variance matrix are unbiased. -/
theorem C167_ols {s : ℝ} (h : Errors P e fun _ => s) (x : Matrix n k ℝ) (hk : Fintype.card k < Fintype.card n) (beta : k → ℝ)
    (f : Ω → OLSFit n k) (hf : ∀ ω, ols x (x *ᵥ beta + e ω) = some (f ω)) : Unbiased P beta s f := by
  have := h.prob
  have hu : IsUnit (xᵀ * x).det := by
    obtain ⟨ω⟩ := nonempty_of_isProbabilityMeasure P
    exact (ols_eq_some (hf ω)).1
  have hl := fun ω => ols_linear x beta (e ω) (f ω) (hf ω)
  obtain ⟨hM, hT⟩ := annihilator x hu
  have hd : (Fintype.card n : ℝ) - Fintype.card k ≠ 0 := by
    have : (Fintype.card k : ℝ) < Fintype.card n := by exact_mod_cast hk
    linarith
  have hsig : ∫ ω, sig2nk (f ω).u (Fintype.card k) ∂P = s := by
    have e1 : ∀ ω, sig2nk (f ω).u (Fintype.card k) = e ω ⬝ᵥ ((1 - x * (xᵀ * x)⁻¹ * xᵀ) *ᵥ e ω) / ((Fintype.card n : ℝ) - Fintype.card k) := by
      intro ω
      rw [sig2nk, utu_eq_dot, (hl ω).2.2, dotProduct_mulVec, ← mulVec_transpose, mulVec_mulVec, hM, dotProduct_comm]
    simp only [e1]
    rw [integral_div, (bilin_mean h _).2, ← Finset.mul_sum]
    have : ∑ i, (1 - x * (xᵀ * x)⁻¹ * xᵀ : Matrix n n ℝ) i i = (Fintype.card n : ℝ) - Fintype.card k := hT
    rw [this, mul_div_assoc, div_self hd, mul_one]
  refine ⟨fun j => ?_, hsig, fun i j => ?_⟩
  · simp only [(hl _).2.1, Pi.add_apply]
    rw [integral_add (integrable_const _) ((lin_sq h _ j).integrable (by norm_num)), lin_mean h]
    simp
  · simp only [(hl _).2.1, Pi.add_apply, add_sub_cancel_left, (hl _).1]
    rw [(lin_cov h _ _ i j).2]
    simp only [vmClassic, Matrix.smul_apply, smul_eq_mul]
    rw [integral_mul_const, hsig, transpose_mul, transpose_transpose, transpose_nonsing_inv, transpose_mul, transpose_transpose]
    have e2 : diagonal (fun _ : n => s) = s • (1 : Matrix n n ℝ) := by
      rw [smul_one_eq_diagonal]
    rw [e2, Matrix.mul_smul, Matrix.smul_mul, Matrix.mul_one, Matrix.mul_assoc, ← Matrix.mul_assoc xᵀ x, mul_nonsing_inv _ hu, Matrix.mul_one]
    rfl

/-- **C167.** With `sig2n_k=False` the variance of the errors is too small on average, by the factor `(n - k) / n`. -/
theorem C167_sig2n {s : ℝ} (h : Errors P e fun _ => s) (x : Matrix n k ℝ) (hk : Fintype.card k < Fintype.card n) (beta : k → ℝ)
    (f : Ω → OLSFit n k) (hf : ∀ ω, ols x (x *ᵥ beta + e ω) = some (f ω)) :
    ∫ ω, sig2n (f ω).u ∂P = s * (((Fintype.card n : ℝ) - Fintype.card k) / Fintype.card n) := by
  have := (C167_ols h x hk beta f hf).sig2
  have hk' : (Fintype.card k : ℝ) < Fintype.card n := by exact_mod_cast hk
  have hd : (Fintype.card n : ℝ) - Fintype.card k ≠ 0 := by linarith
  rw [← this, ← integral_mul_const]
  refine integral_congr_ae (.of_forall fun ω => ?_)
  show Lin.utu (f ω).u / _ = Lin.utu (f ω).u / _ * _
  field_simp

/-- A generated sample of errors with mean zero. -/
theorem sample_errors {m : ℕ} {P : Measure (Fin m → ℝ)} {v : ℝ} (h : DGPRandom.Sample P (fun _ => 0) (fun _ => v)) :
    Errors P (fun u => u) fun _ => v where
  prob := h.prob
  sq := h.sq
  mean := h.mean
  cov i j := by
    have := h.prob
    have c := h.cov i j
    rw [covariance_eq_sub (h.sq i) (h.sq j)] at c
    rw [← c, h.mean i, h.mean j, mul_zero, sub_zero]
    rfl

/-- **C167.** Data made by `make_error` and `dgp_ols`: the estimates of `OLS` are right on average. -/
theorem C167_generated {m : ℕ} (x : Matrix (Fin m) k ℝ) (hx : IsUnit (xᵀ * x).det) (hk : Fintype.card k < m) (beta : k → ℝ) (varu : ℝ)
    (hv : 0 ≤ varu) (method : String) (hm : method = "normal" ∨ method = "laplace") :
    ∃ (P : Measure (Fin m → ℝ)) (y : (Fin m → ℝ) → Fin m → ℝ) (f : (Fin m → ℝ) → OLSFit (Fin m) k),
      DGPRandom.makeError m 0 varu method = .ok (some P) ∧ (∀ u, DGP.dgpOls u ⟨m, x *ᵥ beta⟩ = .ok (some (y u))) ∧
      (∀ u, ols x (y u) = some (f u)) ∧ Unbiased P beta varu f := by
  obtain ⟨P, hP, hS⟩ := (DGPRandom.C165_error m 0 varu method hm).1 hv
  refine ⟨P, fun u => u + x *ᵥ beta, fun u => olsWith x (u + x *ᵥ beta) (xᵀ * x)⁻¹, hP, fun u => ?_, fun u => ols_of_isUnit x _ hx, ?_⟩
  · simp only [DGP.dgpOls, dite_true, DGP.vadd_rfl]
  · refine C167_ols (sample_errors hS) x (by rwa [Fintype.card_fin]) beta _ fun u => ?_
    rw [add_comm (x *ᵥ beta) u]
    exact ols_of_isUnit x _ hx

end Spreg.Sampling
