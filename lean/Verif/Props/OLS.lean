import Verif.Model.Linear
import Mathlib.LinearAlgebra.Matrix.ToLinearEquiv
import Mathlib.LinearAlgebra.Matrix.PosDef
import Mathlib.Tactic.Linarith
import Mathlib.Tactic.Ring
import Mathlib.Tactic.NormNum
/-
Properties C06-C09, C12 and C56: ordinary and weighted least squares, robust variances.
-/
namespace Spreg.Lin
open Matrix

variable {n k l m : Type} [Fintype n] [Fintype k] [Fintype l] [Fintype m]

/-! ### helpers -/

theorem inv?_eq_some [DecidableEq k] {A B : Matrix k k ℝ} (h : inv? A = some B) :
    IsUnit A.det ∧ B = A⁻¹ ∧ A * B = 1 ∧ B * A = 1 := by
  unfold inv? at h
  split at h
  · next hu =>
    simp only [Option.some.injEq] at h
    refine ⟨hu, h.symm, ?_, ?_⟩
    · rw [← h]; exact mul_nonsing_inv A hu
    · rw [← h]; exact nonsing_inv_mul A hu
  · cases h

theorem inv?_of_isUnit [DecidableEq k] {A : Matrix k k ℝ} (h : IsUnit A.det) : inv? A = some A⁻¹ := by
  unfold inv?; rw [if_pos h]

theorem ols_eq_some [DecidableEq k] {x : Matrix n k ℝ} {y : n → ℝ} {f : OLSFit n k}
    (h : ols x y = some f) :
    IsUnit (xᵀ * x).det ∧ f = olsWith x y (xᵀ * x)⁻¹ := by
  unfold ols at h
  rw [Option.map_eq_some_iff] at h
  obtain ⟨B, hB, rfl⟩ := h
  obtain ⟨hu, hB', -⟩ := inv?_eq_some hB
  refine ⟨hu, ?_⟩
  rw [hB']

theorem ols_of_isUnit [DecidableEq k] (x : Matrix n k ℝ) (y : n → ℝ) (h : IsUnit (xᵀ * x).det) :
    ols x y = some (olsWith x y (xᵀ * x)⁻¹) := by
  unfold ols
  rw [Option.map_eq_some_iff]
  exact ⟨(xᵀ * x)⁻¹, inv?_of_isUnit h, rfl⟩

theorem normal_eq [DecidableEq k] (x : Matrix n k ℝ) (y : n → ℝ) (h : IsUnit (xᵀ * x).det) :
    xᵀ *ᵥ (olsWith x y (xᵀ * x)⁻¹).u = 0 := by
  simp only [olsWith, mulVec_sub, mulVec_mulVec]
  rw [← Matrix.mul_assoc, ← Matrix.mul_assoc, mul_nonsing_inv _ h, Matrix.one_mul, sub_self]

theorem utu_eq_dot (u : n → ℝ) : utu u = u ⬝ᵥ u := by
  simp [utu, dotProduct, pow_two]

theorem utu_nonneg (u : n → ℝ) : 0 ≤ utu u := Finset.sum_nonneg fun _ _ => sq_nonneg _

theorem utu_eq_zero (u : n → ℝ) : utu u = 0 ↔ u = 0 := by
  rw [utu_eq_dot, dotProduct_self_eq_zero]

theorem xtx_mulVec_eq_zero (x : Matrix n k ℝ) (v : k → ℝ) : (xᵀ * x) *ᵥ v = 0 ↔ x *ᵥ v = 0 := by
  constructor
  · intro h
    have : v ⬝ᵥ ((xᵀ * x) *ᵥ v) = (x *ᵥ v) ⬝ᵥ (x *ᵥ v) := by
      rw [← mulVec_mulVec, dotProduct_mulVec, vecMul_transpose]
    rw [h, dotProduct_zero] at this
    exact dotProduct_self_eq_zero.mp this.symm
  · intro h; rw [← mulVec_mulVec, h, mulVec_zero]

/-- `x'x` is nonsingular exactly when the columns of `x` are linearly independent. -/
theorem xtx_isUnit_iff [DecidableEq k] (x : Matrix n k ℝ) :
    IsUnit (xᵀ * x).det ↔ ∀ v : k → ℝ, x *ᵥ v = 0 → v = 0 := by
  rw [isUnit_iff_ne_zero, ne_eq, ← exists_mulVec_eq_zero_iff]
  push Not
  constructor
  · intro h v hv
    by_contra hne
    exact h v hne ((xtx_mulVec_eq_zero x v).2 hv)
  · intro h v hne hv
    exact hne (h v ((xtx_mulVec_eq_zero x v).1 hv))

/-! ### C06 -/

/-- C06: whenever OLS returns, `y = predy + u`, `predy = x betas` and `u` is orthogonal to every
column of `x`. -/
theorem C06_decomposition [DecidableEq k] (x : Matrix n k ℝ) (y : n → ℝ) (f : OLSFit n k)
    (h : ols x y = some f) :
    (∀ i, y i = f.predy i + f.u i) ∧ (∀ i, f.predy i = ∑ j, x i j * f.betas j) ∧
      (∀ j, ∑ i, x i j * f.u i = 0) := by
  obtain ⟨hu, rfl⟩ := ols_eq_some h
  refine ⟨fun i => by simp [olsWith], fun i => rfl, fun j => ?_⟩
  have := congrFun (normal_eq x y hu) j
  simpa [mulVec, dotProduct] using this

/-- C06: OLS raises exactly when the columns of `x` are linearly dependent. -/
theorem C06_raises_iff [DecidableEq k] (x : Matrix n k ℝ) (y : n → ℝ) :
    ols x y = none ↔ ∃ v : k → ℝ, v ≠ 0 ∧ ∀ i, ∑ j, x i j * v j = 0 := by
  have key : (∃ v : k → ℝ, v ≠ 0 ∧ ∀ i, ∑ j, x i j * v j = 0) ↔ ¬ IsUnit (xᵀ * x).det := by
    rw [xtx_isUnit_iff]
    push Not
    constructor
    · rintro ⟨v, hv, h⟩; exact ⟨v, by funext i; simpa [mulVec, dotProduct] using h i, hv⟩
    · rintro ⟨v, h, hv⟩
      exact ⟨v, hv, fun i => by simpa [mulVec, dotProduct] using congrFun h i⟩
  rw [key]
  constructor
  · intro h hu; rw [ols_of_isUnit x y hu] at h; cases h
  · intro hu
    cases hf : ols x y with
    | none => rfl
    | some f => exact absurd (ols_eq_some hf).1 hu

/-- C06: if there is a constant column (as the user classes always add), residuals sum to zero. -/
theorem C06_residuals_sum [DecidableEq k] (x : Matrix n k ℝ) (y : n → ℝ) (f : OLSFit n k)
    (h : ols x y = some f) (c : k) (hc : ∀ i, x i c = 1) : ∑ i, f.u i = 0 := by
  have := (C06_decomposition x y f h).2.2 c
  simpa [hc] using this

/-! ### C07 -/

theorem ssr_decomp [DecidableEq k] (x : Matrix n k ℝ) (y : n → ℝ) (hu : IsUnit (xᵀ * x).det)
    (c : k → ℝ) :
    utu (y - x *ᵥ c) = utu (olsWith x y (xᵀ * x)⁻¹).u
      + utu (x *ᵥ ((olsWith x y (xᵀ * x)⁻¹).betas - c)) := by
  set f := olsWith x y (xᵀ * x)⁻¹ with hf
  have h1 : y - x *ᵥ c = f.u + x *ᵥ (f.betas - c) := by
    have : f.u = y - x *ᵥ f.betas := rfl
    rw [this, mulVec_sub]; abel
  have h2 : f.u ⬝ᵥ (x *ᵥ (f.betas - c)) = 0 := by
    rw [dotProduct_mulVec, ← mulVec_transpose, normal_eq x y hu, zero_dotProduct]
  rw [h1, utu_eq_dot, utu_eq_dot, utu_eq_dot, add_dotProduct, dotProduct_add, dotProduct_add, h2,
    dotProduct_comm (x *ᵥ (f.betas - c)) f.u, h2]
  ring

/-- C07: the OLS coefficients minimise the sum of squared residuals, and are the only minimiser. -/
theorem C07_minimises [DecidableEq k] (x : Matrix n k ℝ) (y : n → ℝ) (f : OLSFit n k)
    (h : ols x y = some f) (c : k → ℝ) :
    ∑ i, f.u i ^ 2 ≤ ∑ i, (y i - ∑ j, x i j * c j) ^ 2 ∧
      (∑ i, (y i - ∑ j, x i j * c j) ^ 2 = ∑ i, f.u i ^ 2 → c = f.betas) := by
  obtain ⟨hu, rfl⟩ := ols_eq_some h
  have hd := ssr_decomp x y hu c
  have e : ∑ i, (y i - ∑ j, x i j * c j) ^ 2 = utu (y - x *ᵥ c) := by
    simp [utu, mulVec, dotProduct]
  rw [e, hd]
  constructor
  · have := utu_nonneg (x *ᵥ ((olsWith x y (xᵀ * x)⁻¹).betas - c))
    unfold utu at *
    linarith
  · intro heq
    have hz : utu (x *ᵥ ((olsWith x y (xᵀ * x)⁻¹).betas - c)) = 0 := by
      unfold utu at *; linarith
    rw [utu_eq_zero] at hz
    have := (xtx_isUnit_iff x).1 hu _ hz
    exact (sub_eq_zero.mp this).symm

/-! ### C08 -/

/-- C08: reordering the observations leaves the coefficients unchanged and reorders residuals. -/
theorem C08_permute [DecidableEq k] (x : Matrix n k ℝ) (y : n → ℝ) (σ : n ≃ m) (f : OLSFit n k)
    (h : ols x y = some f) :
    ∃ g : OLSFit m k, ols (x.submatrix σ.symm id) (y ∘ σ.symm) = some g ∧
      g.betas = f.betas ∧ g.xtxi = f.xtxi ∧ (∀ i, g.u (σ i) = f.u i) ∧
      (∀ i, g.predy (σ i) = f.predy i) ∧ utu g.u = utu f.u := by
  obtain ⟨hu, rfl⟩ := ols_eq_some h
  have hx : (x.submatrix σ.symm id)ᵀ * x.submatrix σ.symm id = xᵀ * x := by
    ext i j
    simp only [mul_apply, transpose_apply, submatrix_apply, id]
    exact Equiv.sum_comp σ.symm (fun a => x a i * x a j)
  have hy : (x.submatrix σ.symm id)ᵀ *ᵥ (y ∘ σ.symm) = xᵀ *ᵥ y := by
    ext i
    simp only [mulVec, dotProduct, transpose_apply, submatrix_apply, id, Function.comp]
    exact Equiv.sum_comp σ.symm (fun a => x a i * y a)
  have hb : (olsWith (x.submatrix σ.symm id) (y ∘ σ.symm) (xᵀ * x)⁻¹).betas
      = (olsWith x y (xᵀ * x)⁻¹).betas := by
    simp only [olsWith, hy]
  have hp : ∀ i, (olsWith (x.submatrix σ.symm id) (y ∘ σ.symm) (xᵀ * x)⁻¹).predy (σ i)
      = (olsWith x y (xᵀ * x)⁻¹).predy i := by
    intro i
    simp only [olsWith, hy]
    simp [mulVec, dotProduct]
  have hu' : ∀ i, (olsWith (x.submatrix σ.symm id) (y ∘ σ.symm) (xᵀ * x)⁻¹).u (σ i)
      = (olsWith x y (xᵀ * x)⁻¹).u i := by
    intro i
    have h1 := hp i
    simp only [olsWith] at h1 ⊢
    simp only [Pi.sub_apply, Function.comp, Equiv.symm_apply_apply, h1]
  refine ⟨olsWith (x.submatrix σ.symm id) (y ∘ σ.symm) (xᵀ * x)⁻¹, ?_, hb, rfl, hu', hp, ?_⟩
  · rw [ols_of_isUnit _ _ (by rw [hx]; exact hu), hx]
  · unfold utu
    rw [← Equiv.sum_comp σ]
    exact Finset.sum_congr rfl fun i _ => by rw [hu' i]

/-- C08: replacing `y` by `c*y + x*d` maps the coefficients to `c*betas + d` and residuals to `c*u`. -/
theorem C08_affine [DecidableEq k] (x : Matrix n k ℝ) (y : n → ℝ) (c : ℝ) (d : k → ℝ) (f : OLSFit n k)
    (h : ols x y = some f) :
    ∃ g, ols x (c • y + x *ᵥ d) = some g ∧ g.betas = c • f.betas + d ∧ g.u = c • f.u := by
  obtain ⟨hu, rfl⟩ := ols_eq_some h
  have hb : (olsWith x (c • y + x *ᵥ d) (xᵀ * x)⁻¹).betas
      = c • (olsWith x y (xᵀ * x)⁻¹).betas + d := by
    simp only [olsWith, mulVec_add, mulVec_smul, mulVec_mulVec]
    rw [← Matrix.mul_assoc (xᵀ * x)⁻¹ xᵀ x, Matrix.mul_assoc (xᵀ * x)⁻¹ xᵀ x, nonsing_inv_mul _ hu,
      one_mulVec]
  refine ⟨_, ols_of_isUnit _ _ hu, hb, ?_⟩
  have h1 : ∀ z : n → ℝ, (olsWith x z (xᵀ * x)⁻¹).u = z - x *ᵥ (olsWith x z (xᵀ * x)⁻¹).betas :=
    fun _ => rfl
  rw [h1, h1, hb, mulVec_add, mulVec_smul, smul_sub]
  abel

/-- C08: an invertible change of regressors `x T` leaves fitted values and residuals unchanged, and
coefficients satisfy `T * new = old`. -/
theorem C08_basis [DecidableEq k] (x : Matrix n k ℝ) (y : n → ℝ) (T : Matrix k k ℝ)
    (hT : IsUnit T.det) (f : OLSFit n k) (h : ols x y = some f) :
    ∃ g, ols (x * T) y = some g ∧ T *ᵥ g.betas = f.betas ∧ g.u = f.u ∧ g.predy = f.predy := by
  obtain ⟨hu, rfl⟩ := ols_eq_some h
  have hx : (x * T)ᵀ * (x * T) = Tᵀ * (xᵀ * x) * T := by
    rw [transpose_mul]; simp only [Matrix.mul_assoc]
  have hu2 : IsUnit ((x * T)ᵀ * (x * T)).det := by
    rw [hx, det_mul, det_mul, det_transpose]; exact (hT.mul hu).mul hT
  have hb : T *ᵥ (olsWith (x * T) y ((x * T)ᵀ * (x * T))⁻¹).betas
      = (olsWith x y (xᵀ * x)⁻¹).betas := by
    have hTt : IsUnit (Tᵀ).det := by rw [det_transpose]; exact hT
    simp only [olsWith, mulVec_mulVec]
    rw [hx, Matrix.mul_inv_rev, Matrix.mul_inv_rev, transpose_mul]
    congr 1
    simp only [← Matrix.mul_assoc]
    rw [mul_nonsing_inv _ hT, Matrix.one_mul, Matrix.mul_assoc ((xᵀ * x)⁻¹), nonsing_inv_mul _ hTt,
      Matrix.mul_one]
  have hp : (olsWith (x * T) y ((x * T)ᵀ * (x * T))⁻¹).predy = (olsWith x y (xᵀ * x)⁻¹).predy := by
    have : (olsWith (x * T) y ((x * T)ᵀ * (x * T))⁻¹).predy
        = (x * T) *ᵥ (olsWith (x * T) y ((x * T)ᵀ * (x * T))⁻¹).betas := rfl
    rw [this, ← mulVec_mulVec, hb]
    rfl
  refine ⟨_, ols_of_isUnit _ _ hu2, hb, ?_, hp⟩
  have h1 : (olsWith (x * T) y ((x * T)ᵀ * (x * T))⁻¹).u
      = y - (olsWith (x * T) y ((x * T)ᵀ * (x * T))⁻¹).predy := rfl
  rw [h1, hp]; rfl

/-- Non-vacuity data: three observations, constant and a trend. -/
def exX : Matrix (Fin 3) (Fin 2) ℝ := !![1, 0; 1, 1; 1, 2]
def exY : Fin 3 → ℝ := ![0, 0, 3]

theorem exX_isUnit : IsUnit (exXᵀ * exX).det := by
  rw [isUnit_iff_ne_zero]
  simp [exX, det_fin_two, Matrix.mul_apply, Fin.sum_univ_three]
  norm_num

/-- Non-vacuity for C06-C08: OLS succeeds on the example data, with a non-zero residual. -/
example : ∃ f, ols exX exY = some f ∧ f.u ≠ 0 := by
  refine ⟨_, ols_of_isUnit _ _ exX_isUnit, ?_⟩
  intro h0
  set b := (olsWith exX exY (exXᵀ * exX)⁻¹).betas with hb
  have hu0 : exY - exX *ᵥ b = 0 := h0
  have a0 := congrFun hu0 0
  have a1 := congrFun hu0 1
  have a2 := congrFun hu0 2
  simp [exX, exY, mulVec, dotProduct, Fin.sum_univ_two] at a0 a1 a2
  linarith

/-! ### C09 -/

theorem self_mul_transpose_zero (E : Matrix k n ℝ) (h : E * Eᵀ = 0) : E = 0 := by
  ext i j
  have hi := congrFun (congrFun h i) i
  simp only [mul_apply, transpose_apply, Matrix.zero_apply] at hi
  have := (Finset.sum_eq_zero_iff_of_nonneg (fun a _ => mul_self_nonneg (E i a))).1 hi j
    (Finset.mem_univ _)
  simpa using this

theorem ginv_normal (x : Matrix n k ℝ) (P : Matrix k k ℝ) (hP : IsGInv (xᵀ * x) P) :
    xᵀ * x * P * xᵀ = xᵀ := by
  have hE : (xᵀ * x * P * xᵀ - xᵀ) * (xᵀ * x * P * xᵀ - xᵀ)ᵀ = 0 := by
    have h1 : (xᵀ * x * P * xᵀ - xᵀ) * x = 0 := by
      rw [Matrix.sub_mul, Matrix.mul_assoc (xᵀ * x * P), hP, sub_self]
    have h2 : (xᵀ * x * P * xᵀ - xᵀ)ᵀ = x * (Pᵀ * (xᵀ * x)) - x := by
      rw [transpose_sub, transpose_mul, transpose_mul, transpose_mul, transpose_transpose]
    rw [h2, Matrix.mul_sub, ← Matrix.mul_assoc, h1, Matrix.zero_mul, sub_zero]
  have := self_mul_transpose_zero _ hE
  exact sub_eq_zero.mp this

/-- C09: for every nonnegative weight vector (so also when weights vanish and `x'Wx` is singular) the WLS
coefficients solve the weighted normal equations `x'W(y - x b) = 0`, and reported fitted values and
residuals refer to the unweighted data. `P` is any generalised inverse of the weighted cross product
(`numpy.linalg.pinv` is one). -/
theorem C09_wls (x : Matrix n k ℝ) (y w wsqrt : n → ℝ) (hw : ∀ i, wsqrt i * wsqrt i = w i)
    (P : Matrix k k ℝ)
    (hP : IsGInv ((Matrix.of fun i j => x i j * wsqrt i : Matrix n k ℝ)ᵀ
      * (Matrix.of fun i j => x i j * wsqrt i : Matrix n k ℝ)) P) :
    (∀ j, ∑ i, x i j * (w i * (wls x y wsqrt P).2.u i) = 0) ∧
    (∀ i, y i = (wls x y wsqrt P).2.predy i + (wls x y wsqrt P).2.u i) ∧
    (∀ i, (wls x y wsqrt P).2.predy i = ∑ j, x i j * (wls x y wsqrt P).2.betas j) := by
  set xw : Matrix n k ℝ := Matrix.of fun i j => x i j * wsqrt i with hxw
  set yw : n → ℝ := fun i => y i * wsqrt i with hyw
  refine ⟨fun j => ?_, fun i => by simp [wls], fun i => by simp [wls, mulVec, dotProduct]⟩
  have hinner : xwᵀ *ᵥ (olsWith xw yw P).u = 0 := by
    simp only [olsWith, mulVec_sub, mulVec_mulVec]
    rw [← Matrix.mul_assoc, ← Matrix.mul_assoc, ginv_normal xw P hP, sub_self]
  have hj := congrFun hinner j
  simp only [mulVec, dotProduct, transpose_apply, Pi.zero_apply] at hj
  rw [← hj]
  refine Finset.sum_congr rfl fun i _ => ?_
  have e1 : (wls x y wsqrt P).2.u i = y i - ∑ a, x i a * (olsWith xw yw P).betas a := by
    simp [wls, mulVec, dotProduct, hxw, hyw]
  have e2 : (olsWith xw yw P).u i = yw i - ∑ a, xw i a * (olsWith xw yw P).betas a := by
    have : (olsWith xw yw P).u = yw - xw *ᵥ (olsWith xw yw P).betas := rfl
    rw [this]; simp [mulVec, dotProduct]
  have e3 : ∑ a, xw i a * (olsWith xw yw P).betas a
      = wsqrt i * ∑ a, x i a * (olsWith xw yw P).betas a := by
    rw [Finset.mul_sum]
    exact Finset.sum_congr rfl fun a _ => by simp [hxw]; ring
  rw [e1, e2, e3, ← hw i]
  simp only [hxw, hyw, of_apply]
  ring

/-- C09: with unit weights WLS is OLS. -/
theorem C09_unit_weights [DecidableEq k] (x : Matrix n k ℝ) (y : n → ℝ) (f : OLSFit n k)
    (h : ols x y = some f) : (wls x y (fun _ => 1) (xᵀ * x)⁻¹).2 = f := by
  obtain ⟨_, rfl⟩ := ols_eq_some h
  have : (Matrix.of fun i j => x i j * (1 : ℝ) : Matrix n k ℝ) = x := by ext; simp
  simp only [wls, this, mul_one]
  rfl

/-- C09, a documented side effect: after a weighted fit the stored sum of squared residuals is that of the
weighted data, which differs from the sum of squares of the reported residuals. -/
theorem C09_cached_utu_differs :
    ∃ (x : Matrix (Fin 2) (Fin 1) ℝ) (y w : Fin 2 → ℝ) (P : Matrix (Fin 1) (Fin 1) ℝ),
      IsGInv ((Matrix.of fun i j => x i j * w i : Matrix (Fin 2) (Fin 1) ℝ)ᵀ
        * (Matrix.of fun i j => x i j * w i : Matrix (Fin 2) (Fin 1) ℝ)) P ∧
      utu (wls x y w P).1.u ≠ utu (wls x y w P).2.u := by
  refine ⟨!![1; 1], ![0, 1], ![1, 2], !![1/5], ?_, ?_⟩
  · unfold IsGInv
    ext i j
    fin_cases i; fin_cases j
    simp [Matrix.mul_apply, Fin.sum_univ_two]
    norm_num
  · have hb : ∀ j, (wls (!![1; 1] : Matrix (Fin 2) (Fin 1) ℝ) ![0, 1] ![1, 2] !![1/5]).1.betas j
        = 4 / 5 := by
      intro j
      fin_cases j
      simp only [wls, olsWith, mulVec, dotProduct]
      simp [Fin.sum_univ_two]
      norm_num
    have h1 : ∀ i, (wls (!![1; 1] : Matrix (Fin 2) (Fin 1) ℝ) ![0, 1] ![1, 2] !![1/5]).2.u i
        = (![0, 1] : Fin 2 → ℝ) i - 4 / 5 := by
      intro i
      show _ - ∑ a : Fin 1, _ * (wls (!![1; 1] : Matrix (Fin 2) (Fin 1) ℝ) ![0, 1] ![1, 2]
        !![1/5]).1.betas a = _
      simp only [hb]
      fin_cases i <;> simp
    have h2 : ∀ i, (wls (!![1; 1] : Matrix (Fin 2) (Fin 1) ℝ) ![0, 1] ![1, 2] !![1/5]).1.u i
        = (![0, 1] : Fin 2 → ℝ) i * (![1, 2] : Fin 2 → ℝ) i - (![1, 2] : Fin 2 → ℝ) i * (4 / 5) := by
      intro i
      show _ - ∑ a : Fin 1, _ * (wls (!![1; 1] : Matrix (Fin 2) (Fin 1) ℝ) ![0, 1] ![1, 2]
        !![1/5]).1.betas a = _
      simp only [hb]
      fin_cases i <;> simp
    unfold utu
    simp only [h1, h2, Fin.sum_univ_two]
    simp
    norm_num

example : IsGInv ((Matrix.of fun i j => (!![1; 1] : Matrix (Fin 2) (Fin 1) ℝ) i j * (![1, 2] : Fin 2 → ℝ) i
      : Matrix (Fin 2) (Fin 1) ℝ)ᵀ
    * (Matrix.of fun i j => (!![1; 1] : Matrix (Fin 2) (Fin 1) ℝ) i j * (![1, 2] : Fin 2 → ℝ) i
      : Matrix (Fin 2) (Fin 1) ℝ)) !![1/5] := by
  unfold IsGInv
  ext i j
  fin_cases i; fin_cases j
  simp [Matrix.mul_apply, Fin.sum_univ_two]
  norm_num

/-! ### C56: classical variance -/

/-- quadratic form `v' A v ≥ 0` for every `v`, and symmetric -/
def SymPSD (A : Matrix k k ℝ) : Prop := Aᵀ = A ∧ ∀ v : k → ℝ, 0 ≤ ∑ i, ∑ j, v i * A i j * v j

theorem quad_eq (A : Matrix k k ℝ) (v : k → ℝ) : ∑ i, ∑ j, v i * A i j * v j = v ⬝ᵥ (A *ᵥ v) := by
  simp only [dotProduct, mulVec, Finset.mul_sum, mul_assoc]

theorem psd_gram (B : Matrix n k ℝ) : SymPSD (Bᵀ * B) := by
  refine ⟨by rw [transpose_mul, transpose_transpose], fun v => ?_⟩
  rw [quad_eq, ← mulVec_mulVec, dotProduct_mulVec, vecMul_transpose, ← utu_eq_dot]
  exact utu_nonneg _

theorem psd_smul {A : Matrix k k ℝ} (h : SymPSD A) (c : ℝ) (hc : 0 ≤ c) : SymPSD (c • A) := by
  refine ⟨by rw [transpose_smul, h.1], fun v => ?_⟩
  rw [quad_eq, smul_mulVec, dotProduct_smul, smul_eq_mul, ← quad_eq]
  exact mul_nonneg hc (h.2 v)

theorem psd_conj {A : Matrix l l ℝ} (h : SymPSD A) (B : Matrix k l ℝ) : SymPSD (B * (A * Bᵀ)) := by
  refine ⟨by rw [transpose_mul, transpose_mul, transpose_transpose, h.1, Matrix.mul_assoc], fun v => ?_⟩
  rw [quad_eq, ← mulVec_mulVec, ← mulVec_mulVec, dotProduct_mulVec, ← mulVec_transpose, ← quad_eq]
  exact h.2 _

theorem xtxi_symm [DecidableEq k] (x : Matrix n k ℝ) : ((xᵀ * x)⁻¹)ᵀ = (xᵀ * x)⁻¹ := by
  rw [transpose_nonsing_inv, transpose_mul, transpose_transpose]

theorem psd_inv_gram [DecidableEq k] (x : Matrix n k ℝ) (hu : IsUnit (xᵀ * x).det) :
    SymPSD (xᵀ * x)⁻¹ := by
  have h := psd_conj (psd_gram x) (xᵀ * x)⁻¹
  rw [xtxi_symm, mul_nonsing_inv _ hu, Matrix.mul_one] at h
  exact h

theorem psd_diag [DecidableEq k] {A : Matrix k k ℝ} (h : SymPSD A) (i : k) : 0 ≤ A i i := by
  have := h.2 (Pi.single i 1)
  rw [quad_eq] at this
  simpa [mulVec_single] using this

/-- C56: the classical OLS variance (with either `sig2n` or `sig2n_k` for `k < n`) is symmetric positive
semidefinite, so all reported variances are nonnegative; and `sig2n ≤ sig2n_k`. -/
theorem C56_vm_psd [DecidableEq k] (x : Matrix n k ℝ) (y : n → ℝ) (f : OLSFit n k)
    (h : ols x y = some f) (hk : Fintype.card k < Fintype.card n) :
    SymPSD (vmClassic (sig2n f.u) f.xtxi) ∧ SymPSD (vmClassic (sig2nk f.u (Fintype.card k)) f.xtxi) ∧
      (∀ j, 0 ≤ vmClassic (sig2nk f.u (Fintype.card k)) f.xtxi j j) ∧
      sig2n f.u ≤ sig2nk f.u (Fintype.card k) := by
  obtain ⟨hu, rfl⟩ := ols_eq_some h
  set f := olsWith x y (xᵀ * x)⁻¹
  have hpos : (0 : ℝ) < (Fintype.card n : ℝ) - Fintype.card k := by
    have : (Fintype.card k : ℝ) < Fintype.card n := by exact_mod_cast hk
    linarith
  have hn : (0 : ℝ) < Fintype.card n := by
    have : (0 : ℝ) ≤ Fintype.card k := Nat.cast_nonneg _
    linarith
  have h1 : 0 ≤ sig2n f.u := div_nonneg (utu_nonneg _) hn.le
  have h2 : 0 ≤ sig2nk f.u (Fintype.card k) := div_nonneg (utu_nonneg _) hpos.le
  have hx : SymPSD f.xtxi := psd_inv_gram x hu
  refine ⟨psd_smul hx _ h1, psd_smul hx _ h2, fun j => psd_diag (psd_smul hx _ h2) j, ?_⟩
  unfold sig2n sig2nk
  apply div_le_div_of_nonneg_left (utu_nonneg _) hpos
  have : (0 : ℝ) ≤ Fintype.card k := Nat.cast_nonneg _
  linarith

/-! ### C12: robust variances -/

theorem psd_white (x : Matrix n k ℝ) (u : n → ℝ) : SymPSD (psi0White x u none) :=
  psd_gram (broadcast x u)

theorem psd_white_dof (x : Matrix n k ℝ) (u : n → ℝ) (kk : ℕ) (h : kk < Fintype.card n) :
    SymPSD (psi0White x u (some kk)) := by
  unfold psi0White
  apply psd_smul (psd_gram _)
  apply div_nonneg
  · positivity
  · have : (kk : ℝ) < Fintype.card n := by exact_mod_cast h
    linarith

/-- C12: the White variance of OLS, with or without the degrees-of-freedom correction (`k < n`),
is symmetric positive semidefinite, for every residual vector. -/
theorem C12_white_ols [DecidableEq k] (x : Matrix n k ℝ) (u : n → ℝ) (dof : Option ℕ)
    (hd : ∀ kk, dof = some kk → kk < Fintype.card n) :
    SymPSD (sandwichOLS (xᵀ * x)⁻¹ (psi0White x u dof)) := by
  have hp : SymPSD (psi0White x u dof) := by
    cases dof with
    | none => exact psd_white x u
    | some kk => exact psd_white_dof x u kk (hd kk rfl)
  have := psd_conj hp (xᵀ * x)⁻¹
  rwa [xtxi_symm] at this

/-- C12: the White variance of 2SLS is symmetric positive semidefinite. -/
theorem C12_white_tsls (h : Matrix n l ℝ) (u : n → ℝ) (varb : Matrix k k ℝ) (f1 : Matrix k l ℝ)
    (dof : Option ℕ) (hd : ∀ kk, dof = some kk → kk < Fintype.card n) :
    SymPSD (sandwichTSLS varb f1 (psi0White h u dof)) := by
  have hp : SymPSD (psi0White h u dof) := by
    cases dof with
    | none => exact psd_white h u
    | some kk => exact psd_white_dof h u kk (hd kk rfl)
  exact psd_conj hp _

/-- C12: with a symmetric kernel the HAC variances are symmetric. -/
theorem C12_hac_symm [DecidableEq k] (x : Matrix n k ℝ) (h : Matrix n l ℝ) (u : n → ℝ)
    (g : Matrix n n ℝ) (hg : gᵀ = g) (varb : Matrix k k ℝ) (f1 : Matrix k l ℝ) :
    (sandwichOLS (xᵀ * x)⁻¹ (psi0HAC x u g))ᵀ = sandwichOLS (xᵀ * x)⁻¹ (psi0HAC x u g) ∧
    (sandwichTSLS varb f1 (psi0HAC h u g))ᵀ = sandwichTSLS varb f1 (psi0HAC h u g) := by
  constructor
  · unfold sandwichOLS psi0HAC
    simp only [transpose_mul, transpose_transpose, xtxi_symm, hg, Matrix.mul_assoc]
  · unfold sandwichTSLS psi0HAC
    simp only [transpose_mul, transpose_transpose, hg, Matrix.mul_assoc]

/-- C12: with a positive semidefinite kernel matrix the HAC variances are positive semidefinite. -/
theorem C12_hac_psd [DecidableEq k] (x : Matrix n k ℝ) (h : Matrix n l ℝ) (u : n → ℝ)
    (g : Matrix n n ℝ) (hg : SymPSD g) (varb : Matrix k k ℝ) (f1 : Matrix k l ℝ) :
    SymPSD (sandwichOLS (xᵀ * x)⁻¹ (psi0HAC x u g)) ∧ SymPSD (sandwichTSLS varb f1 (psi0HAC h u g)) := by
  have e : ∀ {j : Type} [Fintype j] (z : Matrix n j ℝ), SymPSD (psi0HAC z u g) := by
    intro j _ z
    have := psd_conj hg (broadcast z u)ᵀ
    rwa [transpose_transpose] at this
  constructor
  · have := psd_conj (e x) (xᵀ * x)⁻¹
    rwa [xtxi_symm] at this
  · exact psd_conj (e h) _

/-- C12: with the identity kernel HAC is White without degrees-of-freedom correction. -/
theorem C12_hac_identity [DecidableEq n] (x : Matrix n k ℝ) (u : n → ℝ) :
    psi0HAC x u 1 = psi0White x u none := by
  unfold psi0HAC psi0White; simp

/-- C12: HAC loses positive semidefiniteness if the kernel is merely symmetric with unit diagonal:
the hypothesis of `C12_hac_psd` is needed. -/
theorem C12_hac_indefinite :
    ∃ (x : Matrix (Fin 2) (Fin 1) ℝ) (u : Fin 2 → ℝ) (g : Matrix (Fin 2) (Fin 2) ℝ),
      gᵀ = g ∧ (∀ i, g i i = 1) ∧ sandwichOLS (xᵀ * x)⁻¹ (psi0HAC x u g) 0 0 < 0 := by
  refine ⟨!![1; 1], ![1, -1], !![1, 2; 2, 1], ?_, ?_, ?_⟩
  · ext i j; fin_cases i <;> fin_cases j <;> rfl
  · intro i; fin_cases i <;> rfl
  · have hi : ((!![1; 1] : Matrix (Fin 2) (Fin 1) ℝ)ᵀ * (!![1; 1] : Matrix (Fin 2) (Fin 1) ℝ))⁻¹
        = (!![1/2] : Matrix (Fin 1) (Fin 1) ℝ) := by
      apply inv_eq_left_inv
      ext i j; fin_cases i; fin_cases j
      simp [Matrix.mul_apply, Fin.sum_univ_two]; norm_num
    rw [hi]
    simp [sandwichOLS, psi0HAC, broadcast, Matrix.mul_apply, Fin.sum_univ_two, vecHead, vecTail]
    norm_num

/-- Non-vacuity: a positive semidefinite kernel that is not the identity. -/
example : SymPSD (!![1, 1/2; 1/2, 1] : Matrix (Fin 2) (Fin 2) ℝ) := by
  refine ⟨by ext i j; fin_cases i <;> fin_cases j <;> rfl, fun v => ?_⟩
  simp [Fin.sum_univ_two]
  nlinarith [sq_nonneg (v 0 + v 1), sq_nonneg (v 0), sq_nonneg (v 1)]

end Spreg.Lin
