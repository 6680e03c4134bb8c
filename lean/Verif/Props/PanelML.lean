import Verif.Model.PanelML
import Verif.Spec.Gauss
import Verif.Props.ML2
import Mathlib.LinearAlgebra.Matrix.SchurComplement
/-
C95: the reported log-likelihoods of the panel estimators.
-/
namespace Spreg.PanelML
open Matrix Spreg.Lin Spreg.ML Spreg.Gauss
open scoped Kronecker

variable {τ n k : Type} [Fintype τ] [Fintype n] [Fintype k] [DecidableEq τ] [DecidableEq n] [DecidableEq k]

/-! ### Algebra of `J/T ⊗ P + (I - J/T) ⊗ B` -/

/-- `J/T`. -/
noncomputable def Jb (τ : Type) [Fintype τ] : Matrix τ τ ℝ := Matrix.of fun _ _ => 1 / (Fintype.card τ : ℝ)

/-- `J/T ⊗ P + (I - J/T) ⊗ B`. -/
noncomputable def mix (τ : Type) [Fintype τ] [DecidableEq τ] (P B : Matrix n n ℝ) : Matrix (τ × n) (τ × n) ℝ :=
  Jb τ ⊗ₖ P + (1 - Jb τ) ⊗ₖ B

theorem Jb_idem [Nonempty τ] : Jb τ * Jb τ = Jb τ := by
  ext i j
  have : (Fintype.card τ : ℝ) ≠ 0 := by exact_mod_cast Fintype.card_ne_zero
  simp only [Jb, mul_apply, of_apply, Finset.sum_const, Finset.card_univ, nsmul_eq_mul]
  field_simp

theorem Jb_symm : (Jb τ)ᵀ = Jb τ := by ext i j; rfl

theorem mix_mul [Nonempty τ] (P B P' B' : Matrix n n ℝ) : mix τ P B * mix τ P' B' = mix τ (P * P') (B * B') := by
  unfold mix
  have h1 : Jb τ * (1 - Jb τ) = 0 := by rw [Matrix.mul_sub, Matrix.mul_one, Jb_idem, sub_self]
  have h2 : (1 - Jb τ) * Jb τ = 0 := by rw [Matrix.sub_mul, Matrix.one_mul, Jb_idem, sub_self]
  have h3 : (1 - Jb τ) * (1 - Jb τ) = 1 - Jb τ := by rw [Matrix.mul_sub, Matrix.mul_one, h2, sub_zero]
  rw [Matrix.add_mul, Matrix.mul_add, Matrix.mul_add, ← mul_kronecker_mul, ← mul_kronecker_mul, ← mul_kronecker_mul,
    ← mul_kronecker_mul, h1, h2, h3, Jb_idem, zero_kronecker, zero_kronecker, add_zero, zero_add]

theorem mix_one : mix τ (1 : Matrix n n ℝ) 1 = 1 := by
  unfold mix
  rw [← add_kronecker, add_sub_cancel, one_kronecker_one]

theorem mix_transpose (P B : Matrix n n ℝ) : (mix τ P B)ᵀ = mix τ Pᵀ Bᵀ := by
  unfold mix
  rw [transpose_add, ← kroneckerMap_transpose, ← kroneckerMap_transpose, transpose_sub, Jb_symm, transpose_one]

theorem mix_add (P B P' B' : Matrix n n ℝ) : mix τ P B + mix τ P' B' = mix τ (P + P') (B + B') := by
  unfold mix; rw [kronecker_add, kronecker_add]; abel

theorem mix_sub (P B P' B' : Matrix n n ℝ) : mix τ P B - mix τ P' B' = mix τ (P - P') (B - B') := by
  unfold mix
  ext a b
  simp only [Matrix.sub_apply, Matrix.add_apply, kroneckerMap_apply]
  ring

theorem mix_smul (c : ℝ) (P B : Matrix n n ℝ) : c • mix τ P B = mix τ (c • P) (c • B) := by
  unfold mix; rw [smul_add, kronecker_smul, kronecker_smul]

theorem bigW_eq (W : Matrix n n ℝ) : bigW τ W = mix τ W W := by
  unfold mix bigW; rw [← add_kronecker, add_sub_cancel]

theorem quasi_eq (phi : ℝ) : quasi τ n phi = mix τ (phi • (1 : Matrix n n ℝ)) 1 := by
  unfold quasi mix
  ext a b
  simp only [Matrix.sub_apply, Matrix.add_apply, kroneckerMap_apply, Matrix.smul_apply, Jb, of_apply, smul_eq_mul]
  ring

theorem bigW_spec (W : Matrix n n ℝ) : bigW τ W = panelW τ W := by
  ext a b
  simp only [bigW, panelW, kroneckerMap_apply, of_apply, one_apply]
  split_ifs <;> simp

/-- The matrix of `quasi` is the matrix of `demean_panel`. -/
theorem demeanQ_eq (m t : ℕ) (phi : ℝ) :
    Panel.demeanQ m t phi = Matrix.reindex finProdFinEquiv finProdFinEquiv (quasi (Fin t) (Fin m) phi) := by
  unfold Panel.demeanQ Panel.demeanJ quasi
  congr 1
  ext a b
  simp [kroneckerMap_apply, mul_apply]

theorem det_mix [Nonempty τ] (P B : Matrix n n ℝ) (hB : IsUnit B.det) :
    (mix τ P B).det = P.det * B.det ^ (Fintype.card τ - 1) := by
  have hT : (Fintype.card τ : ℝ) ≠ 0 := by exact_mod_cast Fintype.card_ne_zero
  have key : ∀ C : Matrix n n ℝ, (mix τ C 1).det = C.det := by
    intro C
    let U : Matrix (τ × n) n ℝ := Matrix.of fun a j => if a.2 = j then 1 else 0
    let V : Matrix n (τ × n) ℝ := Matrix.of fun i b => (1 / (Fintype.card τ : ℝ)) * (C - 1) i b.2
    have e1 : mix τ C 1 = 1 + U * V := by
      ext a b
      have h1 : (U * V) a b = (1 / (Fintype.card τ : ℝ)) * (C - 1) a.2 b.2 := by
        simp [U, V, mul_apply]
      have h2 : mix τ C 1 a b = (1 : Matrix (τ × n) (τ × n) ℝ) a b + (1 / (Fintype.card τ : ℝ)) * (C - 1) a.2 b.2 := by
        rw [← one_kronecker_one]
        simp only [mix, Jb, Matrix.add_apply, Matrix.sub_apply, kroneckerMap_apply, of_apply]
        ring
      rw [h2, Matrix.add_apply, h1]
    have e2 : V * U = C - 1 := by
      ext i j
      simp only [U, V, mul_apply, of_apply, Fintype.sum_prod_type, mul_ite, mul_one, mul_zero, Finset.sum_ite_eq',
        Finset.mem_univ, if_true, Finset.sum_const, Finset.card_univ, nsmul_eq_mul]
      field_simp
    rw [e1, det_one_add_mul_comm, e2, add_sub_cancel]
  have hf : mix τ P B = bigW τ B * mix τ (B⁻¹ * P) 1 := by
    rw [bigW_eq, mix_mul, ← Matrix.mul_assoc, mul_nonsing_inv _ hB, Matrix.one_mul, Matrix.mul_one]
  rw [hf, det_mul, key, det_mul]
  have hb : (bigW τ B).det = B.det ^ Fintype.card τ := by
    unfold bigW; rw [det_kronecker, det_one, one_pow, one_mul]
  rw [hb, det_nonsing_inv, Ring.inverse_eq_inv']
  have h0 := hB.ne_zero
  obtain ⟨m, hm⟩ : ∃ m, Fintype.card τ = m + 1 := ⟨Fintype.card τ - 1, by have := Fintype.card_pos (α := τ); omega⟩
  rw [hm, Nat.add_sub_cancel, pow_succ]
  field_simp

/-! ### Gaussian densities -/

/-- Density of `A y = m + v`, `v ~ N(0, s2 I)`. -/
theorem normalLL_eq {ι : Type} [Fintype ι] [DecidableEq ι] (A : Matrix ι ι ℝ) (hA : IsUnit A.det) (m y : ι → ℝ) (s2 : ℝ)
    (hs : 0 < s2) (S : Matrix ι ι ℝ) (hS : S * (Aᵀ * A) = 1) :
    normalLL m (s2 • S) y = gaussLL (A *ᵥ y - A *ᵥ m) s2 (Real.log |A.det|) := by
  have hAt : IsUnit (Aᵀ * A).det := by rw [det_mul, det_transpose]; exact hA.mul hA
  have hSi : S = (Aᵀ * A)⁻¹ := (Matrix.inv_eq_left_inv hS).symm
  have hdS : S.det = (A.det ^ 2)⁻¹ := by
    rw [hSi, det_nonsing_inv, Ring.inverse_eq_inv', det_mul, det_transpose, sq]
  have hinv : (s2 • S)⁻¹ = s2⁻¹ • (Aᵀ * A) := by
    apply Matrix.inv_eq_right_inv
    rw [Matrix.smul_mul, Matrix.mul_smul, smul_smul, mul_inv_cancel₀ hs.ne', one_smul, hS]
  unfold normalLL gaussLL
  rw [hinv, det_smul, hdS]
  have h0 := hA.ne_zero
  have hpow : (0 : ℝ) < s2 ^ Fintype.card ι := pow_pos hs _
  rw [Real.log_mul hpow.ne' (inv_ne_zero (pow_ne_zero 2 h0)), Real.log_pow, Real.log_inv, ← sq_abs, Real.log_pow]
  have hq : (y - m) ⬝ᵥ ((s2⁻¹ • (Aᵀ * A)) *ᵥ (y - m)) = s2⁻¹ * ∑ i, (A *ᵥ y - A *ᵥ m) i ^ 2 := by
    rw [smul_mulVec, dotProduct_smul, ← mulVec_mulVec, dotProduct_mulVec, vecMul_transpose, ← mulVec_sub, smul_eq_mul]
    congr 1
    exact Finset.sum_congr rfl fun i _ => (sq _).symm
  rw [hq]
  push_cast
  field_simp
  ring

theorem lagLL_eq {ι : Type} [Fintype ι] [DecidableEq ι] (W C Q : Matrix ι ι ℝ) (rho s2 : ℝ) (hs : 0 < s2) (m y : ι → ℝ)
    (hA : IsUnit (1 - rho • W).det) (hQ : IsUnit Q.det) (hC : C * (Qᵀ * Q) = 1) :
    lagLL W C rho s2 m y = gaussLL (Q *ᵥ ((1 - rho • W) *ᵥ y) - Q *ᵥ m) s2
      (Real.log |Q.det| + Real.log |(1 - rho • W).det|) := by
  unfold lagLL
  set A := 1 - rho • W with hAd
  have h1 : A⁻¹ * A = 1 := nonsing_inv_mul _ hA
  have h2 : A * A⁻¹ = 1 := mul_nonsing_inv _ hA
  rw [normalLL_eq (Q * A) (by rw [det_mul]; exact hQ.mul hA) _ _ s2 hs]
  · have e : (Q * A) *ᵥ (A⁻¹ *ᵥ m) = Q *ᵥ m := by
      rw [mulVec_mulVec, Matrix.mul_assoc, h2, Matrix.mul_one]
    rw [e, ← mulVec_mulVec, det_mul, abs_mul, Real.log_mul (abs_ne_zero.2 hQ.ne_zero) (abs_ne_zero.2 hA.ne_zero)]
  · rw [transpose_mul]
    have h3 : (A⁻¹)ᵀ * Aᵀ = 1 := by rw [← transpose_mul, h2, transpose_one]
    calc A⁻¹ * C * (A⁻¹)ᵀ * (Aᵀ * Qᵀ * (Q * A)) = A⁻¹ * C * ((A⁻¹)ᵀ * Aᵀ) * (Qᵀ * Q) * A := by
          simp only [Matrix.mul_assoc]
      _ = A⁻¹ * (C * (Qᵀ * Q)) * A := by rw [h3, Matrix.mul_one]; simp only [Matrix.mul_assoc]
      _ = 1 := by rw [hC, Matrix.mul_one, h1]

theorem errLL_eq {ι : Type} [Fintype ι] [DecidableEq ι] (W : Matrix ι ι ℝ) (lam s2 : ℝ) (hs : 0 < s2) (m y : ι → ℝ)
    (hA : IsUnit (1 - lam • W).det) :
    errLL W lam s2 m y = gaussLL ((1 - lam • W) *ᵥ y - (1 - lam • W) *ᵥ m) s2 (Real.log |(1 - lam • W).det|) := by
  unfold errLL
  set A := 1 - lam • W with hAd
  have h1 : A⁻¹ * A = 1 := nonsing_inv_mul _ hA
  have h2 : A * A⁻¹ = 1 := mul_nonsing_inv _ hA
  rw [normalLL_eq A hA _ _ s2 hs]
  have h3 : (A⁻¹)ᵀ * Aᵀ = 1 := by rw [← transpose_mul, h2, transpose_one]
  rw [Matrix.mul_assoc, ← Matrix.mul_assoc _ Aᵀ A, h3, Matrix.one_mul, h1]

end Spreg.PanelML
