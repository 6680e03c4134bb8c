import Verif.Model.GMEndog
import Verif.Props.GMIter
/-
C140, C141: equivariance of two-stage least squares and of the GM spatial error models, first part: the pieces.
-/
namespace Spreg.GM
open Matrix Spreg.Lin

variable {m n k l : Type} [Fintype m] [Fintype n] [Fintype k] [Fintype l]

/-! ### Specification -/

/-- A change of the data that should not matter: the observations are reordered by `σ` (new observation `i` is the old one `σ i`),
the regressors are replaced by `T`-combinations of them, the dependent variable is measured in units `1/c`, and `x d` is added. -/
structure Tr (m n k : Type) [Fintype k] [DecidableEq k] where
  σ : m ≃ n
  T : Matrix k k ℝ
  Ti : Matrix k k ℝ
  c : ℝ
  d : k → ℝ
  hT : T * Ti = 1
  hTi : Ti * T = 1
  hc : c ≠ 0

namespace Tr
variable [DecidableEq k]
/-- Weights of the reordered observations. -/
def w (t : Tr m n k) (W : Matrix n n ℝ) : Matrix m m ℝ := W.submatrix t.σ t.σ
/-- New regressors. -/
def x (t : Tr m n k) (x : Matrix n k ℝ) : Matrix m k ℝ := (x * t.T).submatrix t.σ id
/-- New dependent variable. -/
def y (t : Tr m n k) (x : Matrix n k ℝ) (y : n → ℝ) : m → ℝ := fun i => t.c * y (t.σ i) + (x *ᵥ t.d) (t.σ i)
/-- Coefficients for the new data. -/
def b (t : Tr m n k) (b : k → ℝ) : k → ℝ := t.Ti *ᵥ (t.c • b + t.d)
/-- Residuals for the new data. -/
def u (t : Tr m n k) (u : n → ℝ) : m → ℝ := fun i => t.c * u (t.σ i)
/-- Covariance matrix for the new data. -/
def v (t : Tr m n k) (V : Matrix k k ℝ) : Matrix k k ℝ := (t.c ^ 2) • (t.Ti * V * t.Tiᵀ)
end Tr

/-- New instruments: combinations of the old ones, reordered. -/
def trH (σ : m ≃ n) (B : Matrix l l ℝ) (h : Matrix n l ℝ) : Matrix m l ℝ := (h * B).submatrix σ id

/-! ### Reordering -/

theorem sub_mul_sub (σ : m ≃ n) {a b : Type} [Fintype b] (A : Matrix a n ℝ) (B : Matrix n b ℝ) :
    A.submatrix id σ * B.submatrix σ id = A * B := by
  ext i j
  simp only [mul_apply, submatrix_apply, id]
  exact Equiv.sum_comp σ fun r => A i r * B r j

theorem subσ_mul (σ : m ≃ n) {b : Type} (A : Matrix n n ℝ) (B : Matrix n b ℝ) :
    A.submatrix σ σ * B.submatrix σ id = (A * B).submatrix σ id := by
  ext i j
  simp only [mul_apply, submatrix_apply, id]
  exact Equiv.sum_comp σ fun r => A (σ i) r * B r j

theorem subσσ_mul (σ : m ≃ n) (A B : Matrix n n ℝ) :
    A.submatrix σ σ * B.submatrix σ σ = (A * B).submatrix σ σ := by
  ext i j
  simp only [mul_apply, submatrix_apply]
  exact Equiv.sum_comp σ fun r => A (σ i) r * B r (σ j)

theorem mul_subσ (σ : m ≃ n) {a : Type} (A : Matrix a n ℝ) (B : Matrix n n ℝ) :
    A.submatrix id σ * B.submatrix σ σ = (A * B).submatrix id σ := by
  ext i j
  simp only [mul_apply, submatrix_apply, id]
  exact Equiv.sum_comp σ fun r => A i r * B r (σ j)

theorem subσ_mulVec (σ : m ≃ n) {a : Type} (A : Matrix a n ℝ) (f : a' → a) (v : n → ℝ) :
    A.submatrix f σ *ᵥ (fun i => v (σ i)) = fun i => (A *ᵥ v) (f i) := by
  funext i
  simp only [mulVec, dotProduct, submatrix_apply]
  exact Equiv.sum_comp σ fun r => A (f i) r * v r

theorem dot_σ (σ : m ≃ n) (u v : n → ℝ) : (fun i => u (σ i)) ⬝ᵥ (fun i => v (σ i)) = u ⬝ᵥ v := by
  simp only [dotProduct]
  exact Equiv.sum_comp σ fun r => u r * v r

theorem tr_σ (σ : m ≃ n) (A : Matrix n n ℝ) : ∑ i, A.submatrix σ σ i i = ∑ i, A i i :=
  Equiv.sum_comp σ fun r => A r r

theorem N_σ (σ : m ≃ n) : N m = N n := by unfold N; rw [Fintype.card_congr σ]

/-! ### Inverses -/

theorem inv?_conj [DecidableEq k] (T Ti A : Matrix k k ℝ) (hT : T * Ti = 1) (hTi : Ti * T = 1) :
    inv? (Tᵀ * A * T) = (inv? A).map fun B => Ti * B * Tiᵀ := by
  have hu : IsUnit T.det := (Matrix.isUnit_iff_isUnit_det _).1 ⟨⟨T, Ti, hT, hTi⟩, rfl⟩
  unfold inv?
  have hd : IsUnit (Tᵀ * A * T).det ↔ IsUnit A.det := by
    rw [det_mul, det_mul, det_transpose, IsUnit.mul_iff, IsUnit.mul_iff]
    exact ⟨fun h => h.1.2, fun h => ⟨⟨hu, h⟩, hu⟩⟩
  by_cases h : IsUnit A.det
  · rw [if_pos h, if_pos (hd.2 h), Option.map_some, Matrix.mul_inv_rev, Matrix.mul_inv_rev]
    have e1 : T⁻¹ = Ti := Matrix.inv_eq_right_inv hT
    have e2 : Tᵀ⁻¹ = Tiᵀ := by rw [← transpose_nonsing_inv, e1]
    rw [e1, e2, Matrix.mul_assoc]
  · rw [if_neg h, if_neg fun h' => h (hd.1 h')]; rfl

theorem inv?_smul [DecidableEq k] (A : Matrix k k ℝ) {a : ℝ} (ha : a ≠ 0) :
    inv? (a • A) = (inv? A).map fun B => a⁻¹ • B := by
  have := inv?_conj (T := (1 : Matrix k k ℝ)) (Ti := 1) A (by simp) (by simp)
  unfold inv?
  have hd : IsUnit (a • A).det ↔ IsUnit A.det := by
    rw [det_smul, IsUnit.mul_iff]
    exact ⟨fun h => h.2, fun h => ⟨(isUnit_iff_ne_zero.2 (pow_ne_zero _ ha)), h⟩⟩
  by_cases h : IsUnit A.det
  · rw [if_pos h, if_pos (hd.2 h), Option.map_some]
    congr 1
    refine Matrix.inv_eq_right_inv ?_
    rw [smul_mul_smul_comm, mul_inv_cancel₀ ha, mul_nonsing_inv _ h, one_smul]
  · rw [if_neg h, if_neg fun h' => h (hd.1 h')]; rfl

theorem invE_conj [DecidableEq k] (T Ti A : Matrix k k ℝ) (hT : T * Ti = 1) (hTi : Ti * T = 1) :
    invE (Tᵀ * A * T) = (invE A).map fun B => Ti * B * Tiᵀ := by
  unfold invE
  rw [inv?_conj T Ti A hT hTi]
  cases inv? A <;> rfl

theorem invE_smul [DecidableEq k] (A : Matrix k k ℝ) {a : ℝ} (ha : a ≠ 0) :
    invE (a • A) = (invE A).map fun B => a⁻¹ • B := by
  unfold invE
  rw [inv?_smul A ha]
  cases inv? A <;> rfl

/-! ### Least squares -/

section
variable [DecidableEq k] [DecidableEq l] (t : Tr m n k)

theorem Tr.xx (x z : Matrix n k ℝ) : (t.x x)ᵀ * t.x z = t.Tᵀ * (xᵀ * z) * t.T := by
  unfold Tr.x
  rw [transpose_submatrix, sub_mul_sub, transpose_mul]
  simp only [Matrix.mul_assoc]

theorem Tr.y_eq (x : Matrix n k ℝ) (y : n → ℝ) : t.y x y = fun i => (t.c • y + x *ᵥ t.d) (t.σ i) := by
  funext i; simp [Tr.y]

theorem Tr.x_mulVec (x : Matrix n k ℝ) (v : k → ℝ) : t.x x *ᵥ v = fun i => (x *ᵥ (t.T *ᵥ v)) (t.σ i) := by
  funext i
  rw [mulVec_mulVec]
  rfl

theorem Tr.xT_mulVec (x : Matrix n k ℝ) (v : n → ℝ) : (t.x x)ᵀ *ᵥ (fun i => v (t.σ i)) = t.Tᵀ *ᵥ (xᵀ *ᵥ v) := by
  unfold Tr.x
  rw [transpose_submatrix, subσ_mulVec, mulVec_mulVec, transpose_mul]
  rfl

/-- Predictions and residuals. -/
theorem Tr.pred (x : Matrix n k ℝ) (b : k → ℝ) : t.x x *ᵥ t.b b = t.y x (x *ᵥ b) := by
  rw [t.x_mulVec, t.y_eq, Tr.b, mulVec_mulVec (t.c • b + t.d), t.hT, one_mulVec, mulVec_add, mulVec_smul]

theorem Tr.resid (x : Matrix n k ℝ) (y p : n → ℝ) : t.y x y - t.y x p = t.u (y - p) := by
  funext i
  simp only [Tr.y, Tr.u, Pi.sub_apply]
  ring

theorem Tr.u_eq (u : n → ℝ) : t.u u = fun i => (t.c • u) (t.σ i) := by
  funext i; simp [Tr.u]

/-- What a least squares fit becomes. -/
def Tr.ols (x : Matrix n k ℝ) (o : OLSFit n k) : OLSFit m k where
  xtx := t.Tᵀ * o.xtx * t.T
  xtxi := t.Ti * o.xtxi * t.Tiᵀ
  betas := t.b o.betas
  predy := t.y x o.predy
  u := t.u o.u

theorem Tr.olsE (x : Matrix n k ℝ) (y : n → ℝ) : GM.olsE (t.x x) (t.y x y) = (GM.olsE x y).map (t.ols x) := by
  unfold GM.olsE Lin.ols
  rw [t.xx, inv?_conj _ _ _ t.hT t.hTi]
  rcases hi : inv? (xᵀ * x) with _ | B
  · rfl
  · simp only [Option.map_some, Except.map]
    obtain ⟨-, -, -, hB⟩ := inv?_eq_some hi
    have hb : (t.Ti * B * t.Tiᵀ) *ᵥ ((t.x x)ᵀ *ᵥ t.y x y) = t.b (B *ᵥ (xᵀ *ᵥ y)) := by
      rw [t.y_eq, t.xT_mulVec, Tr.b, mulVec_mulVec, Matrix.mul_assoc, Matrix.mul_assoc, ← transpose_mul, t.hT, transpose_one,
        Matrix.mul_one, mulVec_add, mulVec_smul, mulVec_add, mulVec_smul, ← mulVec_mulVec, ← mulVec_mulVec, mulVec_mulVec _ B,
        mulVec_mulVec _ xᵀ, mulVec_mulVec _ B, hB, one_mulVec, mulVec_add, mulVec_smul]
    congr 1
    simp only [olsWith, Tr.ols, OLSFit.mk.injEq]
    refine ⟨t.xx x x, trivial, hb, ?_, ?_⟩
    · rw [hb, t.pred]
    · rw [hb, t.pred, t.resid]

/-- What a two-stage least squares fit becomes. -/
def Tr.tsls (Bi : Matrix l l ℝ) (z : Matrix n k ℝ) (o : TSLSFit n k l) : TSLSFit m k l where
  betas := t.b o.betas
  predy := t.y z o.predy
  u := t.u o.u
  hthi := Bi * o.hthi * Biᵀ
  varb := t.Ti * o.varb * t.Tiᵀ
  zthhthi := t.Tᵀ * o.zthhthi * Biᵀ

variable (B Bi : Matrix l l ℝ)

theorem Tr.zh (z : Matrix n k ℝ) (h : Matrix n l ℝ) : (t.x z)ᵀ * trH t.σ B h = t.Tᵀ * (zᵀ * h) * B := by
  unfold Tr.x trH
  rw [transpose_submatrix, sub_mul_sub, transpose_mul]
  simp only [Matrix.mul_assoc]

theorem trH_hh (σ : m ≃ n) (h : Matrix n l ℝ) : (trH σ B h)ᵀ * trH σ B h = Bᵀ * (hᵀ * h) * B := by
  unfold trH
  rw [transpose_submatrix, sub_mul_sub, transpose_mul]
  simp only [Matrix.mul_assoc]

theorem trH_mulVec (σ : m ≃ n) (h : Matrix n l ℝ) (v : n → ℝ) : (trH σ B h)ᵀ *ᵥ (fun i => v (σ i)) = Bᵀ *ᵥ (hᵀ *ᵥ v) := by
  unfold trH
  rw [transpose_submatrix, subσ_mulVec, mulVec_mulVec, transpose_mul]
  rfl

variable (hB : B * Bi = 1) (hBi : Bi * B = 1)
include hB hBi

theorem Tr.tslsE (z : Matrix n k ℝ) (h : Matrix n l ℝ) (y : n → ℝ) :
    GM.tslsE (t.x z) (trH t.σ B h) (t.y z y) = (GM.tslsE z h y).map (t.tsls Bi z) := by
  unfold GM.tslsE tslsZH
  rw [trH_hh, inv?_conj _ _ _ hB hBi]
  rcases hi : inv? (hᵀ * h) with _ | H
  · rfl
  · simp only [Option.map_some, Option.bind_some]
    have f1 : (t.x z)ᵀ * trH t.σ B h * (Bi * H * Biᵀ) = t.Tᵀ * (zᵀ * h * H) * Biᵀ := by
      rw [t.zh]
      calc t.Tᵀ * (zᵀ * h) * B * (Bi * H * Biᵀ) = t.Tᵀ * (zᵀ * h) * (B * Bi) * H * Biᵀ := by simp only [Matrix.mul_assoc]
        _ = _ := by rw [hB]; simp only [Matrix.mul_assoc, Matrix.one_mul]
    have f2 : (t.x z)ᵀ * trH t.σ B h * (Bi * H * Biᵀ) * ((t.x z)ᵀ * trH t.σ B h)ᵀ = t.Tᵀ * (zᵀ * h * H * (zᵀ * h)ᵀ) * t.T := by
      rw [f1, t.zh, transpose_mul, transpose_mul _ (zᵀ * h), transpose_transpose]
      calc t.Tᵀ * (zᵀ * h * H) * Biᵀ * (Bᵀ * ((zᵀ * h)ᵀ * t.T)) = t.Tᵀ * (zᵀ * h * H) * (Biᵀ * Bᵀ) * ((zᵀ * h)ᵀ * t.T) := by
            simp only [Matrix.mul_assoc]
        _ = _ := by rw [← transpose_mul, hB, transpose_one]; simp only [Matrix.mul_assoc, Matrix.one_mul]
    rw [f2, inv?_conj _ _ _ t.hT t.hTi]
    rcases hv : inv? (zᵀ * h * H * (zᵀ * h)ᵀ) with _ | V
    · rfl
    · simp only [Option.map_some, Except.map]
      obtain ⟨-, -, -, hV⟩ := inv?_eq_some hv
      have hb : (t.Ti * V * t.Tiᵀ * (t.Tᵀ * (zᵀ * h * H) * Biᵀ)) *ᵥ ((trH t.σ B h)ᵀ *ᵥ t.y z y) =
          t.b ((V * (zᵀ * h * H)) *ᵥ (hᵀ *ᵥ y)) := by
        have e1 : t.Ti * V * t.Tiᵀ * (t.Tᵀ * (zᵀ * h * H) * Biᵀ) = t.Ti * (V * (zᵀ * h * H)) * Biᵀ := by
          calc t.Ti * V * t.Tiᵀ * (t.Tᵀ * (zᵀ * h * H) * Biᵀ) = t.Ti * V * (t.Tiᵀ * t.Tᵀ) * (zᵀ * h * H) * Biᵀ := by
                simp only [Matrix.mul_assoc]
            _ = _ := by rw [← transpose_mul, t.hT, transpose_one]; simp only [Matrix.mul_assoc, Matrix.one_mul]
        rw [e1, t.y_eq, trH_mulVec, mulVec_mulVec, Matrix.mul_assoc _ Biᵀ, ← transpose_mul, hB, transpose_one, Matrix.mul_one, Tr.b,
          ← mulVec_mulVec]
        congr 1
        rw [mulVec_add, mulVec_add, mulVec_smul, mulVec_smul]
        congr 1
        rw [mulVec_mulVec t.d, mulVec_mulVec t.d]
        have : V * (zᵀ * h * H) * (hᵀ * z) = 1 := by
          rw [transpose_mul, transpose_transpose] at hV
          rw [Matrix.mul_assoc, hV]
        rw [this, one_mulVec]
      congr 1
      simp only [Tr.tsls, TSLSFit.mk.injEq]
      rw [f1, hb]
      exact ⟨rfl, t.pred _ _, by rw [t.pred, t.resid], trivial, trivial, rfl⟩

end

/-! ### Filters and moments -/

section
variable [DecidableEq k] (t : Tr m n k)

theorem Tr.filtM (W : Matrix n n ℝ) (lam : ℝ) (x : Matrix n k ℝ) : spFilterM (t.w W) lam (t.x x) = t.x (spFilterM W lam x) := by
  unfold spFilterM Tr.w Tr.x
  rw [subσ_mul, ← Matrix.mul_assoc, Matrix.sub_mul, Matrix.smul_mul]
  rfl

theorem filtσ (σ : m ≃ n) (W : Matrix n n ℝ) (lam : ℝ) (v : n → ℝ) :
    spFilter (W.submatrix σ σ) lam (fun i => v (σ i)) = fun i => spFilter W lam v (σ i) := by
  unfold spFilter
  rw [subσ_mulVec]
  rfl

theorem Tr.filtY (W : Matrix n n ℝ) (lam : ℝ) (x : Matrix n k ℝ) (y : n → ℝ) :
    spFilter (t.w W) lam (t.y x y) = t.y (spFilterM W lam x) (spFilter W lam y) := by
  rw [t.y_eq, t.y_eq, Tr.w, filtσ]
  funext i
  rw [spFilterM_mulVec]
  simp only [spFilter, mulVec_add, mulVec_smul, Pi.add_apply, Pi.sub_apply, Pi.smul_apply, smul_eq_mul]
  ring

theorem Tr.filtU (W : Matrix n n ℝ) (lam : ℝ) (u : n → ℝ) : spFilter (t.w W) lam (t.u u) = t.u (spFilter W lam u) := by
  rw [t.u_eq, t.u_eq, Tr.w, filtσ]
  funext i
  simp only [spFilter, mulVec_smul, Pi.sub_apply, Pi.smul_apply, smul_eq_mul]
  ring

theorem Tr.w_mulVec (W : Matrix n n ℝ) (u : n → ℝ) : t.w W *ᵥ t.u u = t.u (W *ᵥ u) := by
  rw [t.u_eq, t.u_eq, Tr.w, subσ_mulVec, mulVec_smul]

theorem Tr.w_vecMul (W : Matrix n n ℝ) (u : n → ℝ) : t.u u ᵥ* t.w W = t.u (u ᵥ* W) := by
  rw [← mulVec_transpose, ← mulVec_transpose]
  exact t.w_mulVec Wᵀ u

theorem Tr.u_dot (u v : n → ℝ) : t.u u ⬝ᵥ t.u v = t.c ^ 2 * (u ⬝ᵥ v) := by
  rw [t.u_eq, t.u_eq, dot_σ, smul_dotProduct, dotProduct_smul, smul_eq_mul, smul_eq_mul]
  ring

theorem Tr.w_transpose (W : Matrix n n ℝ) : (t.w W)ᵀ = t.w Wᵀ := rfl
theorem Tr.w_mul (A B : Matrix n n ℝ) : t.w A * t.w B = t.w (A * B) := subσσ_mul t.σ A B
theorem Tr.w_add (A B : Matrix n n ℝ) : t.w A + t.w B = t.w (A + B) := rfl
theorem Tr.w_sub (A B : Matrix n n ℝ) : t.w A - t.w B = t.w (A - B) := rfl
theorem Tr.w_smul (a : ℝ) (A : Matrix n n ℝ) : a • t.w A = t.w (a • A) := rfl
theorem Tr.w_diag [DecidableEq m] [DecidableEq n] (f : n → ℝ) : diagonal (fun i => f (t.σ i)) = t.w (diagonal f) := by
  ext i j
  simp only [Tr.w, submatrix_apply, diagonal_apply]
  by_cases h : i = j
  · subst h; simp
  · rw [if_neg h, if_neg fun e => h (t.σ.injective e)]
theorem Tr.w_tr (A : Matrix n n ℝ) : ∑ i, t.w A i i = ∑ i, A i i := tr_σ t.σ A

/-- Moments in the new units. -/
def Tr.mom {r c : Type} (a : ℝ) (M : Moments r c) : Moments r c := { G := a • M.G, g := a • M.g }

/-- Moments of the three-equation system in the new units: the column of the variance of the errors is a constant. -/
def Tr.mom3 (a : ℝ) (M : Moments (Fin 3) (Fin 3)) : Moments (Fin 3) (Fin 3) :=
  ⟨Matrix.of fun i j => if j = 2 then M.G i j else a * M.G i j, a • M.g⟩

/-- The moments of Kelejian and Prucha: those that involve the residuals are measured in the new units. -/
theorem Tr.momGM (W : Matrix n n ℝ) (u : n → ℝ) :
    momentsGM (t.w W) (t.u u) = Tr.mom3 (t.c ^ 2) (momentsGM W u) := by
  unfold momentsGM Tr.mom3
  simp only [t.w_mulVec, t.u_dot, t.w_transpose, t.w_mul, t.w_tr, N_σ t.σ, Moments.mk.injEq]
  refine ⟨?_, ?_⟩
  · ext i j
    fin_cases i <;> fin_cases j <;> simp <;> ring
  · funext i
    fin_cases i <;> simp <;> ring

theorem Tr.mom2 (A1 s : Matrix n n ℝ) (u : n → ℝ) :
    moments2eqs (t.w A1) (t.w s) (t.u u) = Tr.mom (t.c ^ 2) (moments2eqs A1 s u) := by
  unfold moments2eqs Tr.mom
  simp only [t.w_transpose, t.w_add, t.w_mulVec, t.w_vecMul, t.u_dot, N_σ t.σ, Moments.mk.injEq]
  refine ⟨?_, ?_⟩
  · ext i j
    fin_cases i <;> fin_cases j <;> simp <;> ring
  · funext i
    fin_cases i <;> simp <;> ring

theorem Tr.w_A1het [DecidableEq m] [DecidableEq n] (W : Matrix n n ℝ) : A1het (t.w W) = t.w (A1het W) := by
  unfold A1het
  rw [t.w_transpose, t.w_mul, ← t.w_sub, ← t.w_diag]
  rfl

theorem Tr.w_A1hom [DecidableEq m] [DecidableEq n] (W : Matrix n n ℝ) (b : Bool) : A1hom (t.w W) b = t.w (A1hom W b) := by
  unfold A1hom
  simp only [t.w_transpose, t.w_mul, t.w_tr, N_σ t.σ]
  have := t.w_diag (fun _ : n => (∑ i, (Wᵀ * W) i i) / N n)
  rw [this, t.w_sub]
  cases b <;> rfl

theorem Tr.w_A2hom (W : Matrix n n ℝ) : A2hom (t.w W) = t.w (A2hom W) := rfl

theorem Tr.w_psiSigma [DecidableEq m] [DecidableEq n] (W : Matrix n n ℝ) (u : n → ℝ) (lam : ℝ) :
    psiSigma (t.w W) (t.u u) lam = (t.c ^ 2) • t.w (psiSigma W u lam) := by
  unfold psiSigma
  rw [← t.w_diag, ← diagonal_smul]
  congr 1
  funext i
  rw [t.w_mulVec]
  simp only [Tr.u, Pi.smul_apply, smul_eq_mul]
  ring

theorem Tr.w_vcHet (W A1 E : Matrix n n ℝ) (a : ℝ) : vcHet (t.w W) (t.w A1) (a • t.w E) = (a ^ 2) • vcHet W A1 E := by
  unfold vcHet
  simp only [t.w_transpose, t.w_add, Matrix.mul_smul, t.w_smul, t.w_mul, t.w_tr, N_σ t.σ, Matrix.smul_mul, smul_smul]
  ext i j
  fin_cases i <;> fin_cases j <;> simp [Finset.mul_sum, Finset.sum_div] <;> exact Finset.sum_congr rfl fun i _ => by ring

end

end Spreg.GM
