import Verif.Model.RegimesMat
import Verif.Props.LM
import Mathlib.LinearAlgebra.Matrix.Determinant.Basic
/-
C27 (Wald statistic), C28 (pooled regression with all coefficients varying = separate regressions),
C65 (groupwise weights).
-/
namespace Spreg.RegimesMat
open Matrix Spreg Spreg.Lin Spreg.LM

variable {n k ρ m : Type} [Fintype n] [Fintype k] [Fintype ρ] [Fintype m]

/-! ### C27 -/

theorem psd_rvr (r : Matrix m k ℝ) {vm : Matrix k k ℝ} (h : SymPSD vm) : SymPSD (r * (vm * rᵀ)) := by
  refine ⟨by simp [transpose_mul, h.1, Matrix.mul_assoc], fun v => ?_⟩
  rw [quad_eq]
  have := h.2 (rᵀ *ᵥ v)
  rw [quad_eq] at this
  rw [← mulVec_mulVec, ← mulVec_mulVec, dotProduct_mulVec, ← mulVec_transpose]
  exact this

/-- C27: the Wald statistic is nonnegative, and zero exactly when the restrictions hold. -/
theorem C27_nonneg [DecidableEq m] (b : k → ℝ) (r : Matrix m k ℝ) (q : m → ℝ) (vm : Matrix k k ℝ)
    (h : SymPSD vm) (w : ℝ) (hw : waldTest b r q vm = some w) :
    0 ≤ w ∧ (w = 0 ↔ r *ᵥ b = q) := by
  unfold waldTest at hw
  rw [Option.map_eq_some_iff] at hw
  obtain ⟨B, hB, rfl⟩ := hw
  obtain ⟨_, _, h1, _⟩ := inv?_eq_some hB
  have := psd_inv (psd_rvr r h) h1 (r *ᵥ b - q)
  exact ⟨this.1, this.2.trans sub_eq_zero⟩

/-- C27: rewriting the restrictions by an invertible transformation changes nothing, including whether the
statistic exists. -/
theorem C27_invariant [DecidableEq m] (b : k → ℝ) (r : Matrix m k ℝ) (q : m → ℝ) (vm : Matrix k k ℝ)
    (T : Matrix m m ℝ) (hT : IsUnit T.det) :
    waldTest b (T * r) (T *ᵥ q) vm = waldTest b r q vm := by
  have e : (T * r) * (vm * (T * r)ᵀ) = T * (r * (vm * rᵀ)) * Tᵀ := by
    rw [transpose_mul]; simp only [Matrix.mul_assoc]
  have eb : (T * r) *ᵥ b - T *ᵥ q = T *ᵥ (r *ᵥ b - q) := by rw [mulVec_sub, mulVec_mulVec]
  have hTt : IsUnit Tᵀ.det := by rwa [det_transpose]
  unfold waldTest
  by_cases hu : IsUnit (r * (vm * rᵀ)).det
  · have hu2 : IsUnit ((T * r) * (vm * (T * r)ᵀ)).det := by
      rw [e, det_mul, det_mul]; exact (hT.mul hu).mul hTt
    rw [inv?_of_isUnit hu, inv?_of_isUnit hu2]
    simp only [Option.map_some, Option.some.injEq]
    rw [eb, e, Matrix.mul_inv_rev, Matrix.mul_inv_rev, mulVec_mulVec, Matrix.mul_assoc, Matrix.mul_assoc,
      nonsing_inv_mul _ hT, Matrix.mul_one, ← mulVec_mulVec]
    rw [dotProduct_comm, dotProduct_mulVec, ← mulVec_transpose, mulVec_mulVec, 
      mul_nonsing_inv _ hTt, one_mulVec, dotProduct_comm]
  · have hu2 : ¬ IsUnit ((T * r) * (vm * (T * r)ᵀ)).det := by
      rw [e, det_mul, det_mul]
      intro hh
      exact hu (isUnit_of_mul_isUnit_right (isUnit_of_mul_isUnit_left hh))
    unfold inv?
    rw [if_neg hu, if_neg hu2]
    rfl

/-- C27: with a positive definite variance the statistic exists exactly when the restrictions are linearly
independent. -/
theorem C27_exists_iff [DecidableEq m] (b : k → ℝ) (r : Matrix m k ℝ) (q : m → ℝ) (vm : Matrix k k ℝ)
    (hpd : ∀ v : k → ℝ, v ≠ 0 → 0 < v ⬝ᵥ (vm *ᵥ v)) :
    (∃ w, waldTest b r q vm = some w) ↔ ∀ c : m → ℝ, c ᵥ* r = 0 → c = 0 := by
  have key : IsUnit (r * (vm * rᵀ)).det ↔ ∀ c : m → ℝ, c ᵥ* r = 0 → c = 0 := by
    rw [isUnit_iff_ne_zero, ne_eq, ← exists_mulVec_eq_zero_iff]
    push Not
    constructor
    · intro h c hc
      by_contra hne
      refine h c hne ?_
      rw [← mulVec_mulVec, ← mulVec_mulVec, mulVec_transpose, hc]
      simp
    · intro h c hne hc
      apply hne
      apply h
      by_contra hr
      have h1 := hpd _ hr
      have h2 : c ⬝ᵥ ((r * (vm * rᵀ)) *ᵥ c) = (c ᵥ* r) ⬝ᵥ (vm *ᵥ (c ᵥ* r)) := by
        rw [← mulVec_mulVec, ← mulVec_mulVec, dotProduct_mulVec, mulVec_transpose]
      rw [hc, dotProduct_zero] at h2
      linarith
  rw [← key]
  unfold waldTest
  constructor
  · rintro ⟨w, hw⟩
    rw [Option.map_eq_some_iff] at hw
    obtain ⟨B, hB, _⟩ := hw
    exact (inv?_eq_some hB).1
  · intro hu
    exact ⟨_, by rw [inv?_of_isUnit hu]; rfl⟩

/-- C27, defect of the class `Wald`: a vector of constants with two or more entries cannot be passed; the
constructor raises ValueError. -/
theorem C27_wald_class_q_violated (rows : ℕ) (a b : ℝ) (t : List ℝ) :
    waldQ rows (some (a :: b :: t)) = .error .valueError := rfl

/-- Non-vacuity for C27. -/
example : waldTest (![3, 1] : Fin 2 → ℝ) (!![1, -1] : Matrix (Fin 1) (Fin 2) ℝ) ![0] 1 = some 2 := by
  unfold waldTest
  have h : ((!![1, -1] : Matrix (Fin 1) (Fin 2) ℝ) * ((1 : Matrix (Fin 2) (Fin 2) ℝ)
      * (!![1, -1] : Matrix (Fin 1) (Fin 2) ℝ)ᵀ)).det = 2 := by
    rw [det_fin_one]; simp [Matrix.mul_apply, Fin.sum_univ_two]; norm_num
  rw [inv?_of_isUnit (by rw [h]; norm_num)]
  simp only [Option.map_some, Option.some.injEq]
  rw [Matrix.inv_def, h]
  simp [dotProduct, mulVec, Fin.sum_univ_two]
  norm_num

/-! ### C28 -/

variable [DecidableEq ρ]

theorem sum_sub (g : n → ρ) (r : ρ) (f : n → ℝ) :
    ∑ i : {i // g i = r}, f i.1 = ∑ i, if g i = r then f i else 0 := by
  rw [← Finset.sum_filter, Finset.sum_subtype (p := fun i => g i = r)]
  simp

theorem expand_gram [DecidableEq k] (x : Matrix n k ℝ) (g : n → ρ) :
    (expand x g)ᵀ * expand x g = blockDiagonal fun r => (sub x g r)ᵀ * sub x g r := by
  ext ⟨j, r⟩ ⟨j', r'⟩
  rw [blockDiagonal_apply, mul_apply]
  simp only [expand, sub, transpose_apply, of_apply]
  split
  · next h =>
    obtain rfl : r = r' := h
    rw [mul_apply]
    simp only [transpose_apply, of_apply]
    rw [sum_sub g r fun i => x i j * x i j']
    refine Finset.sum_congr rfl fun i _ => ?_
    split <;> simp
  · next h =>
    apply Finset.sum_eq_zero
    intro i _
    by_cases h1 : g i = r
    · rw [if_neg (show ¬ g i = r' by rw [h1]; exact h), mul_zero]
    · rw [if_neg h1, zero_mul]

theorem expand_isUnit [DecidableEq k] (x : Matrix n k ℝ) (g : n → ρ) :
    IsUnit ((expand x g)ᵀ * expand x g).det ↔ ∀ r, IsUnit ((sub x g r)ᵀ * sub x g r).det := by
  rw [expand_gram, det_blockDiagonal]
  simp only [isUnit_iff_ne_zero, Finset.prod_ne_zero_iff, Finset.mem_univ, forall_const]

theorem expand_inv [DecidableEq k] (x : Matrix n k ℝ) (g : n → ρ)
    (h : ∀ r, IsUnit ((sub x g r)ᵀ * sub x g r).det) :
    ((expand x g)ᵀ * expand x g)⁻¹ = blockDiagonal fun r => ((sub x g r)ᵀ * sub x g r)⁻¹ := by
  rw [expand_gram]
  apply inv_eq_right_inv
  rw [← blockDiagonal_mul]
  rw [← blockDiagonal_one]
  congr 1
  funext r
  rw [mul_nonsing_inv _ (h r)]
  rfl

theorem blockDiagonal_mulVec [DecidableEq k] (M : ρ → Matrix k k ℝ) (v : k × ρ → ℝ) (j : k) (r : ρ) :
    (blockDiagonal M *ᵥ v) (j, r) = (M r *ᵥ fun j' => v (j', r)) j := by
  simp only [mulVec, dotProduct, blockDiagonal_apply]
  rw [Fintype.sum_prod_type_right]
  rw [Finset.sum_eq_single r]
  · simp
  · intro b _ hb
    apply Finset.sum_eq_zero
    intro a _
    rw [if_neg (Ne.symm hb), zero_mul]
  · simp

theorem expand_mulVec (x : Matrix n k ℝ) (g : n → ρ) (v : k × ρ → ℝ) (i : n) :
    (expand x g *ᵥ v) i = ∑ j, x i j * v (j, g i) := by
  simp only [mulVec, dotProduct, expand, of_apply]
  rw [Fintype.sum_prod_type_right, Finset.sum_eq_single (g i)]
  · simp
  · intro b _ hb
    apply Finset.sum_eq_zero
    intro a _
    rw [if_neg (Ne.symm hb), zero_mul]
  · simp

theorem expand_xty (x : Matrix n k ℝ) (g : n → ρ) (y : n → ℝ) (r : ρ) :
    (fun j => ((expand x g)ᵀ *ᵥ y) (j, r)) = (sub x g r)ᵀ *ᵥ subv y g r := by
  funext j
  simp only [mulVec, dotProduct, expand, sub, subv, transpose_apply, of_apply]
  rw [sum_sub g r fun i => x i j * y i]
  refine Finset.sum_congr rfl fun i _ => ?_
  split <;> simp

/-- C28: OLS on the regime-expanded design with every coefficient varying is the regression of every regime
on its own: same coefficients, fitted values and residuals; the inverse cross product (hence the classical
variance up to the factor `sig2`) has the regimes' inverses as diagonal blocks and zeros elsewhere; the sums
of squared residuals add up. -/
theorem C28_pooled [DecidableEq k] (x : Matrix n k ℝ) (y : n → ℝ) (g : n → ρ)
    (fs : ∀ r, OLSFit {i // g i = r} k) (h : ∀ r, ols (sub x g r) (subv y g r) = some (fs r)) :
    ∃ f, ols (expand x g) y = some f ∧ (∀ r j, f.betas (j, r) = (fs r).betas j) ∧
      (∀ i, f.predy i = (fs (g i)).predy ⟨i, rfl⟩) ∧ (∀ i, f.u i = (fs (g i)).u ⟨i, rfl⟩) ∧
      (∀ r r' j j', f.xtxi (j, r) (j', r') = if r = r' then (fs r).xtxi j j' else 0) ∧
      utu f.u = ∑ r, utu (fs r).u := by
  have hu : ∀ r, IsUnit ((sub x g r)ᵀ * sub x g r).det := fun r => (ols_eq_some (h r)).1
  have hf : ∀ r, fs r = olsWith (sub x g r) (subv y g r) ((sub x g r)ᵀ * sub x g r)⁻¹ :=
    fun r => (ols_eq_some (h r)).2
  have hU := (expand_isUnit x g).2 hu
  refine ⟨_, ols_of_isUnit _ _ hU, ?_⟩
  have hb : ∀ r j, (olsWith (expand x g) y ((expand x g)ᵀ * expand x g)⁻¹).betas (j, r) = (fs r).betas j := by
    intro r j
    simp only [olsWith]
    rw [expand_inv x g hu, blockDiagonal_mulVec, expand_xty, hf]
    rfl
  have hp : ∀ i, (olsWith (expand x g) y ((expand x g)ᵀ * expand x g)⁻¹).predy i
      = (fs (g i)).predy ⟨i, rfl⟩ := by
    intro i
    have : (olsWith (expand x g) y ((expand x g)ᵀ * expand x g)⁻¹).predy
      = expand x g *ᵥ (olsWith (expand x g) y ((expand x g)ᵀ * expand x g)⁻¹).betas := rfl
    rw [this, expand_mulVec]
    simp only [hb]
    rw [hf]
    rfl
  have huu : ∀ i, (olsWith (expand x g) y ((expand x g)ᵀ * expand x g)⁻¹).u i = (fs (g i)).u ⟨i, rfl⟩ := by
    intro i
    have : (olsWith (expand x g) y ((expand x g)ᵀ * expand x g)⁻¹).u i
      = y i - (olsWith (expand x g) y ((expand x g)ᵀ * expand x g)⁻¹).predy i := rfl
    rw [this, hp, hf]
    rfl
  refine ⟨hb, hp, huu, ?_, ?_⟩
  · intro r r' j j'
    simp only [olsWith]
    rw [expand_inv x g hu, blockDiagonal_apply]
    simp only
    split
    · rw [hf]; rfl
    · rfl
  · have hr : ∀ r, utu (fs r).u = ∑ i, if g i = r then
        (olsWith (expand x g) y ((expand x g)ᵀ * expand x g)⁻¹).u i ^ 2 else 0 := by
      intro r
      rw [← sum_sub g r fun i => (olsWith (expand x g) y ((expand x g)ᵀ * expand x g)⁻¹).u i ^ 2]
      unfold utu
      refine Finset.sum_congr rfl fun i _ => ?_
      rw [huu]
      obtain ⟨i, rfl⟩ := i
      rfl
    simp only [hr]
    rw [Finset.sum_comm]
    unfold utu
    refine Finset.sum_congr rfl fun i _ => ?_
    simp

/-- C28: the pooled regression fails (singular cross product) exactly when some regime's own regression
fails. -/
theorem C28_raises_iff [DecidableEq k] (x : Matrix n k ℝ) (y : n → ℝ) (g : n → ρ) :
    ols (expand x g) y = none ↔ ∃ r, ols (sub x g r) (subv y g r) = none := by
  have key : ∀ {n k : Type} [Fintype n] [Fintype k] [DecidableEq k] (x : Matrix n k ℝ) (y : n → ℝ),
      ols x y = none ↔ ¬ IsUnit (xᵀ * x).det := by
    intro n k _ _ _ x y
    constructor
    · intro h hu; rw [ols_of_isUnit x y hu] at h; cases h
    · intro hu; unfold ols inv?; rw [if_neg hu]; rfl
  rw [key, expand_isUnit]
  simp only [key]
  push Not
  rfl

/-! ### C65: groupwise weights -/

/-- C65: the estimated variance of a regime with a non-zero residual is positive exactly when the regime has
more observations than the design passed in has columns (with `sig2n_k`), and always without. -/
theorem C65_variance_pos (u : n → ℝ) (g : n → ρ) (r : ρ) (xcols : ℕ)
    (hu : ∃ i, g i = r ∧ u i ≠ 0) :
    (0 < groupVar u g r true xcols ↔ xcols < Fintype.card {i // g i = r}) ∧
    0 < groupVar u g r false xcols := by
  obtain ⟨i, hi, hne⟩ := hu
  have hs : 0 < ∑ i : {i // g i = r}, u i.1 ^ 2 :=
    Finset.sum_pos' (fun _ _ => sq_nonneg _) ⟨⟨i, hi⟩, Finset.mem_univ _, by positivity⟩
  have hc : 0 < Fintype.card {i // g i = r} := Fintype.card_pos_iff.2 ⟨⟨i, hi⟩⟩
  constructor
  · simp only [groupVar, if_true]
    rw [div_pos_iff_of_pos_left hs, sub_pos, Nat.cast_lt]
  · simp only [groupVar, Bool.false_eq_true, if_false]
    exact div_pos hs (by exact_mod_cast hc)

/-- C65, defect: `OLS_Regimes` passes the expanded design, so with `sig2n_k` the degrees of freedom of a
regime subtract the coefficients of all regimes. With `R` regimes and `K` coefficients each, a regime with
more than `K` but at most `R K` observations gets a variance that is not positive (negative below `R K`), although its own regression has positive degrees of freedom. -/
theorem C65_variance_violated (u : n → ℝ) (g : n → ρ) (r : ρ) (R K : ℕ) (hu : ∃ i, g i = r ∧ u i ≠ 0)
    (h1 : K < Fintype.card {i // g i = r}) (h2 : Fintype.card {i // g i = r} < R * K) :
    groupVar u g r true (R * K) < 0 ∧ 0 < groupVar u g r true K := by
  refine ⟨?_, (C65_variance_pos u g r K hu).1.2 h1⟩
  obtain ⟨i, hi, hne⟩ := hu
  have hs : 0 < ∑ i : {i // g i = r}, u i.1 ^ 2 :=
    Finset.sum_pos' (fun _ _ => sq_nonneg _) ⟨⟨i, hi⟩, Finset.mem_univ _, by positivity⟩
  simp only [groupVar, if_true]
  apply div_neg_of_pos_of_neg hs
  rw [sub_neg, Nat.cast_lt]
  exact h2

/-- C65: when every coefficient varies, the groupwise weighted second step has exactly the coefficients of
the unweighted regression (for every positive variance in each regime). -/
theorem C65_same_betas [DecidableEq k] (x : Matrix n k ℝ) (y u : n → ℝ) (g : n → ρ) (nk : Bool)
    (xcols : ℕ) (hpos : ∀ r, 0 < groupVar u g r nk xcols) (f : OLSFit n (k × ρ))
    (h : ols (expand x g) y = some f) :
    ∃ f2, ols (groupWeighted (expand x g) y u g nk xcols).2 (groupWeighted (expand x g) y u g nk xcols).1
      = some f2 ∧ f2.betas = f.betas := by
  set s : n → ℝ := fun i => 1 / Real.sqrt (groupVar u g (g i) nk xcols) with hs
  set d : ρ → ℝ := fun r => 1 / Real.sqrt (groupVar u g r nk xcols) with hd
  have hdpos : ∀ r, 0 < d r := fun r => by
    have := Real.sqrt_pos.2 (hpos r); simp only [hd]; positivity
  have hW : (groupWeighted (expand x g) y u g nk xcols).2 = broadcast (expand x g) s := rfl
  have hY : (groupWeighted (expand x g) y u g nk xcols).1 = fun i => s i * y i := by
    funext i; simp only [groupWeighted, hs]; ring
  rw [hW, hY]
  -- the weighted design is the unweighted design times an invertible diagonal, row-wise
  obtain ⟨hu, rfl⟩ := ols_eq_some h
  have hxu : ∀ v, broadcast (expand x g) s *ᵥ v = fun i => s i * (expand x g *ᵥ v) i := by
    intro v; funext i
    simp only [mulVec, dotProduct, broadcast, of_apply, Finset.mul_sum]
    exact Finset.sum_congr rfl fun _ _ => by ring
  have hspos : ∀ i, 0 < s i := fun i => hdpos (g i)
  have hu2 : IsUnit ((broadcast (expand x g) s)ᵀ * broadcast (expand x g) s).det := by
    rw [xtx_isUnit_iff] at hu ⊢
    intro v hv
    apply hu
    rw [hxu] at hv
    funext i
    have := congrFun hv i
    simpa [(hspos i).ne'] using this
  refine ⟨_, ols_of_isUnit _ _ hu2, ?_⟩
  set b := (olsWith (expand x g) y ((expand x g)ᵀ * expand x g)⁻¹).betas with hb
  have hne : ∀ (j : k) (r : ρ), ∑ i, (if g i = r then x i j * (y i - (expand x g *ᵥ b) i) else 0) = 0 := by
    intro j r
    have := congrFun (normal_eq (expand x g) y hu) (j, r)
    simp only [mulVec, dotProduct, transpose_apply, Pi.zero_apply] at this
    refine Eq.trans ?_ this
    refine Finset.sum_congr rfl fun i _ => ?_
    by_cases hg : g i = r
    · rw [if_pos hg]
      have : expand x g i (j, r) = x i j := by simp [expand, hg]
      rw [this]; rfl
    · rw [if_neg hg]
      have : expand x g i (j, r) = 0 := by simp [expand, hg]
      rw [this, zero_mul]
  have hn2 : (broadcast (expand x g) s)ᵀ *ᵥ (fun i => s i * y i)
      = ((broadcast (expand x g) s)ᵀ * broadcast (expand x g) s) *ᵥ b := by
    rw [← mulVec_mulVec, ← sub_eq_zero, ← mulVec_sub]
    funext ⟨j, r⟩
    rw [hxu]
    simp only [mulVec, dotProduct, transpose_apply, Pi.zero_apply, Pi.sub_apply]
    have h0 := hne j r
    have : ∑ i, (broadcast (expand x g) s) i (j, r) * (s i * y i - s i * (expand x g *ᵥ b) i)
        = d r ^ 2 * ∑ i, (if g i = r then x i j * (y i - (expand x g *ᵥ b) i) else 0) := by
      rw [Finset.mul_sum]
      refine Finset.sum_congr rfl fun i _ => ?_
      simp only [broadcast, expand, of_apply]
      split
      · next hg =>
        have : s i = d r := by rw [← hg]
        rw [this]; ring
      · simp
    rw [h0, mul_zero] at this
    exact this
  simp only [olsWith]
  rw [hn2, mulVec_mulVec, nonsing_inv_mul _ hu2, one_mulVec]

/-- Non-vacuity for C28 and C65: a constant in two regimes of two observations. -/
example : ∃ f : OLSFit (Fin 4) (Fin 1 × Fin 2), ols (expand (fun _ _ => 1) (![0, 0, 1, 1] : Fin 4 → Fin 2))
    ![1, 3, 5, 9] = some f := by
  have : IsUnit ((expand (fun _ _ => (1 : ℝ)) (![0, 0, 1, 1] : Fin 4 → Fin 2) : Matrix (Fin 4) (Fin 1 × Fin 2) ℝ)ᵀ
      * expand (fun _ _ => 1) (![0, 0, 1, 1] : Fin 4 → Fin 2)).det := by
    rw [xtx_isUnit_iff]
    intro v hv
    funext ⟨j, r⟩
    have h0 := congrFun hv 0
    have h2 := congrFun hv 2
    simp [mulVec, dotProduct, expand, Fintype.sum_prod_type] at h0 h2
    fin_cases j
    fin_cases r
    · simpa using h0
    · simpa using h2
  exact ⟨_, ols_of_isUnit _ _ this⟩
example : groupVar (![1, -1, 2, 1, 0, 1] : Fin 6 → ℝ) (![0, 0, 0, 1, 1, 1] : Fin 6 → Fin 2) 0 true (2 * 2) < 0 :=
  (C65_variance_violated (![1, -1, 2, 1, 0, 1] : Fin 6 → ℝ) (![0, 0, 0, 1, 1, 1] : Fin 6 → Fin 2) 0 2 2
    ⟨0, rfl, by norm_num⟩ (by decide) (by decide)).1
example : groupVar (![1, -1, 2, -2] : Fin 4 → ℝ) (![0, 0, 1, 1] : Fin 4 → Fin 2) 0 true (2 * 1) = 0 := by
  have : Fintype.card {i // (![0, 0, 1, 1] : Fin 4 → Fin 2) i = 0} = 2 := by decide
  simp [groupVar, this]

end Spreg.RegimesMat
