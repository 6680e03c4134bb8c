import Verif.Model.LM
import Verif.Props.OLS
import Mathlib.Algebra.QuadraticDiscriminant
import Mathlib.Tactic.FieldSimp
import Mathlib.Tactic.LinearCombination
import Mathlib.Algebra.BigOperators.Field
/-
Properties C17-C20, C58-C60: Lagrange multiplier tests, Moran's I, common factor test.
-/
namespace Spreg.LM
open Matrix Spreg.Lin

variable {n k q : Type} [Fintype n] [Fintype k] [Fintype q]

/-! ### helpers -/

theorem reg_eq_some [DecidableEq k] {x : Matrix n k ℝ} {y : n → ℝ} {r : Reg n k}
    (h : reg x y = some r) :
    IsUnit (xᵀ * x).det ∧ r = ⟨x, y, olsWith x y (xᵀ * x)⁻¹⟩ := by
  unfold reg at h
  rw [Option.map_eq_some_iff] at h
  obtain ⟨f, hf, rfl⟩ := h
  obtain ⟨hu, rfl⟩ := ols_eq_some hf
  exact ⟨hu, rfl⟩

/-- residual maker -/
noncomputable def rm [DecidableEq k] [DecidableEq n] (x : Matrix n k ℝ) : Matrix n n ℝ :=
  1 - x * (xᵀ * x)⁻¹ * xᵀ

theorem rm_symm [DecidableEq k] [DecidableEq n] (x : Matrix n k ℝ) : (rm x)ᵀ = rm x := by
  unfold rm
  rw [transpose_sub, transpose_one, transpose_mul, transpose_mul, transpose_transpose, xtxi_symm,
    ← Matrix.mul_assoc]

theorem rm_mul_x [DecidableEq k] [DecidableEq n] (x : Matrix n k ℝ) (hu : IsUnit (xᵀ * x).det) :
    rm x * x = 0 := by
  unfold rm
  rw [Matrix.sub_mul, Matrix.one_mul, Matrix.mul_assoc, Matrix.mul_assoc, nonsing_inv_mul _ hu,
    Matrix.mul_one, sub_self]

theorem rm_idem [DecidableEq k] [DecidableEq n] (x : Matrix n k ℝ) (hu : IsUnit (xᵀ * x).det) :
    rm x * rm x = rm x := by
  conv_lhs => rhs; unfold rm
  rw [Matrix.mul_sub, Matrix.mul_one, ← Matrix.mul_assoc, ← Matrix.mul_assoc, rm_mul_x x hu,
    Matrix.zero_mul, Matrix.zero_mul, sub_zero]

theorem rm_cross [DecidableEq k] [DecidableEq n] {a b : Type} [Fintype a] [Fintype b]
    (x : Matrix n k ℝ) (hu : IsUnit (xᵀ * x).det)
    (A : Matrix n a ℝ) (B : Matrix n b ℝ) :
    (rm x * A)ᵀ * (rm x * B) = Aᵀ * B - (Aᵀ * x) * (xᵀ * x)⁻¹ * (xᵀ * B) := by
  rw [transpose_mul, rm_symm, Matrix.mul_assoc, ← Matrix.mul_assoc (rm x) (rm x), rm_idem x hu]
  unfold rm
  rw [Matrix.sub_mul, Matrix.one_mul, Matrix.mul_sub]
  simp only [Matrix.mul_assoc]

theorem rm_dot [DecidableEq k] [DecidableEq n] (x : Matrix n k ℝ) (hu : IsUnit (xᵀ * x).det)
    (a b : n → ℝ) :
    (rm x *ᵥ a) ⬝ᵥ (rm x *ᵥ b) = a ⬝ᵥ b - (xᵀ *ᵥ a) ⬝ᵥ ((xᵀ * x)⁻¹ *ᵥ (xᵀ *ᵥ b)) := by
  have h1 : (rm x *ᵥ a) ⬝ᵥ (rm x *ᵥ b) = a ⬝ᵥ (rm x *ᵥ b) := by
    rw [dotProduct_comm, dotProduct_mulVec, ← mulVec_transpose, rm_symm, mulVec_mulVec, rm_idem x hu,
      dotProduct_comm]
  rw [h1]
  unfold rm
  rw [sub_mulVec, one_mulVec, dotProduct_sub, ← mulVec_mulVec, ← mulVec_mulVec]
  congr 1
  rw [dotProduct_mulVec, ← mulVec_transpose]

theorem rm_eq_zero [DecidableEq k] [DecidableEq n] (x : Matrix n k ℝ) (hu : IsUnit (xᵀ * x).det)
    (a : n → ℝ) : rm x *ᵥ a = 0 ↔ ∃ v, a = x *ᵥ v := by
  constructor
  · intro h
    refine ⟨(xᵀ * x)⁻¹ *ᵥ (xᵀ *ᵥ a), ?_⟩
    unfold rm at h
    rw [sub_mulVec, one_mulVec, sub_eq_zero] at h
    rw [mulVec_mulVec, mulVec_mulVec]; exact h
  · rintro ⟨v, rfl⟩
    rw [mulVec_mulVec, rm_mul_x x hu, zero_mulVec]

/-- The normaliser `t` is half the sum of squares of `W + W'`. -/
theorem tr_t_eq (W : Matrix n n ℝ) : tr_t W = (∑ i, ∑ j, (W i j + W j i) ^ 2) / 2 := by
  unfold tr_t
  have h1 : ∑ i, ((Wᵀ + W) * W) i i = ∑ i, ∑ j, (W j i * W j i + W i j * W j i) := by
    refine Finset.sum_congr rfl fun i _ => ?_
    rw [mul_apply]
    refine Finset.sum_congr rfl fun j _ => ?_
    simp; ring
  have h2 : ∑ i, ∑ j, W j i * W j i = ∑ i, ∑ j, W i j * W i j := Finset.sum_comm
  rw [h1, eq_div_iff (two_ne_zero)]
  have h3 : ∑ i, ∑ j, (W i j + W j i) ^ 2
      = ∑ i, ∑ j, W i j * W i j + ∑ i, ∑ j, W j i * W j i + 2 * ∑ i, ∑ j, W i j * W j i := by
    simp only [Finset.mul_sum, ← Finset.sum_add_distrib]
    refine Finset.sum_congr rfl fun i _ => Finset.sum_congr rfl fun j _ => ?_
    ring
  rw [h3, ← h2]
  simp only [Finset.sum_add_distrib]
  ring

theorem tr_t_nonneg (W : Matrix n n ℝ) : 0 ≤ tr_t W := by
  rw [tr_t_eq]
  exact div_nonneg (Finset.sum_nonneg fun _ _ => Finset.sum_nonneg fun _ _ => sq_nonneg _) (by norm_num)

theorem tr_t_pos (W : Matrix n n ℝ) (i j : n) (h : W i j + W j i ≠ 0) : 0 < tr_t W := by
  rw [tr_t_eq]
  refine div_pos ?_ (by norm_num)
  refine Finset.sum_pos' (fun a _ => Finset.sum_nonneg fun _ _ => sq_nonneg _) ⟨i, Finset.mem_univ _, ?_⟩
  exact Finset.sum_pos' (fun a _ => sq_nonneg _) ⟨j, Finset.mem_univ _, by positivity⟩

theorem s2_pos (r : Reg n k) (h : ∃ i, r.fit.u i ≠ 0) : 0 < r.s2 := by
  obtain ⟨i, hi⟩ := h
  have : Nonempty n := ⟨i⟩
  unfold Reg.s2 sig2n
  refine div_pos ?_ (by exact_mod_cast Fintype.card_pos)
  exact Finset.sum_pos' (fun a _ => sq_nonneg _) ⟨i, Finset.mem_univ _, by positivity⟩

/-- The normaliser `n*j`. -/
theorem nj_eq [DecidableEq k] [DecidableEq n] (x : Matrix n k ℝ) (y : n → ℝ) (r : Reg n k)
    (h : reg x y = some r) (hu : ∃ i, r.fit.u i ≠ 0) (W : Matrix n n ℝ) :
    r.nn * jj r W = utu (rm x *ᵥ (W *ᵥ r.fit.predy)) / r.s2 + tr_t W := by
  have hs := s2_pos r hu
  obtain ⟨i, -⟩ := hu
  have : Nonempty n := ⟨i⟩
  have hn : r.nn ≠ 0 := by
    unfold Reg.nn; exact_mod_cast Fintype.card_ne_zero
  obtain ⟨hx, hr⟩ := reg_eq_some h
  have hrx : r.x = x := by rw [hr]
  have hxtxi : r.fit.xtxi = (xᵀ * x)⁻¹ := by rw [hr]; rfl
  rw [utu_eq_dot, rm_dot x hx]
  unfold jj
  simp only [hrx, hxtxi]
  have hs' := hs.ne'
  field_simp

/-! ### C17 -/

theorem sarma_algebra (a b t nj : ℝ) (ht : 0 < t) (hnj : t < nj) :
    (b - a) ^ 2 / (nj - t) + a ^ 2 / t
      = b ^ 2 / nj + (a - t * b / nj) ^ 2 / (t * (1 - t / nj)) := by
  have h1 : nj ≠ 0 := by linarith
  have h2 : nj - t ≠ 0 := by linarith
  have h3 : t ≠ 0 := ne_of_gt ht
  have h4 : 1 - t / nj = (nj - t) / nj := by field_simp
  rw [h4]
  field_simp
  ring

/-- C17: `LM_SARMA = LM_lag + robust LM_error = LM_error + robust LM_lag`, and the degrees of freedom add
up too. Hypotheses: the regression succeeded with a nonzero residual, `W` is not antisymmetric, and the
lag of the fitted values is not an exact linear combination of the regressors (otherwise a normaliser
vanishes and no statistic exists). -/
theorem C17_sarma [DecidableEq k] (x : Matrix n k ℝ) (y : n → ℝ) (r : Reg n k)
    (h : reg x y = some r) (W : Matrix n n ℝ) (hu : ∃ i, r.fit.u i ≠ 0)
    (hW : ∃ i j, W i j + W j i ≠ 0) (hx : ¬ ∃ v, W *ᵥ r.fit.predy = x *ᵥ v) :
    (lmSarma r W).stat = (lmLag r W).stat + (rlmErr r W).stat ∧
    (lmSarma r W).stat = (lmErr r W).stat + (rlmLag r W).stat ∧
    (lmSarma r W).df = (lmLag r W).df + (rlmErr r W).df ∧
    (lmSarma r W).df = (lmErr r W).df + (rlmLag r W).df := by
  classical
  obtain ⟨i, j, hij⟩ := hW
  have ht := tr_t_pos W i j hij
  have hs := s2_pos r hu
  have hnj : tr_t W < r.nn * jj r W := by
    rw [nj_eq x y r h hu W]
    have hx' := (reg_eq_some h).1
    have : 0 < utu (rm x *ᵥ (W *ᵥ r.fit.predy)) := by
      refine lt_of_le_of_ne (utu_nonneg _) fun h0 => hx ?_
      exact (rm_eq_zero x hx' _).1 ((utu_eq_zero _).1 h0.symm)
    have := div_pos this hs
    linarith
  refine ⟨?_, ?_, rfl, rfl⟩
  · exact sarma_algebra _ _ _ _ ht hnj
  · simp only [lmSarma, lmErr, rlmLag, Reg.nn]; ring

/-! ### C20 -/

/-- C20: every single-direction LM statistic is nonnegative for every fitted regression with a nonzero
residual and every weights matrix; LM-error vanishes exactly when `u'Wu = 0` (for a `W` that is not
antisymmetric). -/
theorem C20_nonneg [DecidableEq k] (x : Matrix n k ℝ) (y : n → ℝ) (r : Reg n k)
    (h : reg x y = some r) (W : Matrix n n ℝ) (hu : ∃ i, r.fit.u i ≠ 0) :
    0 ≤ (lmErr r W).stat ∧ 0 ≤ (lmLag r W).stat ∧ 0 ≤ (rlmErr r W).stat ∧ 0 ≤ (rlmLag r W).stat ∧
    0 ≤ (lmSarma r W).stat ∧
    ((∃ i j, W i j + W j i ≠ 0) →
      ((lmErr r W).stat = 0 ↔ ∑ i, ∑ j, r.fit.u i * W i j * r.fit.u j = 0)) := by
  classical
  have ht := tr_t_nonneg W
  have hs := s2_pos r hu
  have hnj : tr_t W ≤ r.nn * jj r W := by
    rw [nj_eq x y r h hu W]
    have := div_nonneg (utu_nonneg (rm x *ᵥ (W *ᵥ r.fit.predy))) hs.le
    linarith
  have h1 : 0 ≤ (lmErr r W).stat := div_nonneg (sq_nonneg _) ht
  have h4 : 0 ≤ (rlmLag r W).stat := div_nonneg (sq_nonneg _) (by linarith)
  refine ⟨h1, div_nonneg (sq_nonneg _) (by linarith), ?_, h4, ?_, ?_⟩
  · refine div_nonneg (sq_nonneg _) (mul_nonneg ht ?_)
    rcases eq_or_lt_of_le (le_trans ht hnj) with h0 | h0
    · rw [← h0]; simp
    · have := (div_le_one h0).2 hnj; linarith
  · have : (lmSarma r W).stat = (rlmLag r W).stat + (lmErr r W).stat := rfl
    rw [this]; linarith
  · rintro ⟨i, j, hij⟩
    have ht' := tr_t_pos W i j hij
    rw [quad_eq]
    unfold lmErr utwuDs wu
    simp only
    rw [div_eq_zero_iff, pow_eq_zero_iff two_ne_zero, div_eq_zero_iff]
    constructor
    · rintro ((h | h) | h)
      · exact h
      · exact absurd h hs.ne'
      · exact absurd h ht'.ne'
    · intro h; exact Or.inl (Or.inl h)

/-! ### C18 -/

/-- Cauchy-Schwarz for a positive semidefinite form. -/
theorem psd_cs {P : Matrix k k ℝ} (h : SymPSD P) (a b : k → ℝ) :
    (a ⬝ᵥ (P *ᵥ b)) ^ 2 ≤ (a ⬝ᵥ (P *ᵥ a)) * (b ⬝ᵥ (P *ᵥ b)) := by
  have hs : b ⬝ᵥ (P *ᵥ a) = a ⬝ᵥ (P *ᵥ b) := by
    rw [dotProduct_mulVec, ← mulVec_transpose, h.1, dotProduct_comm]
  have hq : ∀ t : ℝ, 0 ≤ (b ⬝ᵥ (P *ᵥ b)) * (t * t) + (2 * (a ⬝ᵥ (P *ᵥ b))) * t + a ⬝ᵥ (P *ᵥ a) := by
    intro t
    have := h.2 (a + t • b)
    rw [quad_eq] at this
    simp only [mulVec_add, mulVec_smul, add_dotProduct, dotProduct_add, smul_dotProduct,
      dotProduct_smul, smul_eq_mul, hs] at this
    linarith
  have := discrim_le_zero hq
  unfold discrim at this
  nlinarith

theorem psd_add {A B : Matrix k k ℝ} (hA : SymPSD A) (hB : SymPSD B) : SymPSD (A + B) := by
  refine ⟨by rw [transpose_add, hA.1, hB.1], fun v => ?_⟩
  have h1 := hA.2 v
  have h2 := hB.2 v
  rw [quad_eq] at *
  rw [add_mulVec, dotProduct_add]; linarith

/-- The matrix inverted by the Durbin test is a Gram matrix plus a nonnegative corner. -/
theorem spd_matrix [DecidableEq k] [DecidableEq n] (x : Matrix n k ℝ)
    (hx : IsUnit (xᵀ * x).det) (wxb : n → ℝ) (wx : Matrix n q ℝ) (c : ℝ) (s : ℝ) (hs : s ≠ 0)
    (J : Matrix (k ⊕ Unit) (k ⊕ Unit) ℝ)
    (hJ : fromBlocks (xᵀ * x) 0 0 (Matrix.of fun _ _ => s) * J = 1) :
    (fromBlocks (Matrix.of fun _ _ => wxb ⬝ᵥ wxb + c) (Matrix.of fun _ j => (wxb ᵥ* wx) j)
        (Matrix.of fun j _ => (wxb ᵥ* wx) j) (wxᵀ * wx) : Matrix (Unit ⊕ q) (Unit ⊕ q) ℝ)
      - ((fromBlocks (Matrix.of fun i _ => (xᵀ *ᵥ wxb) i) (xᵀ * wx) 0 0 :
          Matrix (k ⊕ Unit) (Unit ⊕ q) ℝ)ᵀ * J) *
        (fromBlocks (Matrix.of fun i _ => (xᵀ *ᵥ wxb) i) (xᵀ * wx) 0 0 :
          Matrix (k ⊕ Unit) (Unit ⊕ q) ℝ)
    = (rm x * fromCols (Matrix.of fun i (_ : Unit) => wxb i) wx)ᵀ
        * (rm x * fromCols (Matrix.of fun i (_ : Unit) => wxb i) wx)
      + fromBlocks (Matrix.of fun _ _ => c) 0 0 0 := by
  have hJ' : J = fromBlocks (xᵀ * x)⁻¹ 0 0 (Matrix.of fun _ _ => 1 / s) := by
    have h1 : fromBlocks (xᵀ * x)⁻¹ 0 0 (Matrix.of fun (_ _ : Unit) => 1 / s)
        * fromBlocks (xᵀ * x) 0 0 (Matrix.of fun (_ _ : Unit) => s) = 1 := by
      rw [fromBlocks_multiply]
      simp only [nonsing_inv_mul _ hx, Matrix.mul_zero, Matrix.zero_mul, add_zero, zero_add]
      rw [← fromBlocks_one]
      congr 1
      ext i j
      simp [mul_apply, hs]
    have h2 := congrArg (fun M => fromBlocks (xᵀ * x)⁻¹ 0 0 (Matrix.of fun (_ _ : Unit) => 1 / s) * M) hJ
    simp only [← Matrix.mul_assoc] at h2
    rw [h1, Matrix.one_mul, Matrix.mul_one] at h2
    exact h2
  rw [rm_cross x hx]
  set b : Matrix n Unit ℝ := Matrix.of fun i (_ : Unit) => wxb i with hb
  have e1 : (Matrix.of fun i (_ : Unit) => (xᵀ *ᵥ wxb) i) = xᵀ * b := by
    ext i j; simp [hb, mul_apply, mulVec, dotProduct]
  have e2 : (Matrix.of fun (_ : Unit) j => (wxb ᵥ* wx) j) = bᵀ * wx := by
    ext i j; simp [hb, mul_apply, vecMul, dotProduct]
  have e3 : (Matrix.of fun j (_ : Unit) => (wxb ᵥ* wx) j) = wxᵀ * b := by
    ext i j; simp [hb, mul_apply, vecMul, dotProduct, mul_comm]
  have e4 : (Matrix.of fun (_ _ : Unit) => wxb ⬝ᵥ wxb + c) = bᵀ * b + Matrix.of fun _ _ => c := by
    ext i j; simp [hb, mul_apply, dotProduct]
  rw [e1, e2, e3, e4, hJ']
  rw [transpose_fromCols, fromRows_mul_fromCols, fromRows_mul, mul_fromCols, fromRows_mul,
    fromRows_mul_fromCols]
  rw [fromBlocks_transpose, fromBlocks_multiply, fromBlocks_multiply]
  simp only [transpose_zero, Matrix.mul_zero, Matrix.zero_mul, add_zero, transpose_mul,
    transpose_transpose]
  rw [sub_add_eq_add_sub, fromBlocks_add]
  simp only [add_zero]

theorem psd_corner [DecidableEq q] (c : ℝ) (hc : 0 ≤ c) :
    SymPSD (fromBlocks (Matrix.of fun _ _ => c) 0 0 0 : Matrix (Unit ⊕ q) (Unit ⊕ q) ℝ) := by
  constructor
  · rw [fromBlocks_transpose]; simp; ext i j; rfl
  · intro v
    simp only [Fintype.sum_sum_type]
    simp
    nlinarith [mul_self_nonneg (v (Sum.inl ()))]

/-- C18: whenever the joint spatial Durbin statistic exists for a regression with nonzero residual, the
LM-WX statistic exists too, the two robust statistics are the differences from it, and both are
nonnegative. -/
theorem C18_robust_durbin [DecidableEq k] [DecidableEq q] (x : Matrix n k ℝ) (y : n → ℝ) (r : Reg n k)
    (h : reg x y = some r) (W : Matrix n n ℝ) (sel : q → k) (hu : ∃ i, r.fit.u i ≠ 0) (sd : Test)
    (hsd : lmSpDurbin r W sel = some sd) :
    ∃ wxt, lmWX r W sel = some wxt ∧
      (rlmWX r sd (lmLag r W)).stat + (lmLag r W).stat = sd.stat ∧
      (rlmDurlag sd wxt).stat + wxt.stat = sd.stat ∧
      0 ≤ (rlmWX r sd (lmLag r W)).stat ∧ 0 ≤ (rlmDurlag sd wxt).stat ∧
      0 ≤ wxt.stat ∧ 0 ≤ sd.stat := by
  classical
  have hs := s2_pos r hu
  have hnj := nj_eq x y r h hu W
  have hn : (0 : ℝ) < r.nn := by
    obtain ⟨i, -⟩ := hu
    have : Nonempty n := ⟨i⟩
    unfold Reg.nn; exact_mod_cast Fintype.card_pos
  obtain ⟨hx, hr⟩ := reg_eq_some h
  have hrx : r.x = x := by rw [hr]
  have hxtx : r.fit.xtx = xᵀ * x := by rw [hr]; rfl
  have hxtxi : r.fit.xtxi = (xᵀ * x)⁻¹ := by rw [hr]; rfl
  unfold lmSpDurbin at hsd
  simp only [hrx, hxtx] at hsd
  rw [Option.bind_eq_some_iff] at hsd
  obtain ⟨J, hJ, hsd⟩ := hsd
  rw [Option.map_eq_some_iff] at hsd
  obtain ⟨Pi_, hPi, rfl⟩ := hsd
  obtain ⟨-, -, hJ1, -⟩ := inv?_eq_some hJ
  have hne : r.nn / (2 * r.s2) ≠ 0 := by positivity
  set wx : Matrix n q ℝ := W * selCols r sel with hwx
  set wxb := W *ᵥ r.fit.predy with hwxb
  have hpp : ∑ i, (Wᵀ * W + W * W) i i = tr_t W := by
    unfold tr_t; rw [Matrix.add_mul]
  rw [hpp] at hPi
  rw [spd_matrix x hx wxb wx (tr_t W * r.s2) _ hne J hJ1] at hPi
  set B := rm x * fromCols (Matrix.of fun i (_ : Unit) => wxb i) wx with hB
  set P := Bᵀ * B + fromBlocks (Matrix.of fun _ _ => tr_t W * r.s2) 0 0 0 with hP
  have hpsd : SymPSD P :=
    psd_add (psd_gram B) (psd_corner _ (mul_nonneg (tr_t_nonneg W) hs.le))
  obtain ⟨hPu, -, hP1, -⟩ := inv?_eq_some hPi
  -- entries of P
  have hP11 : P (Sum.inl ()) (Sum.inl ()) = r.s2 * (r.nn * jj r W) := by
    rw [hnj, utu_eq_dot]
    have : P (Sum.inl ()) (Sum.inl ()) = (rm x *ᵥ wxb) ⬝ᵥ (rm x *ᵥ wxb) + tr_t W * r.s2 := by
      simp [hP, hB, mul_apply, dotProduct, mulVec]
    rw [this]; field_simp
  have hP22 : ∀ i j, P (Sum.inr i) (Sum.inr j) = (wxᵀ * wx - (wxᵀ * x * (xᵀ * x)⁻¹) * (wxᵀ * x)ᵀ) i j := by
    intro i j
    have e : (rm x * wx)ᵀ * (rm x * wx) = wxᵀ * wx - (wxᵀ * x * (xᵀ * x)⁻¹) * (wxᵀ * x)ᵀ := by
      rw [rm_cross x hx, transpose_mul wxᵀ x, transpose_transpose]
    rw [← e, hP, hB, mul_fromCols, transpose_fromCols, fromRows_mul_fromCols]
    simp
  set C := wxᵀ * wx - (wxᵀ * x * (xᵀ * x)⁻¹) * (wxᵀ * x)ᵀ with hC
  set dd : Unit ⊕ q → ℝ := Sum.elim (fun _ => (W *ᵥ r.y ⬝ᵥ r.fit.u) / r.s2)
    (fun j => (wxᵀ *ᵥ r.fit.u) j / r.s2) with hdd
  set yv := Pi_ *ᵥ dd with hyv
  have hPy : P *ᵥ yv = dd := by rw [hyv, mulVec_mulVec, hP1, one_mulVec]
  have hstat : dd ᵥ* (r.s2 • Pi_) ⬝ᵥ dd = r.s2 * (yv ⬝ᵥ (P *ᵥ yv)) := by
    rw [hPy, ← dotProduct_mulVec, smul_mulVec, dotProduct_smul, smul_eq_mul, dotProduct_comm]
  have hQ0 : 0 ≤ yv ⬝ᵥ (P *ᵥ yv) := by rw [← quad_eq]; exact hpsd.2 yv
  -- quadratic forms of vectors supported on the gamma block
  have hblock : ∀ (v : q → ℝ) (z : Unit ⊕ q → ℝ), (Sum.elim (fun _ => 0) v : Unit ⊕ q → ℝ) ⬝ᵥ z
      = v ⬝ᵥ (fun j => z (Sum.inr j)) := by
    intro v z; simp [dotProduct, Fintype.sum_sum_type]
  have hPblock : ∀ v : q → ℝ, (fun j => (P *ᵥ (Sum.elim (fun _ => 0) v : Unit ⊕ q → ℝ)) (Sum.inr j))
      = C *ᵥ v := by
    intro v; ext j
    simp only [mulVec, dotProduct, Fintype.sum_sum_type, Sum.elim_inl, Sum.elim_inr, mul_zero,
      Finset.sum_const_zero, zero_add, hP22]
  have hCu : IsUnit C.det := by
    rw [isUnit_iff_ne_zero, ne_eq, ← exists_mulVec_eq_zero_iff]
    rintro ⟨v, hv0, hv⟩
    apply hv0
    set w : Unit ⊕ q → ℝ := Sum.elim (fun _ => 0) v with hw
    have hww : w ⬝ᵥ (P *ᵥ w) = 0 := by rw [hw, hblock, hPblock, hv, dotProduct_zero]
    have hPw : P *ᵥ w = 0 := by
      have hcs := psd_cs hpsd (P *ᵥ w) w
      rw [hww, mul_zero] at hcs
      have : (P *ᵥ w) ⬝ᵥ (P *ᵥ w) = 0 := by nlinarith [sq_nonneg ((P *ᵥ w) ⬝ᵥ (P *ᵥ w))]
      exact dotProduct_self_eq_zero.1 this
    have hw0 : w = 0 := by
      by_contra hne
      have := (exists_mulVec_eq_zero_iff (M := P)).1 ⟨w, hne, hPw⟩
      exact (isUnit_iff_ne_zero.1 hPu) this
    ext j
    have := congrFun hw0 (Sum.inr j)
    simpa [hw] using this
  have hwxt : lmWX r W sel = some ⟨(((wxᵀ *ᵥ r.fit.u) ᵥ* C⁻¹) ⬝ᵥ (wxᵀ *ᵥ r.fit.u)) / r.s2,
      Fintype.card k - 1⟩ := by
    unfold lmWX
    simp only [hrx, hxtxi]
    rw [← hwx, ← hC, inv?_of_isUnit hCu]
    rfl
  -- the two inequalities
  have hlag : (lmLag r W).stat ≤ r.s2 * (yv ⬝ᵥ (P *ᵥ yv)) := by
    have hcs := psd_cs hpsd (Pi.single (Sum.inl ()) 1) yv
    rw [hPy] at hcs
    have e1 : (Pi.single (Sum.inl ()) (1 : ℝ) : Unit ⊕ q → ℝ) ⬝ᵥ dd = utwyDs r W := by
      simp [hdd, utwyDs, dotProduct_comm]
    have e2 : (Pi.single (Sum.inl ()) (1 : ℝ) : Unit ⊕ q → ℝ) ⬝ᵥ (P *ᵥ Pi.single (Sum.inl ()) 1)
        = r.s2 * (r.nn * jj r W) := by
      rw [mulVec_single]; simp [hP11]
    rw [e1, e2] at hcs
    have hnn : 0 ≤ r.nn * jj r W := by
      rw [hnj]; exact add_nonneg (div_nonneg (utu_nonneg _) hs.le) (tr_t_nonneg W)
    unfold lmLag
    simp only
    rcases eq_or_lt_of_le hnn with h0 | h0
    · rw [← h0, div_zero]; exact mul_nonneg hs.le hQ0
    · rw [div_le_iff₀ h0]
      rw [hPy]; nlinarith
  have hτ : r.s2 * ((fun j => dd (Sum.inr j)) ⬝ᵥ (C⁻¹ *ᵥ fun j => dd (Sum.inr j)))
      = (((wxᵀ *ᵥ r.fit.u) ᵥ* C⁻¹) ⬝ᵥ (wxᵀ *ᵥ r.fit.u)) / r.s2 := by
    have : (fun j => dd (Sum.inr j)) = (1 / r.s2) • (wxᵀ *ᵥ r.fit.u) := by
      ext j; simp [hdd]; ring
    rw [this, mulVec_smul, dotProduct_smul, smul_dotProduct, ← dotProduct_mulVec, smul_eq_mul, smul_eq_mul]
    field_simp
  set dg : q → ℝ := fun j => dd (Sum.inr j) with hdg
  have hτ0 : 0 ≤ dg ⬝ᵥ (C⁻¹ *ᵥ dg) ∧ dg ⬝ᵥ (C⁻¹ *ᵥ dg) ≤ yv ⬝ᵥ (P *ᵥ yv) := by
    set cv := C⁻¹ *ᵥ dg with hcv
    have hCc : C *ᵥ cv = dg := by rw [hcv, mulVec_mulVec, mul_nonsing_inv _ hCu, one_mulVec]
    have e1 : (Sum.elim (fun _ => 0) cv : Unit ⊕ q → ℝ) ⬝ᵥ (P *ᵥ (Sum.elim (fun _ => 0) cv : Unit ⊕ q → ℝ))
        = dg ⬝ᵥ cv := by rw [hblock, hPblock, hCc, dotProduct_comm]
    have e2 : (Sum.elim (fun _ => 0) cv : Unit ⊕ q → ℝ) ⬝ᵥ (P *ᵥ yv) = dg ⬝ᵥ cv := by
      rw [hPy, hblock, dotProduct_comm]
    have hcs := psd_cs hpsd (Sum.elim (fun _ => 0) cv : Unit ⊕ q → ℝ) yv
    have h0 := hpsd.2 (Sum.elim (fun _ => 0) cv : Unit ⊕ q → ℝ)
    rw [quad_eq, e1] at h0
    rw [e1, e2] at hcs
    refine ⟨h0, ?_⟩
    rcases eq_or_lt_of_le h0 with h1 | h1
    · rw [← h1]; exact hQ0
    · nlinarith
  refine ⟨_, hwxt, by simp [rlmWX], by simp [rlmDurlag], ?_, ?_, ?_, ?_⟩
  · simp only [rlmWX]; rw [hstat]; linarith
  · simp only [rlmDurlag]; rw [hstat, ← hτ]; nlinarith [hτ0.2]
  · simp only; rw [← hτ]; exact mul_nonneg hs.le hτ0.1
  · simp only; rw [hstat]; exact mul_nonneg hs.le hQ0

/-- C18: in the ordinary design (a constant plus the `q` regressors whose spatial lags are tested) every
Durbin statistic is referred to a chi-square with exactly as many degrees of freedom as coefficients
tested: `q` for WX and robust WX, `q + 1` for the joint Durbin and the joint SLX-error statistic, one for
the robust lag; and the SLX-error statistic is the sum of its two parts. -/
theorem C18_df [DecidableEq k] [DecidableEq q] (r : Reg n k) (W : Matrix n n ℝ) (sel : q → k)
    (hk : Fintype.card k = Fintype.card q + 1) :
    (∀ t, lmWX r W sel = some t → t.df = Fintype.card q) ∧
    (∀ t, lmSpDurbin r W sel = some t → t.df = Fintype.card q + 1) ∧
    (∀ sd lag, (rlmWX r sd lag).df = Fintype.card q) ∧
    (∀ sd t, (rlmDurlag sd t).df = 1) ∧
    (∀ e t, (lmSlxErr r e t).df = Fintype.card q + 1 ∧ (lmSlxErr r e t).stat = e.stat + t.stat) := by
  refine ⟨?_, ?_, ?_, fun _ _ => rfl, fun _ _ => ⟨hk, rfl⟩⟩
  · intro t ht
    unfold lmWX at ht
    rw [Option.map_eq_some_iff] at ht
    obtain ⟨_, -, rfl⟩ := ht
    simp only; omega
  · intro t ht
    unfold lmSpDurbin at ht
    rw [Option.bind_eq_some_iff] at ht
    obtain ⟨_, -, ht⟩ := ht
    rw [Option.map_eq_some_iff] at ht
    obtain ⟨_, -, rfl⟩ := ht
    exact hk
  · intro sd lag
    simp only [rlmWX]; omega

/-- C18, outside the ordinary design: if a spatial lag that is to be tested is already a combination of the
regressors (in particular for a regression that already contains the lags, an SLX model), the LM-WX
statistic does not exist: `la.inv` is applied to a singular matrix and the call raises. `spsearch` calls
`LMtests` with all tests on such an SLX model. -/
theorem C18_slx_violated [DecidableEq k] [DecidableEq q] (x : Matrix n k ℝ) (y : n → ℝ) (r : Reg n k)
    (h : reg x y = some r) (W : Matrix n n ℝ) (sel : q → k) (j0 : q)
    (b : k → ℝ) (hb : ∀ i, ∑ l, W i l * x l (sel j0) = ∑ j, x i j * b j) :
    lmWX r W sel = none := by
  obtain ⟨hx, hr⟩ := reg_eq_some h
  have hrx : r.x = x := by rw [hr]
  have hxtxi : r.fit.xtxi = (xᵀ * x)⁻¹ := by rw [hr]; rfl
  unfold lmWX
  simp only [hrx, hxtxi]
  set wx : Matrix n q ℝ := W * selCols r sel with hwx
  have hcol : wx *ᵥ Pi.single j0 1 = x *ᵥ b := by
    ext i
    rw [mulVec_single_one]
    simp only [hwx, selCols, hrx, mul_apply, submatrix_apply, id_eq, mulVec, dotProduct, col_apply]
    exact hb i
  clear_value wx
  have hz : (wxᵀ * wx - ((wxᵀ * x) * (xᵀ * x)⁻¹) * (wxᵀ * x)ᵀ) *ᵥ Pi.single j0 1 = 0 := by
    have e1 : (wxᵀ * x)ᵀ *ᵥ Pi.single j0 1 = (xᵀ * x) *ᵥ b := by
      rw [transpose_mul, transpose_transpose, ← mulVec_mulVec, hcol, mulVec_mulVec]
    rw [sub_mulVec, ← mulVec_mulVec, hcol, ← mulVec_mulVec (Pi.single j0 1), e1,
      ← mulVec_mulVec _ (wxᵀ * x), mulVec_mulVec _ (xᵀ * x)⁻¹, nonsing_inv_mul _ hx, one_mulVec,
      ← mulVec_mulVec, sub_self]
  have hni : inv? (wxᵀ * wx - ((wxᵀ * x) * (xᵀ * x)⁻¹) * (wxᵀ * x)ᵀ) = none := by
    cases hi : inv? (wxᵀ * wx - ((wxᵀ * x) * (xᵀ * x)⁻¹) * (wxᵀ * x)ᵀ) with
    | none => rfl
    | some J =>
      exfalso
      obtain ⟨-, -, -, hJ⟩ := inv?_eq_some hi
      have h2 := congrArg (fun v => J *ᵥ v) hz
      simp only [mulVec_mulVec, hJ, one_mulVec, mulVec_zero] at h2
      have := congrFun h2 j0
      simp at this
  rw [hni]; rfl

/-- C18: the Durbin statistics exist whenever the residual is nonzero, `W` is not antisymmetric and the
regressors together with their lags are linearly independent. -/
theorem C18_exists [DecidableEq k] [DecidableEq q] (x : Matrix n k ℝ) (y : n → ℝ) (r : Reg n k)
    (h : reg x y = some r) (W : Matrix n n ℝ) (sel : q → k) (hu : ∃ i, r.fit.u i ≠ 0)
    (hW : ∃ i j, W i j + W j i ≠ 0)
    (hind : ∀ (a : k → ℝ) (b : q → ℝ),
      (∀ i, ∑ j, x i j * a j + ∑ j, (∑ l, W i l * x l (sel j)) * b j = 0) → b = 0) :
    ∃ sd, lmSpDurbin r W sel = some sd := by
  classical
  have hs := s2_pos r hu
  obtain ⟨i0, j0, hij⟩ := hW
  have ht := tr_t_pos W i0 j0 hij
  have hn : (0 : ℝ) < r.nn := by
    obtain ⟨i, -⟩ := hu
    have : Nonempty n := ⟨i⟩
    unfold Reg.nn; exact_mod_cast Fintype.card_pos
  obtain ⟨hx, hr⟩ := reg_eq_some h
  have hrx : r.x = x := by rw [hr]
  have hxtx : r.fit.xtx = xᵀ * x := by rw [hr]; rfl
  have hne : r.nn / (2 * r.s2) ≠ 0 := by positivity
  have hJ1 : fromBlocks (xᵀ * x) 0 0 (Matrix.of fun (_ _ : Unit) => r.nn / (2 * r.s2))
      * fromBlocks (xᵀ * x)⁻¹ 0 0 (Matrix.of fun (_ _ : Unit) => 1 / (r.nn / (2 * r.s2))) = 1 := by
    rw [fromBlocks_multiply]
    simp only [mul_nonsing_inv _ hx, Matrix.mul_zero, Matrix.zero_mul, add_zero, zero_add]
    rw [← fromBlocks_one]
    congr 1
    ext i j
    simp only [mul_apply, of_apply, Finset.univ_unique, Finset.sum_singleton, one_apply,
      if_true]
    field_simp
  have hJu := Matrix.isUnit_det_of_right_inverse hJ1
  unfold lmSpDurbin
  simp only [hrx, hxtx]
  rw [inv?_of_isUnit hJu, Option.bind_some]
  have hpp : ∑ i, (Wᵀ * W + W * W) i i = tr_t W := by
    unfold tr_t; rw [Matrix.add_mul]
  rw [hpp]
  rw [spd_matrix x hx (W *ᵥ r.fit.predy) (W * selCols r sel) (tr_t W * r.s2) _ hne _
    (mul_nonsing_inv _ hJu)]
  rw [inv?_of_isUnit, Option.map_some]
  · exact ⟨_, rfl⟩
  · set wx : Matrix n q ℝ := W * selCols r sel with hwx
    set wxb := W *ᵥ r.fit.predy with hwxb
    rw [isUnit_iff_ne_zero, ne_eq, ← exists_mulVec_eq_zero_iff]
    rintro ⟨v, hv0, hv⟩
    apply hv0
    have hq : v ⬝ᵥ (((rm x * fromCols (Matrix.of fun i (_ : Unit) => wxb i) wx)ᵀ
        * (rm x * fromCols (Matrix.of fun i (_ : Unit) => wxb i) wx)
      + fromBlocks (Matrix.of fun _ _ => tr_t W * r.s2) 0 0 0) *ᵥ v) = 0 := by
      rw [hv, dotProduct_zero]
    rw [add_mulVec, dotProduct_add, ← mulVec_mulVec, dotProduct_mulVec, vecMul_transpose,
      ← utu_eq_dot] at hq
    have hc : v ⬝ᵥ ((fromBlocks (Matrix.of fun _ _ => tr_t W * r.s2) 0 0 0 :
        Matrix (Unit ⊕ q) (Unit ⊕ q) ℝ) *ᵥ v) = tr_t W * r.s2 * v (Sum.inl ()) ^ 2 := by
      simp [dotProduct, mulVec, Fintype.sum_sum_type]; ring
    rw [hc] at hq
    have h1 := utu_nonneg ((rm x * fromCols (Matrix.of fun i (_ : Unit) => wxb i) wx) *ᵥ v)
    have hts : 0 < tr_t W * r.s2 := mul_pos ht hs
    have hv1 : v (Sum.inl ()) = 0 := by
      have h2 : tr_t W * r.s2 * v (Sum.inl ()) ^ 2 ≤ 0 := by linarith
      by_contra hne
      have : 0 < v (Sum.inl ()) ^ 2 := by positivity
      nlinarith
    rw [hv1] at hq
    have h3 : (rm x * fromCols (Matrix.of fun i (_ : Unit) => wxb i) wx) *ᵥ v = 0 := by
      rw [← utu_eq_zero]; linarith
    have h4 : rm x *ᵥ (wx *ᵥ fun j => v (Sum.inr j)) = 0 := by
      rw [← h3, ← mulVec_mulVec v (rm x)]
      refine congrArg (fun z => rm x *ᵥ z) ?_
      ext i
      simp [mulVec, dotProduct, Fintype.sum_sum_type, hv1]
    obtain ⟨a, ha⟩ := (rm_eq_zero x hx _).1 h4
    have hb := hind (-a) (fun j => v (Sum.inr j)) (by
      intro i
      have := congrFun ha i
      simp only [mulVec, dotProduct] at this
      have e : ∀ j, wx i j = ∑ l, W i l * x l (sel j) := by
        intro j; rw [hwx, mul_apply]; simp [selCols, hrx]
      simp only [e] at this
      rw [this]; simp)
    ext s
    rcases s with s | s
    · exact hv1
    · exact congrFun hb s

/-- Non-vacuity for C17 and C18: three units on a path (binary weights), `exX`, `exY` of the OLS example,
testing the lag of the second regressor. -/
theorem exDurbin : ∃ r, reg exX exY = some r ∧ (∃ i, r.fit.u i ≠ 0) ∧
    (¬ ∃ v, (!![0, 1, 0; 1, 0, 1; 0, 1, 0] : Matrix (Fin 3) (Fin 3) ℝ) *ᵥ r.fit.predy = exX *ᵥ v) ∧
    (∃ sd, lmSpDurbin r !![0, 1, 0; 1, 0, 1; 0, 1, 0] (fun _ : Fin 1 => (1 : Fin 2)) = some sd) := by
  have hr : reg exX exY = some ⟨exX, exY, olsWith exX exY (exXᵀ * exX)⁻¹⟩ := by
    unfold reg; rw [ols_of_isUnit _ _ exX_isUnit]; rfl
  have hu : ∃ i, (olsWith exX exY (exXᵀ * exX)⁻¹).u i ≠ 0 := by
    by_contra hc
    push Not at hc
    have hd := (C06_decomposition exX exY _ (ols_of_isUnit _ _ exX_isUnit))
    have h0 : ∀ i, exY i = ∑ j, exX i j * (olsWith exX exY (exXᵀ * exX)⁻¹).betas j := by
      intro i; rw [← hd.2.1, hd.1 i, hc i, add_zero]
    have a := h0 0
    have b := h0 1
    have c := h0 2
    simp [exX, exY, Fin.sum_univ_two] at a b c
    linarith
  have hlag : ¬ ∃ v, (!![0, 1, 0; 1, 0, 1; 0, 1, 0] : Matrix (Fin 3) (Fin 3) ℝ) *ᵥ
      (olsWith exX exY (exXᵀ * exX)⁻¹).predy = exX *ᵥ v := by
    rintro ⟨v, hv⟩
    have hn := congrFun (normal_eq exX exY exX_isUnit) 0
    have hd := (C06_decomposition exX exY _ (ols_of_isUnit _ _ exX_isUnit))
    have hp0 := hd.2.1 0
    have hp1 := hd.2.1 1
    have hp2 := hd.2.1 2
    have hy0 := hd.1 0
    have hy1 := hd.1 1
    have hy2 := hd.1 2
    have a := congrFun hv 0
    have b := congrFun hv 1
    have c := congrFun hv 2
    simp [exX, exY, mulVec, dotProduct, Fin.sum_univ_two, Fin.sum_univ_three] at hp0 hp1 hp2 hy0 hy1 hy2 a b c hn
    linarith
  refine ⟨_, hr, hu, hlag, C18_exists exX exY _ hr _ _ hu ⟨0, 1, by simp⟩ ?_⟩
  intro a b hab
  have h0 := hab 0
  have h1 := hab 1
  have h2 := hab 2
  simp [exX, Fin.sum_univ_two, Fin.sum_univ_three] at h0 h1 h2
  ext i
  fin_cases i
  simp
  linarith

/-! ### C19 -/

/-- C19: rescaling the dependent variable by any nonzero constant changes none of the statistics. -/
theorem C19_unit_free [DecidableEq k] [DecidableEq q] (x : Matrix n k ℝ) (y : n → ℝ) (r : Reg n k)
    (h : reg x y = some r) (W : Matrix n n ℝ) (sel : q → k) (c : ℝ) (hc : c ≠ 0) :
    ∃ r', reg x (c • y) = some r' ∧
      lmErr r' W = lmErr r W ∧ lmLag r' W = lmLag r W ∧ rlmErr r' W = rlmErr r W ∧
      rlmLag r' W = rlmLag r W ∧ lmSarma r' W = lmSarma r W ∧ lmWX r' W sel = lmWX r W sel ∧
      mI r' W = mI r W ∧ eI r' W = eI r W ∧ vI r' W = vI r W := by
  obtain ⟨hx, hr⟩ := reg_eq_some h
  refine ⟨⟨x, c • y, olsWith x (c • y) (xᵀ * x)⁻¹⟩, ?_, ?_⟩
  · unfold reg; rw [ols_of_isUnit _ _ hx]; rfl
  set r' : Reg n k := ⟨x, c • y, olsWith x (c • y) (xᵀ * x)⁻¹⟩ with hr'
  have hp : r'.fit.predy = c • r.fit.predy := by
    rw [hr]; simp [hr', olsWith, mulVec_smul]
  have hu : r'.fit.u = c • r.fit.u := by
    rw [hr]; simp [hr', olsWith, mulVec_smul, smul_sub]
  have hy : r'.y = c • r.y := by rw [hr]
  have hxx : r'.x = r.x := by rw [hr]
  have hi : r'.fit.xtxi = r.fit.xtxi := by rw [hr]; rfl
  have hutu : utu r'.fit.u = c ^ 2 * utu r.fit.u := by
    rw [hu]; simp [utu, mul_pow, Finset.mul_sum]
  have hs : r'.s2 = c ^ 2 * r.s2 := by
    unfold Reg.s2 sig2n; rw [hutu]; ring
  have hcc : c ^ 2 ≠ 0 := pow_ne_zero _ hc
  have e1 : utwuDs r' W = utwuDs r W := by
    unfold utwuDs wu
    rw [hs, hu, mulVec_smul, dotProduct_smul, smul_dotProduct, smul_eq_mul, smul_eq_mul,
      ← mul_assoc, ← pow_two, mul_div_mul_left _ _ hcc]
  have e2 : utwyDs r' W = utwyDs r W := by
    unfold utwyDs
    rw [hs, hu, hy, mulVec_smul, dotProduct_smul, smul_dotProduct, smul_eq_mul, smul_eq_mul,
      ← mul_assoc, ← pow_two, mul_div_mul_left _ _ hcc]
  have e3 : jj r' W = jj r W := by
    unfold jj
    have : r'.nn = r.nn := rfl
    simp only [hs, hp, hxx, hi, mulVec_smul, dotProduct_smul, smul_dotProduct, smul_eq_mul, this]
    have e : c * (c * (W *ᵥ r.fit.predy ⬝ᵥ W *ᵥ r.fit.predy))
        - c * (c * (r.xᵀ *ᵥ W *ᵥ r.fit.predy ⬝ᵥ r.fit.xtxi *ᵥ r.xᵀ *ᵥ W *ᵥ r.fit.predy))
        + tr_t W * (c ^ 2 * r.s2) = c ^ 2 * ((W *ᵥ r.fit.predy ⬝ᵥ W *ᵥ r.fit.predy)
        - (r.xᵀ *ᵥ W *ᵥ r.fit.predy ⬝ᵥ r.fit.xtxi *ᵥ r.xᵀ *ᵥ W *ᵥ r.fit.predy) + tr_t W * r.s2) := by
      ring
    rw [e, show r.nn * (c ^ 2 * r.s2) = c ^ 2 * (r.nn * r.s2) by ring, mul_div_mul_left _ _ hcc]
  have hn : r'.nn = r.nn := rfl
  refine ⟨?_, ?_, ?_, ?_, ?_, ?_, ?_, ?_, ?_⟩
  · unfold lmErr; rw [e1]
  · unfold lmLag; rw [e2, e3, hn]
  · unfold rlmErr; rw [e1, e2, e3, hn]
  · unfold rlmLag; rw [e1, e2, e3, hn]
  · unfold lmSarma; rw [e1, e2, e3]
  · unfold lmWX selCols
    simp only [hs, hu, hxx, hi, mulVec_smul, smul_vecMul, dotProduct_smul, smul_dotProduct,
      smul_eq_mul, ← mul_assoc]
    simp only [← pow_two, mul_div_mul_left _ _ hcc]
  · unfold mI wu
    rw [hutu, hu, mulVec_smul, dotProduct_smul, smul_dotProduct, smul_eq_mul, smul_eq_mul,
      show (Fintype.card n : ℝ) * (c * (c * (r.fit.u ⬝ᵥ W *ᵥ r.fit.u)))
        = c ^ 2 * ((Fintype.card n : ℝ) * (r.fit.u ⬝ᵥ W *ᵥ r.fit.u)) by ring,
      show s0 W * (c ^ 2 * utu r.fit.u) = c ^ 2 * (s0 W * utu r.fit.u) by ring,
      mul_div_mul_left _ _ hcc]
  · unfold eI trA; rw [hxx, hi]
  · unfold vI trA AB; rw [hxx, hi]

/-! ### C20, Anselin-Kelejian test -/

/-- C20: the Anselin-Kelejian statistic is nonnegative when the coefficient variance matrix is positive
semidefinite. -/
theorem C20_ak (u : n → ℝ) (z : Matrix n k ℝ) (varb : Matrix k k ℝ) (hv : SymPSD varb)
    (W : Matrix n n ℝ) : 0 ≤ akTest u z varb W := by
  unfold akTest
  have ha : 0 ≤ (u ᵥ* (W * z)) ⬝ᵥ (varb *ᵥ (u ᵥ* (W * z))) := by
    rw [← quad_eq]; exact hv.2 _
  have hs : 0 ≤ sig2n u := div_nonneg (utu_nonneg u) (by positivity)
  have ht := tr_t_nonneg W
  refine div_nonneg (mul_nonneg (by positivity) (sq_nonneg _)) ?_
  refine div_nonneg (add_nonneg ht (mul_nonneg (div_nonneg (by norm_num) hs) ha)) ?_
  exact mul_nonneg (sq_nonneg _) (by positivity)

/-! ### C58: common factor test -/

theorem psd_inv {A B : Matrix k k ℝ} [DecidableEq k] (h : SymPSD A) (hAB : A * B = 1) (g : k → ℝ) :
    0 ≤ g ⬝ᵥ (B *ᵥ g) ∧ (g ⬝ᵥ (B *ᵥ g) = 0 ↔ g = 0) := by
  have hg : A *ᵥ (B *ᵥ g) = g := by rw [mulVec_mulVec, hAB, one_mulVec]
  have e : g ⬝ᵥ (B *ᵥ g) = (B *ᵥ g) ⬝ᵥ (A *ᵥ (B *ᵥ g)) := by rw [hg, dotProduct_comm]
  refine ⟨?_, ?_, ?_⟩
  · rw [e, ← quad_eq]; exact h.2 _
  · intro h0
    have hcs := psd_cs h (A *ᵥ (B *ᵥ g)) (B *ᵥ g)
    rw [← e, h0, mul_zero] at hcs
    rw [hg] at hcs
    have : g ⬝ᵥ g = 0 := by nlinarith [sq_nonneg (g ⬝ᵥ g)]
    exact dotProduct_self_eq_zero.1 this
  · rintro rfl; simp

/-- C58: for a positive semidefinite variance the common factor statistic, whenever it exists, is
nonnegative, is zero exactly under the restriction `gamma = -rho*beta`, and has one degree of freedom per
restriction. -/
theorem C58_comfac [DecidableEq k] (rho : ℝ) (beta gamma : k → ℝ)
    (vm : Matrix ((k ⊕ k) ⊕ Unit) ((k ⊕ k) ⊕ Unit) ℝ) (hv : SymPSD vm) (t : Test)
    (h : comfac rho beta gamma vm = some t) :
    0 ≤ t.stat ∧ (t.stat = 0 ↔ ∀ j, gamma j = -rho * beta j) ∧ t.df = Fintype.card k := by
  unfold comfac at h
  rw [Option.map_eq_some_iff] at h
  obtain ⟨B, hB, rfl⟩ := h
  obtain ⟨-, -, hAB, -⟩ := inv?_eq_some hB
  have hp := psd_conj hv (fromRows (fromRows (rho • (1 : Matrix k k ℝ)) 1)
    (Matrix.of fun (_ : Unit) j => beta j))ᵀ
  rw [transpose_transpose] at hp
  obtain ⟨h1, h2⟩ := psd_inv hp hAB (rho • beta + gamma)
  refine ⟨h1, ?_, rfl⟩
  rw [h2]
  constructor
  · intro h j
    have := congrFun h j
    simp at this
    linarith
  · intro h
    ext j
    simp [h j]

/-- C58: the statistic is the Wald statistic of the restrictions `rho * beta_j + gamma_j = 0` with their delta-method covariances,
written out. -/
theorem C58_wald [DecidableEq k] (rho : ℝ) (beta gamma : k → ℝ) (vm : Matrix ((k ⊕ k) ⊕ Unit) ((k ⊕ k) ⊕ Unit) ℝ) (t : Test)
    (h : comfac rho beta gamma vm = some t) :
    let b : k → (k ⊕ k) ⊕ Unit := fun i => .inl (.inl i)
    let g : k → (k ⊕ k) ⊕ Unit := fun i => .inl (.inr i)
    let r : (k ⊕ k) ⊕ Unit := .inr ()
    let cov : Matrix k k ℝ := Matrix.of fun i j =>
      rho ^ 2 * vm (b i) (b j) + rho * vm (b i) (g j) + rho * vm (g i) (b j) + vm (g i) (g j) +
        beta j * (rho * vm (b i) r + vm (g i) r) + beta i * (rho * vm r (b j) + vm r (g j)) + beta i * beta j * vm r r
    IsUnit cov.det ∧ t.df = Fintype.card k ∧
      t.stat = (fun j => rho * beta j + gamma j) ⬝ᵥ (cov⁻¹ *ᵥ fun j => rho * beta j + gamma j) := by
  intro b g r cov
  unfold comfac at h
  rw [Option.map_eq_some_iff] at h
  obtain ⟨B, hB, rfl⟩ := h
  obtain ⟨hu, hi, -⟩ := inv?_eq_some hB
  have e : (fromRows (fromRows (rho • (1 : Matrix k k ℝ)) 1) (Matrix.of fun (_ : Unit) j => beta j))ᵀ *
      (vm * fromRows (fromRows (rho • (1 : Matrix k k ℝ)) 1) (Matrix.of fun (_ : Unit) j => beta j)) = cov := by
    ext i j
    simp only [mul_apply, Fintype.sum_sum_type, transpose_apply, fromRows_apply_inl, fromRows_apply_inr, Matrix.smul_apply,
      one_apply, of_apply, smul_eq_mul, mul_ite, mul_one, mul_zero, ite_mul, zero_mul, one_mul, Finset.sum_ite_eq',
      Finset.sum_ite_eq, Finset.mem_univ, if_true, Finset.univ_unique, Finset.sum_singleton, cov, b, g, r]
    simp only [PUnit.default_eq_unit]
    ring
  rw [e] at hu hi
  refine ⟨hu, rfl, ?_⟩
  simp only [hi]
  rfl

/-- C58: the matrix `G` used by the test is the transposed Jacobian of the restriction
`rho*beta + gamma` with respect to (beta, gamma, rho): the remainder of the linear approximation is the
product of the increments. -/
theorem C58_jacobian [DecidableEq k] (rho drho : ℝ) (beta gamma db dg : k → ℝ) :
    ((rho + drho) • (beta + db) + (gamma + dg)) - (rho • beta + gamma)
      - (fromRows (fromRows (rho • (1 : Matrix k k ℝ)) 1)
          (Matrix.of fun (_ : Unit) j => beta j))ᵀ *ᵥ (Sum.elim (Sum.elim db dg) fun _ => drho)
      = drho • db := by
  ext j
  simp [mulVec, dotProduct, Fintype.sum_sum_type, Matrix.one_apply]
  ring

/-- Non-vacuity for C58: one coefficient, unit variance. -/
example : ∃ t, comfac (1/2) ![1] ![3] (1 : Matrix ((Fin 1 ⊕ Fin 1) ⊕ Unit) _ ℝ) = some t := by
  unfold comfac
  simp only [Matrix.one_mul]
  rw [inv?_of_isUnit]
  · exact ⟨_, rfl⟩
  · rw [isUnit_iff_ne_zero, det_fin_one]
    simp [mul_apply, Fintype.sum_sum_type]
    norm_num

/-! ### C59: which statistics are produced -/

theorem stepAttr_ok (c : Bool) (deps : List TestName) (nm : TestName) (a : List TestName)
    (h : c = true → ∀ d ∈ deps, d ∈ a) :
    stepAttr c deps nm a = some (a ++ if c then [nm] else []) := by
  unfold stepAttr need
  cases c
  · simp
  · have := h rfl
    simp only [if_true]
    rw [if_pos]
    · rfl
    · simpa using this

open TestName in
/-- C59: for every list of requested tests (also the default "all") the object is built without an
attribute error, and it holds exactly the requested statistics and those a requested one is computed
from, each once. -/
theorem C59_lmtests (arg : TestsArg) :
    ∃ attrs, lmtestsAttrs arg = some attrs ∧ attrs.Nodup ∧
      ∀ t, t ∈ attrs ↔ t ∈ expand arg ∨
        (t = lme ∧ lmslxerr ∈ expand arg) ∨ (t = lml ∧ rlmwx ∈ expand arg) ∨
        (t = lmwx ∧ (rlmdurlag ∈ expand arg ∨ lmslxerr ∈ expand arg)) ∨
        (t = lmspdurbin ∧ (rlmdurlag ∈ expand arg ∨ rlmwx ∈ expand arg)) := by
  unfold lmtestsAttrs
  simp only
  set T := expand arg
  rw [stepAttr_ok _ _ _ _ (by simp), Option.bind_some, stepAttr_ok _ _ _ _ (by simp), Option.bind_some,
    stepAttr_ok _ _ _ _ (by simp), Option.bind_some, stepAttr_ok _ _ _ _ (by simp), Option.bind_some,
    stepAttr_ok _ _ _ _ (by simp), Option.bind_some, stepAttr_ok _ _ _ _ (by simp), Option.bind_some,
    stepAttr_ok _ _ _ _ (by simp), Option.bind_some]
  rw [stepAttr_ok, Option.bind_some, stepAttr_ok, Option.bind_some, stepAttr_ok]
  · refine ⟨_, rfl, ?_, ?_⟩
    · generalize (T.any fun x => decide (x ∈ [lme, lmslxerr])) = b1
      generalize (T.any fun x => decide (x ∈ [lml, rlmwx])) = b2
      generalize (T.any fun x => decide (x ∈ [lmwx, rlmdurlag, lmslxerr])) = b3
      generalize (T.any fun x => decide (x ∈ [lmspdurbin, rlmdurlag, rlmwx])) = b4
      have hsub : List.Sublist
        ([] ++ (if b1 = true then [lme] else []) ++ (if b2 = true then [lml] else [])
          ++ (if decide (rlme ∈ T) = true then [rlme] else [])
          ++ (if decide (rlml ∈ T) = true then [rlml] else [])
          ++ (if decide (sarma ∈ T) = true then [sarma] else [])
          ++ (if b3 = true then [lmwx] else []) ++ (if b4 = true then [lmspdurbin] else [])
          ++ (if decide (rlmwx ∈ T) = true then [rlmwx] else [])
          ++ (if decide (rlmdurlag ∈ T) = true then [rlmdurlag] else [])
          ++ (if decide (lmslxerr ∈ T) = true then [lmslxerr] else []))
        ([] ++ [lme] ++ [lml] ++ [rlme] ++ [rlml] ++ [sarma] ++ [lmwx] ++ [lmspdurbin] ++ [rlmwx]
          ++ [rlmdurlag] ++ [lmslxerr]) := by
        have hi : ∀ (p : Prop) [Decidable p] (t : TestName),
            List.Sublist (if p then [t] else []) [t] := by
          intro p _ t; split
          · exact List.Sublist.refl _
          · exact List.nil_sublist _
        repeat' apply List.Sublist.append
        all_goals first | exact hi _ _ | exact List.Sublist.refl _
      exact hsub.nodup (by decide)
    · intro t
      cases t <;> simp [and_or_left, exists_or] <;> tauto
  · intro h; simp at h; simp [h, and_or_left, exists_or]
  · intro h; simp at h; simp [h, and_or_left, exists_or]
  · intro h; simp at h; simp [h, and_or_left, exists_or]

/-! ### C60: moments of Moran's I of residuals -/

theorem trace_split (P S : Matrix n n ℝ) [DecidableEq n] :
    trace ((1 - P) * S * ((1 - P) * S)) = trace (S * S) - 2 * trace (P * (S * S)) + trace (P * S * (P * S)) := by
  have e : (1 - P) * S * ((1 - P) * S) = S * S - P * (S * S) - S * (P * S) + P * S * (P * S) := by
    simp only [Matrix.sub_mul, Matrix.one_mul, Matrix.mul_sub, Matrix.mul_assoc]; abel
  rw [e, trace_add, trace_sub, trace_sub]
  have : trace (S * (P * S)) = trace (P * (S * S)) := by
    rw [trace_mul_comm, Matrix.mul_assoc]
  rw [this]; ring

/-- C60: for a weights matrix with zero diagonal the reported expectation and variance of Moran's I are
the Cliff-Ord moments: with `M = I - x(x'x)^{-1}x'`, `E[I] = (n/s0) tr(MW)/(n-k)` and
`V[I] = (n/s0)^2 (tr(MWMW') + tr(MWMW) + tr(MW)^2)/((n-k)(n-k+2)) - E[I]^2`. -/
theorem C60_moran_moments [DecidableEq k] [DecidableEq n] (x : Matrix n k ℝ) (y : n → ℝ) (r : Reg n k)
    (h : reg x y = some r) (W : Matrix n n ℝ) (hd : ∀ i, W i i = 0)
    (hk : Fintype.card k < Fintype.card n) :
    let M : Matrix n n ℝ := 1 - x * (xᵀ * x)⁻¹ * xᵀ
    let nn : ℝ := Fintype.card n
    let kk : ℝ := Fintype.card k
    let S0 : ℝ := ∑ i, ∑ j, W i j
    eI r W = nn / S0 * (trace (M * W) / (nn - kk)) ∧
    vI r W = (nn / S0) ^ 2 * ((trace (M * W * (M * Wᵀ)) + trace (M * W * (M * W)) + trace (M * W) ^ 2)
        / ((nn - kk) * (nn - kk + 2))) - eI r W ^ 2 := by
  intro M nn kk S0
  obtain ⟨hx, hr⟩ := reg_eq_some h
  have hrx : r.x = x := by rw [hr]
  have hxtxi : r.fit.xtxi = (xᵀ * x)⁻¹ := by rw [hr]; rfl
  set G := (xᵀ * x)⁻¹ with hG
  set P : Matrix n n ℝ := x * G * xᵀ with hP
  have hPs : Pᵀ = P := by
    rw [hP, transpose_mul, transpose_mul, transpose_transpose, hG, xtxi_symm, Matrix.mul_assoc]
  have hMs : Mᵀ = M := by simp only [M]; rw [transpose_sub, transpose_one, hPs]
  have hnk : nn - kk ≠ 0 := by
    have : kk < nn := by simp only [nn, kk]; exact_mod_cast hk
    linarith
  have hnk2 : nn - kk + 2 ≠ 0 := by
    have : kk < nn := by simp only [nn, kk]; exact_mod_cast hk
    linarith
  have htrA : trA r W = trace (P * W) := by
    unfold trA
    rw [hrx, hxtxi]
    show trace _ = _
    rw [hP, ← Matrix.mul_assoc xᵀ, ← Matrix.mul_assoc, trace_mul_comm, ← Matrix.mul_assoc,
      ← Matrix.mul_assoc]
  have hMW : trace (M * W) = -trA r W := by
    rw [htrA]
    simp only [M]
    rw [Matrix.sub_mul, Matrix.one_mul, trace_sub]
    have : trace W = 0 := by simp [trace, hd]
    rw [this, zero_sub]
  have hE : eI r W = nn / S0 * (trace (M * W) / (nn - kk)) := by
    rw [hMW]
    unfold eI s0
    simp only [nn, kk, S0]
    rw [div_mul_div_comm]; congr 1; ring
  refine ⟨hE, ?_⟩
  rw [hE]
  -- the quadratic traces
  set S := W + Wᵀ with hS
  have hSs : Sᵀ = S := by rw [hS, transpose_add, transpose_transpose, add_comm]
  have hAB1 : (AB r W).1 = (1 / 2 : ℝ) • (G * (xᵀ * (S * x))) := by
    unfold AB; simp only [hrx, hxtxi]
    rw [← hS]
    simp only [Matrix.smul_mul, Matrix.mul_smul]
    norm_num
  have hAB2 : (AB r W).2 = (1 / 4 : ℝ) • (G * ((S * x)ᵀ * (S * x))) := by
    unfold AB; simp only [hrx, hxtxi]
    rw [← hS]
    simp only [Matrix.smul_mul, transpose_smul, Matrix.mul_smul, smul_smul, transpose_mul, transpose_transpose]
    norm_num
  have hA2 : ∑ i, ((AB r W).1 * (AB r W).1) i i = 1 / 4 * trace (P * S * (P * S)) := by
    show trace _ = _
    rw [hAB1, Matrix.smul_mul, Matrix.mul_smul, smul_smul, trace_smul, smul_eq_mul]
    congr 1
    · norm_num
    · rw [hP]
      have e1 : G * (xᵀ * (S * x)) * (G * (xᵀ * (S * x)))
          = (G * xᵀ * S * (x * G * xᵀ * S)) * x := by simp only [Matrix.mul_assoc]
      rw [e1, trace_mul_comm]
      simp only [Matrix.mul_assoc]
  have hB : ∑ i, (AB r W).2 i i = 1 / 4 * trace (P * (S * S)) := by
    show trace _ = _
    rw [hAB2, trace_smul, smul_eq_mul]
    congr 1
    rw [hP, transpose_mul, hSs]
    have e1 : G * (xᵀ * S * (S * x)) = (G * xᵀ * (S * S)) * x := by simp only [Matrix.mul_assoc]
    rw [e1, trace_mul_comm]
    simp only [Matrix.mul_assoc]
  have hs1 : s1 W = 1 / 2 * trace (S * S) := by
    unfold s1
    have : trace (S * S) = ∑ i, ∑ j, (W i j + W j i) ^ 2 := by
      simp only [trace, diag_apply, mul_apply]
      refine Finset.sum_congr rfl fun i _ => Finset.sum_congr rfl fun j _ => ?_
      simp [hS]; ring
    rw [this]; ring
  have hMM : trace (M * S * (M * S)) = 2 * (trace (M * W * (M * Wᵀ)) + trace (M * W * (M * W))) := by
    have e : M * S * (M * S) = M * W * (M * W) + M * W * (M * Wᵀ) + M * Wᵀ * (M * W)
        + M * Wᵀ * (M * Wᵀ) := by
      rw [hS]; simp only [Matrix.mul_add, Matrix.add_mul]; abel
    rw [e, trace_add, trace_add, trace_add]
    have t1 : trace (M * Wᵀ * (M * W)) = trace (M * W * (M * Wᵀ)) := trace_mul_comm _ _
    have t2 : trace (M * Wᵀ * (M * Wᵀ)) = trace (M * W * (M * W)) := by
      rw [← trace_transpose (M * Wᵀ * (M * Wᵀ))]
      simp only [transpose_mul, transpose_transpose, hMs]
      rw [Matrix.mul_assoc, trace_mul_comm]
      simp only [Matrix.mul_assoc]
    rw [t1, t2]; ring
  have hkey : s1 W + 2 * (∑ i, ((AB r W).1 * (AB r W).1) i i) - (∑ i, (AB r W).2 i i) * 4
      = trace (M * W * (M * Wᵀ)) + trace (M * W * (M * W)) := by
    have := trace_split P S
    have hM' : (1 - P : Matrix n n ℝ) = M := rfl
    rw [hM', hMM] at this
    rw [hs1, hA2, hB]
    linarith
  unfold vI
  simp only
  rw [hkey, hMW]
  unfold s0
  change nn ^ 2 / (S0 ^ 2 * (nn - kk) * (nn - kk + 2)) * (_ - (2 * trA r W ^ 2) / (nn - kk)) = _
  rcases eq_or_ne S0 0 with h0 | h0
  · simp [h0]
  · field_simp
    ring

end Spreg.LM
