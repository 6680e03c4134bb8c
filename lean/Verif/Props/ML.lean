import Verif.Model.ML
import Verif.Props.OLS
import Verif.Props.LM
import Mathlib.LinearAlgebra.Matrix.Gershgorin
import Mathlib.Analysis.Matrix.Spectrum
import Mathlib.Topology.Order.IntermediateValue
import Mathlib.Topology.Instances.Matrix
import Mathlib.Tactic
/-
C35, C36, C53, C68: Jacobian terms, symmetrisation of the weights.
-/
namespace Spreg.ML
open Matrix Spreg.Lin

variable {n k : Type} [Fintype n] [Fintype k] [DecidableEq n] [DecidableEq k]

theorem filledA_eq (W : Matrix n n ℝ) (hW : ∀ i, W i i = 0) (rho : ℝ) : filledA W rho = 1 - rho • W := by
  ext i j
  by_cases h : i = j
  · subst h; simp [filledA, hW]
  · simp [filledA, h, Matrix.one_apply]

/-! ### C68: the Jacobian is positive on (-1, 1) -/

/-- Specification: nonnegative weights, zero diagonal, row sums at most one (row-standardised weights and
weights with islands included). -/
structure SubStochastic (W : Matrix n n ℝ) : Prop where
  nonneg : ∀ i j, 0 ≤ W i j
  diag : ∀ i, W i i = 0
  rows : ∀ i, ∑ j, W i j ≤ 1

theorem det_ne_zero (W : Matrix n n ℝ) (h : SubStochastic W) (rho : ℝ) (hr : |rho| < 1) :
    (filledA W rho).det ≠ 0 := by
  apply det_ne_zero_of_sum_row_lt_diag
  intro i
  have e : ∀ j ∈ Finset.univ.erase i, ‖filledA W rho i j‖ = |rho| * W i j := by
    intro j hj
    have hne : i ≠ j := (Finset.ne_of_mem_erase hj).symm
    simp [filledA, hne, abs_mul, abs_of_nonneg (h.nonneg i j)]
  rw [Finset.sum_congr rfl e, ← Finset.mul_sum]
  have h1 : ∑ j ∈ Finset.univ.erase i, W i j ≤ 1 :=
    (Finset.sum_le_sum_of_subset_of_nonneg (Finset.erase_subset _ _) fun j _ _ => h.nonneg i j).trans (h.rows i)
  have h2 : 0 ≤ ∑ j ∈ Finset.univ.erase i, W i j := Finset.sum_nonneg fun j _ => h.nonneg i j
  have : ‖filledA W rho i i‖ = 1 := by simp [filledA]
  rw [this]
  nlinarith [abs_nonneg rho]

/-- C68: for nonnegative weights with zero diagonal and row sums at most one, the determinant in the
Jacobian term is positive for every `rho` in the open search interval, so method full never takes the
logarithm of a nonpositive number. -/
theorem C68_det_pos (W : Matrix n n ℝ) (h : SubStochastic W) (rho : ℝ) (hr : |rho| < 1) :
    0 < (1 - rho • W).det ∧ jacFull W rho = some (Real.log (1 - rho • W).det) := by
  have key : 0 < (1 - rho • W).det := by
    by_contra hneg
    push Not at hneg
    have hcont : Continuous fun t : ℝ => (1 - (t * rho) • W).det := by
      apply Continuous.matrix_det
      exact continuous_const.sub ((continuous_id.mul continuous_const).smul continuous_const)
    have h0 : (fun t : ℝ => (1 - (t * rho) • W).det) 0 = 1 := by simp
    have h1 : (fun t : ℝ => (1 - (t * rho) • W).det) 1 ≤ 0 := by simpa using hneg
    have := intermediate_value_Icc' (zero_le_one (α := ℝ)) hcont.continuousOn
    obtain ⟨t, ht, e⟩ := this ⟨h1, by simp⟩
    have hlt : |t * rho| < 1 := by
      rw [abs_mul, abs_of_nonneg ht.1]
      nlinarith [ht.2, abs_nonneg rho]
    have := det_ne_zero W h (t * rho) hlt
    rw [filledA_eq W h.diag] at this
    exact this e
  refine ⟨key, ?_⟩
  unfold jacFull nplog
  rw [filledA_eq W h.diag, if_pos key]

theorem rowStd_substochastic (A : Matrix n n ℝ) (h0 : ∀ i j, 0 ≤ A i j) (hd : ∀ i, A i i = 0) :
    SubStochastic (rowStd A) := by
  refine ⟨fun i j => div_nonneg (h0 i j) (Finset.sum_nonneg fun l _ => h0 i l), fun i => by simp [rowStd, hd], fun i => ?_⟩
  simp only [rowStd, Matrix.of_apply]
  rw [← Finset.sum_div]
  exact div_self_le_one _

/-! ### C53 -/

/-- Specification: binary contiguity: entries 0/1, symmetric, zero diagonal, every unit has a neighbour. -/
structure Contiguity (B : Matrix n n ℝ) : Prop where
  bin : ∀ i j, B i j = 0 ∨ B i j = 1
  symm : ∀ i j, B i j = B j i
  diag : ∀ i, B i i = 0
  noIsland : ∀ i, ∃ j, B i j = 1

namespace Contiguity
variable {B : Matrix n n ℝ} (h : Contiguity B)
include h

theorem binary_eq : binary B = B := by
  ext i j
  rcases h.bin i j with e | e <;> simp [binary, e]

theorem nonneg (i j : n) : 0 ≤ B i j := by rcases h.bin i j with e | e <;> simp [e]

theorem deg_pos (i : n) : 0 < ∑ j, B i j := by
  obtain ⟨j, hj⟩ := h.noIsland i
  refine Finset.sum_pos' (fun l _ => h.nonneg i l) ⟨j, Finset.mem_univ _, by simp [hj]⟩

theorem symmetrize_apply (i j : n) :
    symmetrize B i j = B i j / (Real.sqrt (∑ l, B i l) * Real.sqrt (∑ l, B j l)) := by
  have hi := h.deg_pos i
  have hj := h.deg_pos j
  have si : Real.sqrt (∑ l, B i l) ≠ 0 := (Real.sqrt_pos.2 hi).ne'
  have sj : Real.sqrt (∑ l, B j l) ≠ 0 := (Real.sqrt_pos.2 hj).ne'
  unfold symmetrize
  rw [h.binary_eq]
  simp only [Matrix.mul_diagonal, Matrix.diagonal_mul, rowStd, Matrix.of_apply]
  have e : (∑ l, B i l) = Real.sqrt (∑ l, B i l) * Real.sqrt (∑ l, B i l) := (Real.mul_self_sqrt hi.le).symm
  have : B i j / (∑ l, B i l) = B i j / (Real.sqrt (∑ l, B i l) * Real.sqrt (∑ l, B i l)) := by rw [← e]
  rw [this]
  field_simp

end Contiguity

/-- C53: for contiguity weights the symmetrised matrix is symmetric. -/
theorem C53_symmetric (B : Matrix n n ℝ) (h : Contiguity B) : (symmetrize B)ᵀ = symmetrize B := by
  ext i j
  rw [transpose_apply, h.symmetrize_apply, h.symmetrize_apply, h.symm j i, mul_comm]

theorem symmetrize_conj (B : Matrix n n ℝ) (h : Contiguity B) :
    ∃ D Di : Matrix n n ℝ, D * Di = 1 ∧ Di * D = 1 ∧ symmetrize B = D * rowStd B * Di := by
  have hs : ∀ i, Real.sqrt (∑ j, binary B i j) ≠ 0 := by
    intro i; rw [h.binary_eq]; exact (Real.sqrt_pos.2 (h.deg_pos i)).ne'
  refine ⟨_, _, ?_, ?_, rfl⟩
  · rw [diagonal_mul_diagonal, ← diagonal_one]
    congr 1; funext i; rw [mul_one_div, div_self (hs i)]
  · rw [diagonal_mul_diagonal, ← diagonal_one]
    congr 1; funext i; rw [one_div_mul_cancel (hs i)]

/-- C53: for contiguity weights the symmetrised matrix is similar to the row-standardised one: same
characteristic polynomial (hence the same eigenvalues with multiplicity), same determinants of `I - rho W`,
same traces of powers. -/
theorem C53_similar (B : Matrix n n ℝ) (h : Contiguity B) :
    (symmetrize B).charpoly = (rowStd B).charpoly ∧
    (∀ rho : ℝ, (1 - rho • symmetrize B).det = (1 - rho • rowStd B).det) ∧
    (∀ p : ℕ, (symmetrize B ^ p).trace = (rowStd B ^ p).trace) := by
  obtain ⟨D, Di, h1, h2, e⟩ := symmetrize_conj B h
  refine ⟨?_, fun rho => ?_, fun p => ?_⟩
  · rw [e, Matrix.mul_assoc, charpoly_mul_comm, Matrix.mul_assoc, h2, Matrix.mul_one]
  · have : 1 - rho • symmetrize B = D * (1 - rho • rowStd B) * Di := by
      rw [e, Matrix.mul_sub, Matrix.sub_mul, Matrix.mul_one, h1, Matrix.mul_smul, Matrix.smul_mul]
    rw [this, det_mul, det_mul, mul_comm D.det, mul_assoc, ← det_mul, h1, det_one, mul_one]
  · have : symmetrize B ^ p = D * rowStd B ^ p * Di := by
      induction p with
      | zero => simp [h1]
      | succ p ih =>
        rw [pow_succ, ih, e, pow_succ]
        simp only [Matrix.mul_assoc]
        rw [← Matrix.mul_assoc Di D, h2, Matrix.one_mul]
    rw [this, Matrix.mul_assoc, trace_mul_comm, Matrix.mul_assoc, h2, Matrix.mul_one]

/-- The weights of three units in a row, with weight `a` between 1-2 and `b` between 2-3. -/
def path3 (a b : ℝ) : Matrix (Fin 3) (Fin 3) ℝ := !![0, a, 0; a, 0, b; 0, b, 0]

theorem path3_contiguity : Contiguity (path3 1 1) := by
  refine ⟨?_, ?_, ?_, ?_⟩
  · intro i j; fin_cases i <;> fin_cases j <;> simp [path3]
  · intro i j; fin_cases i <;> fin_cases j <;> simp [path3]
  · intro i; fin_cases i <;> simp [path3]
  · intro i; fin_cases i
    · exact ⟨1, by simp [path3]⟩
    · exact ⟨0, by simp [path3]⟩
    · exact ⟨1, by simp [path3]⟩

/-- Non-vacuity of the hypotheses of C53 and C68. -/
example : Contiguity (path3 1 1) ∧ SubStochastic (rowStd (path3 1 1)) :=
  ⟨path3_contiguity, rowStd_substochastic _ path3_contiguity.nonneg path3_contiguity.diag⟩

theorem binary_path3 (a b : ℝ) (ha : a ≠ 0) (hb : b ≠ 0) : binary (path3 a b) = path3 1 1 := by
  ext i j
  fin_cases i <;> fin_cases j <;> simp [binary, path3, ha, hb]

theorem rowStd_path3 (a b : ℝ) (ha : a ≠ 0) (hb : b ≠ 0) :
    rowStd (path3 a b) = !![0, 1, 0; a / (a + b), 0, b / (a + b); 0, 1, 0] := by
  ext i j
  fin_cases i <;> fin_cases j <;> simp [rowStd, path3, Fin.sum_univ_three, ha, hb]

theorem symmetrize_path3 (a b : ℝ) (ha : a ≠ 0) (hb : b ≠ 0) :
    symmetrize (path3 a b) = !![0, 1 / √2, 0; √2 * (a / (a + b)), 0, √2 * (b / (a + b)); 0, 1 / √2, 0] := by
  unfold symmetrize
  rw [binary_path3 a b ha hb, rowStd_path3 a b ha hb]
  ext i j
  fin_cases i <;> fin_cases j <;>
    simp [Matrix.mul_diagonal, Matrix.diagonal_mul, path3, Fin.sum_univ_three] <;> norm_num

/-- C53 does not extend to general weights with a symmetric pattern, although the code applies `symmetrize`
to all of them (ml_lag.py:238): the row-standardised weights 1 and 2 on a line of three units give a matrix that
is not symmetric, and the symmetric matrix that `eigvalsh` then reads is not similar to W. -/
theorem C53_general_weights_violated :
    patternSymm (path3 1 2) ∧ (symmetrize (path3 1 2))ᵀ ≠ symmetrize (path3 1 2) ∧
    (lowerSym (symmetrize (path3 1 2))).charpoly ≠ (rowStd (path3 1 2)).charpoly := by
  have hsq : √(2:ℝ) * √2 = 2 := Real.mul_self_sqrt (by norm_num)
  have hne : √(2:ℝ) ≠ 0 := by positivity
  refine ⟨?_, ?_, ?_⟩
  · unfold patternSymm
    rw [binary_path3 1 2 (by norm_num) (by norm_num)]
    ext i j; fin_cases i <;> fin_cases j <;> simp [path3]
  · rw [symmetrize_path3 1 2 (by norm_num) (by norm_num)]
    intro e
    have := congrFun (congrFun e 0) 1
    simp at this
    field_simp at this
    nlinarith
  · intro e
    have h1 := congrArg (Polynomial.eval 1) e
    rw [eval_charpoly, eval_charpoly, symmetrize_path3 1 2 (by norm_num) (by norm_num),
      rowStd_path3 1 2 (by norm_num) (by norm_num), det_fin_three, det_fin_three] at h1
    simp [lowerSym] at h1
    field_simp at h1
    nlinarith

/-! ### C35 -/

/-- C35: the LU Jacobian is the logarithm of the absolute value of the determinant, for every
factorisation with row and column permutations. -/
theorem C35_lu {m : ℕ} (a L U : Matrix (Fin m) (Fin m) ℝ) (h : IsLU a L U) (hd : a.det ≠ 0) :
    jacLU U = Real.log |a.det| := by
  obtain ⟨pr, pc, hp⟩ := h.perm
  have h1 : |a.det| = |(L * U).det| := by
    rw [← hp, abs_det_submatrix_equiv_equiv]
  have hL : L.det = 1 := by
    rw [det_of_lowerTriangular L (fun i j hij => h.lower i j hij)]
    simp [h.unit]
  have hU : U.det = ∏ i, U i i := det_of_upperTriangular (fun i j hij => h.upper i j hij)
  rw [h1, det_mul, hL, one_mul, hU, Finset.abs_prod, Real.log_prod]
  · rfl
  · intro i _
    have : (∏ i, U i i) ≠ 0 := by
      rw [← hU]
      intro e
      rw [det_mul, e, mul_zero, abs_zero, abs_eq_zero] at h1
      exact hd h1
    exact abs_ne_zero.2 (Finset.prod_ne_zero_iff.1 this i (Finset.mem_univ _))

theorem det_of_charpoly {R : Type} [Field R] {m : ℕ} (A : Matrix (Fin m) (Fin m) R) (ev : Fin m → R)
    (h : A.charpoly = ∏ i, (Polynomial.X - Polynomial.C (ev i))) (rho : R) :
    (1 - rho • A).det = ∏ i, (1 - rho * ev i) := by
  by_cases hr : rho = 0
  · simp [hr]
  · have h1 := congrArg (Polynomial.eval rho⁻¹) h
    rw [eval_charpoly, Polynomial.eval_prod] at h1
    have h2 : 1 - rho • A = rho • (scalar (Fin m) rho⁻¹ - A) := by
      rw [smul_sub]
      congr 1
      ext i j
      by_cases hij : i = j
      · subst hij; simp [hr]
      · simp [Matrix.one_apply, hij, scalar_apply]
    rw [h2, det_smul, h1, ← Finset.card_univ, ← Finset.prod_const, ← Finset.prod_mul_distrib]
    refine Finset.prod_congr rfl fun i _ => ?_
    simp only [Polynomial.eval_sub, Polynomial.eval_X, Polynomial.eval_C]
    rw [mul_sub, mul_inv_cancel₀ hr]

/-- C35: with the complex eigenvalues of `W` (method ord, weights whose pattern is not symmetric) the
Jacobian term is the logarithm of the absolute value of the determinant. -/
theorem C35_ord_complex {m : ℕ} (W : Matrix (Fin m) (Fin m) ℝ) (ev : Fin m → ℂ) (h : IsEigvals W ev)
    (rho : ℝ) (hd : (1 - rho • W).det ≠ 0) : jacOrdC ev rho = Real.log |(1 - rho • W).det| := by
  have h1 := det_of_charpoly _ ev h (rho : ℂ)
  have h2 : (1 - (rho : ℂ) • W.map ((↑) : ℝ → ℂ)) = (1 - rho • W).map ((↑) : ℝ → ℂ) := by
    ext i j
    by_cases hij : i = j
    · subst hij; simp
    · simp [Matrix.one_apply, hij]
  have h3 : ((1 - rho • W).map ((↑) : ℝ → ℂ)).det = (((1 - rho • W).det : ℝ) : ℂ) :=
    (RingHom.map_det Complex.ofRealHom (1 - rho • W)).symm
  rw [h2, h3] at h1
  have h4 : |(1 - rho • W).det| = ∏ i, ‖1 - (rho : ℂ) * ev i‖ := by
    rw [← norm_prod, ← h1, Complex.norm_real, Real.norm_eq_abs]
  have hne : ∀ i ∈ Finset.univ, ‖1 - (rho : ℂ) * ev i‖ ≠ 0 := by
    apply Finset.prod_ne_zero_iff.1
    rw [← h4]; exact abs_ne_zero.2 hd
  rw [h4, Real.log_prod hne]
  unfold jacOrdC
  rw [Complex.re_sum]
  refine Finset.sum_congr rfl fun i _ => ?_
  rw [Complex.log_re]

/-- C35: real eigenvalues of a matrix similar to substochastic weights: on the search interval all the
arguments of the logarithm are positive, and the sum is the logarithm of the determinant. -/
theorem ord_of_charpoly {m : ℕ} (W : Matrix (Fin m) (Fin m) ℝ) (hW : SubStochastic W) (ev : Fin m → ℝ)
    (h : W.charpoly = ∏ i, (Polynomial.X - Polynomial.C (ev i))) (rho : ℝ) (hr : |rho| < 1) :
    jacOrd ev rho = some (Real.log (1 - rho • W).det) := by
  have hpos : ∀ i, 0 < 1 - rho * ev i := by
    intro i
    by_contra hneg
    push Not at hneg
    have h1 : 1 ≤ rho * ev i := by linarith
    have hev : ev i ≠ 0 := by rintro e; rw [e] at h1; norm_num at h1
    have hlt : |(ev i)⁻¹| < 1 := by
      have h2 : 1 ≤ |rho| * |ev i| := by
        rw [← abs_mul]; exact h1.trans (le_abs_self _)
      rw [abs_inv]
      have h3 : 0 < |ev i| := abs_pos.2 hev
      apply inv_lt_one_of_one_lt₀
      nlinarith
    have h4 := (C68_det_pos W hW _ hlt).1
    rw [det_of_charpoly W ev h] at h4
    have : ∏ j, (1 - (ev i)⁻¹ * ev j) = 0 :=
      Finset.prod_eq_zero (Finset.mem_univ i) (by rw [inv_mul_cancel₀ hev, sub_self])
    rw [this] at h4
    exact lt_irrefl _ h4
  unfold jacOrd
  rw [if_pos hpos, det_of_charpoly W ev h, Real.log_prod fun i _ => (hpos i).ne']

/-- C35: for row-standardised contiguity weights the three methods compute the same Jacobian term, for
every `rho` in the search interval: the determinant, any LU factorisation, and the eigenvalues of the
symmetrised matrix. -/
theorem C35_methods_agree_partial {m : ℕ} (B : Matrix (Fin m) (Fin m) ℝ) (h : Contiguity B) (rho : ℝ)
    (hr : |rho| < 1) (L U : Matrix (Fin m) (Fin m) ℝ) (hLU : IsLU (1 - rho • rowStd B) L U)
    (ev : Fin m → ℝ) (hev : IsEigvalsh (symmetrize B) ev) :
    jacFull (rowStd B) rho = some (Real.log (1 - rho • rowStd B).det) ∧
    jacLU U = Real.log (1 - rho • rowStd B).det ∧
    jacOrd ev rho = some (Real.log (1 - rho • rowStd B).det) := by
  have hW := rowStd_substochastic B h.nonneg h.diag
  obtain ⟨hp, hf⟩ := C68_det_pos _ hW rho hr
  refine ⟨hf, ?_, ?_⟩
  · rw [C35_lu _ L U hLU hp.ne', abs_of_pos hp]
  · refine ord_of_charpoly _ hW ev ?_ rho hr
    have hs : lowerSym (symmetrize B) = symmetrize B := by
      ext i j
      simp only [lowerSym, Matrix.of_apply]
      split
      · rfl
      · exact congrFun (congrFun (C53_symmetric B h) i) j
    unfold IsEigvalsh at hev
    rw [hs, (C53_similar B h).1] at hev
    exact hev

/-- Real symmetric matrices do have eigenvalues as `eigvalsh` returns them, so the hypothesis of
`C35_methods_agree_partial` can be met for every contiguity matrix. -/
theorem eigvalsh_exists {m : ℕ} (A : Matrix (Fin m) (Fin m) ℝ) : ∃ ev, IsEigvalsh A ev := by
  have hA : (lowerSym A).IsHermitian := by
    ext i j
    simp only [Matrix.conjTranspose_apply, lowerSym, Matrix.of_apply, star_trivial]
    rcases lt_trichotomy i j with hij | rfl | hij
    · rw [if_pos hij.le, if_neg (not_le.2 hij)]
    · rfl
    · rw [if_neg (not_le.2 hij), if_pos hij.le]
  exact ⟨hA.eigenvalues, hA.charpoly_eq⟩

/-- C35 is false for other weights: for general (not binary) row-standardised weights with a symmetric
pattern, method ord uses another Jacobian than method full. -/
theorem C35_general_weights_violated (ev : Fin 3 → ℝ) (hev : IsEigvalsh (symmetrize (path3 1 2)) ev) :
    jacFull (rowStd (path3 1 2)) (1/2) ≠ jacOrd ev (1/2) := by
  have hsq : √(2:ℝ) * √2 = 2 := Real.mul_self_sqrt (by norm_num)
  have hne : √(2:ℝ) ≠ 0 := by positivity
  have hdet := det_of_charpoly _ ev hev (1/2)
  have hS : (1 - (1/2 : ℝ) • lowerSym (symmetrize (path3 1 2))).det = 59/72 := by
    rw [symmetrize_path3 1 2 (by norm_num) (by norm_num), det_fin_three]
    simp [lowerSym]
    field_simp
    nlinarith
  have hF : (filledA (rowStd (path3 1 2)) (1/2)).det = 3/4 := by
    rw [rowStd_path3 1 2 (by norm_num) (by norm_num), det_fin_three]
    simp [filledA]
    norm_num
  rw [hS] at hdet
  unfold jacFull nplog
  rw [hF, if_pos (by norm_num)]
  unfold jacOrd
  split
  · next hpos =>
    rw [← Real.log_prod fun i _ => (hpos i).ne', ← hdet]
    intro e
    have := Real.log_injOn_pos (Set.mem_Ioi.2 (by norm_num : (0:ℝ) < 3/4))
      (Set.mem_Ioi.2 (by norm_num : (0:ℝ) < 59/72)) (Option.some.inj e)
    norm_num at this
  · simp

/-- C35 is false for binary weights that are not row-standardised: method ord evaluates the Jacobian of
the row-standardised weights while the data are lagged with the binary ones. -/
theorem C35_binary_violated (ev : Fin 3 → ℝ) (hev : IsEigvalsh (symmetrize (path3 1 1)) ev) :
    jacFull (weightsOf (path3 1 1) .b) (1/2) ≠ jacOrd ev (1/2) := by
  have hW := rowStd_substochastic _ path3_contiguity.nonneg path3_contiguity.diag
  have hs : lowerSym (symmetrize (path3 1 1)) = symmetrize (path3 1 1) := by
    ext i j
    simp only [lowerSym, Matrix.of_apply]
    split
    · rfl
    · exact congrFun (congrFun (C53_symmetric _ path3_contiguity) i) j
  unfold IsEigvalsh at hev
  rw [hs, (C53_similar _ path3_contiguity).1] at hev
  rw [ord_of_charpoly _ hW ev hev _ (by norm_num [abs_of_pos])]
  have h1 : (1 - (1/2 : ℝ) • rowStd (path3 1 1)).det = 3/4 := by
    rw [rowStd_path3 1 1 (by norm_num) (by norm_num), det_fin_three]
    simp; norm_num
  have h2 : (filledA (binary (path3 1 1)) (1/2)).det = 1/2 := by
    rw [binary_path3 1 1 (by norm_num) (by norm_num), det_fin_three]
    simp [filledA, path3]; norm_num
  unfold weightsOf jacFull nplog
  dsimp only
  rw [h1, h2, if_pos (by norm_num)]
  intro e
  have := Real.log_injOn_pos (Set.mem_Ioi.2 (by norm_num : (0:ℝ) < 1/2))
    (Set.mem_Ioi.2 (by norm_num : (0:ℝ) < 3/4)) (Option.some.inj e)
  norm_num at this

/-! ### C66 for weights objects -/

/-- C66 is false for weights objects: estimating with method ord leaves the caller's weights
row-standardised, whatever transform they had; here binary weights on a line of three units change. -/
theorem C66_weights_violated :
    weightsOf (path3 1 1) (symmetrizeTransform .b) ≠ weightsOf (path3 1 1) .b := by
  show rowStd (path3 1 1) ≠ binary (path3 1 1)
  rw [binary_path3 1 1 (by norm_num) (by norm_num), rowStd_path3 1 1 (by norm_num) (by norm_num)]
  intro e
  have := congrFun (congrFun e 1) 0
  simp [path3] at this

/-! ### C36 -/

/-- C36: for row-standardised contiguity weights two of the three traces in the information matrix agree
between method ord (symmetrised weights) and method full; missing: the third, see `C36_violated`. -/
theorem C36_two_traces_partial (B : Matrix n n ℝ) (h : Contiguity B) (rho : ℝ)
    (t t' : ℝ × ℝ × ℝ) (hf : traces (rowStd B) rho = some t) (ho : traces (symmetrize B) rho = some t') :
    t'.1 = t.1 ∧ t'.2.1 = t.2.1 ∧ t'.2.2 = t.2.1 := by
  have hd1 : ∀ i, rowStd B i i = 0 := fun i => by simp [rowStd, h.diag]
  have hd2 : ∀ i, symmetrize B i i = 0 := fun i => by rw [h.symmetrize_apply, h.diag, zero_div]
  unfold traces at hf ho
  rw [filledA_eq _ hd1, Option.map_eq_some_iff] at hf
  rw [filledA_eq _ hd2, Option.map_eq_some_iff] at ho
  obtain ⟨ai, hai, rfl⟩ := hf
  obtain ⟨ai', hai', rfl⟩ := ho
  obtain ⟨-, -, h1, h2⟩ := inv?_eq_some hai
  obtain ⟨-, hinv, h3, h4⟩ := inv?_eq_some hai'
  obtain ⟨D, Di, d1, d2, e⟩ := symmetrize_conj B h
  have hA : 1 - rho • symmetrize B = D * (1 - rho • rowStd B) * Di := by
    rw [e, Matrix.mul_sub, Matrix.sub_mul, Matrix.mul_one, d1, Matrix.mul_smul, Matrix.smul_mul]
  have hai'' : ai' = D * ai * Di := by
    have : (1 - rho • symmetrize B) * (D * ai * Di) = 1 := by
      rw [hA]
      calc D * (1 - rho • rowStd B) * Di * (D * ai * Di)
          = D * (1 - rho • rowStd B) * (Di * D) * ai * Di := by simp only [Matrix.mul_assoc]
        _ = D * ((1 - rho • rowStd B) * ai) * Di := by rw [d2]; simp only [Matrix.mul_assoc, Matrix.one_mul]
        _ = 1 := by rw [h1, Matrix.mul_one, d1]
    calc ai' = ai' * ((1 - rho • symmetrize B) * (D * ai * Di)) := by rw [this, Matrix.mul_one]
      _ = D * ai * Di := by rw [← Matrix.mul_assoc, h4, Matrix.one_mul]
  have hwai : symmetrize B * ai' = D * (rowStd B * ai) * Di := by
    rw [hai'', e]
    calc D * rowStd B * Di * (D * ai * Di) = D * rowStd B * (Di * D) * ai * Di := by simp only [Matrix.mul_assoc]
      _ = _ := by rw [d2]; simp only [Matrix.mul_assoc, Matrix.one_mul]
  have hsym : (symmetrize B * ai')ᵀ = symmetrize B * ai' := by
    have hs := C53_symmetric B h
    have hcomm : symmetrize B * ai' = ai' * symmetrize B := by
      have hc : symmetrize B * (1 - rho • symmetrize B) = (1 - rho • symmetrize B) * symmetrize B := by
        rw [Matrix.mul_sub, Matrix.sub_mul, Matrix.mul_one, Matrix.one_mul, Matrix.mul_smul, Matrix.smul_mul]
      calc symmetrize B * ai' = ai' * (1 - rho • symmetrize B) * symmetrize B * ai' := by
            rw [h4, Matrix.one_mul]
        _ = ai' * (symmetrize B * (1 - rho • symmetrize B)) * ai' := by rw [hc]; simp only [Matrix.mul_assoc]
        _ = ai' * symmetrize B := by
            simp only [Matrix.mul_assoc]; rw [h3, Matrix.mul_one]
    have hait : ai'ᵀ = ai' := by
      rw [hinv, transpose_nonsing_inv]
      congr 1
      rw [transpose_sub, transpose_one, transpose_smul, hs]
    rw [transpose_mul, hs, hait, ← hcomm]
  have htr : ∀ M : Matrix n n ℝ, (D * M * Di).trace = M.trace := by
    intro M
    rw [Matrix.mul_assoc, trace_mul_comm, Matrix.mul_assoc, d2, Matrix.mul_one]
  have h22 : (symmetrize B * ai' * (symmetrize B * ai')).trace = (rowStd B * ai * (rowStd B * ai)).trace := by
    rw [hwai]
    have : D * (rowStd B * ai) * Di * (D * (rowStd B * ai) * Di) =
        D * (rowStd B * ai * (rowStd B * ai)) * Di := by
      calc _ = D * (rowStd B * ai) * (Di * D) * (rowStd B * ai) * Di := by simp only [Matrix.mul_assoc]
        _ = _ := by rw [d2]; simp only [Matrix.mul_assoc, Matrix.one_mul]
    rw [this, htr]
  refine ⟨?_, h22, ?_⟩
  · show (symmetrize B * ai').trace = (rowStd B * ai).trace
    rw [hwai, htr]
  · show ((symmetrize B * ai')ᵀ * (symmetrize B * ai')).trace = _
    rw [hsym, h22]

/-- C36 holds when all units have the same number of neighbours: then the symmetrised matrix is the
row-standardised one. -/
theorem C36_regular_partial (B : Matrix n n ℝ) (h : Contiguity B) (d : ℝ) (hd : ∀ i, ∑ j, B i j = d) :
    symmetrize B = rowStd B := by
  ext i j
  rw [h.symmetrize_apply, hd, hd]
  have := h.deg_pos i
  rw [hd] at this
  simp only [rowStd, Matrix.of_apply]
  rw [hd, Real.mul_self_sqrt this.le]

/-- C36 is false in general: on a line of three units, at `rho = 0`, the third trace is 5/2 for method full
and 2 for method ord, so the reported variances differ. -/
theorem C36_violated :
    traces (rowStd (path3 1 1)) 0 = some (0, 2, 5/2) ∧ traces (symmetrize (path3 1 1)) 0 = some (0, 2, 2) := by
  have hsq : √(2:ℝ) * √2 = 2 := Real.mul_self_sqrt (by norm_num)
  have hne : √(2:ℝ) ≠ 0 := by positivity
  have hA : ∀ W : Matrix (Fin 3) (Fin 3) ℝ, inv? (filledA W 0) = some 1 := by
    intro W
    have : filledA W 0 = 1 := by ext i j; simp [filledA, Matrix.one_apply]
    rw [this, inv?_of_isUnit (by simp)]; simp
  unfold traces
  rw [hA, hA]
  simp only [Option.map_some, Matrix.mul_one, Option.some.injEq, Prod.mk.injEq]
  rw [rowStd_path3 1 1 (by norm_num) (by norm_num), symmetrize_path3 1 1 (by norm_num) (by norm_num)]
  refine ⟨⟨?_, ?_, ?_⟩, ?_, ?_, ?_⟩ <;>
    simp [Matrix.trace, Matrix.mul_apply, Fin.sum_univ_three]
  · norm_num
  · norm_num
  · field_simp; norm_num
  · field_simp
    have h4 : √(2:ℝ) ^ 2 = 2 := by rw [pow_two, hsq]
    have h5 : √(2:ℝ) ^ 4 = 4 := by
      have : √(2:ℝ) ^ 4 = (√2 ^ 2) ^ 2 := by ring
      rw [this, h4]; norm_num
    nlinarith

end Spreg.ML
