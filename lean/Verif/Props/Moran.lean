import Verif.Props.Moments
import Verif.Props.RegDiag
import Verif.Props.Density
import Mathlib.Analysis.Matrix.Spectrum
set_option linter.unusedSectionVars false
set_option linter.unusedSimpArgs false
/-
The reported mean and variance of Moran's I of the residuals are its exact mean and variance (C169): a ratio of quadratic forms in a
vector whose distribution does not change under rotations.
-/
namespace Spreg.Sampling
open Matrix MeasureTheory ProbabilityTheory Spreg Spreg.Lin Spreg.LM

variable {Ω n m : Type} [MeasurableSpace Ω] [Fintype n] [DecidableEq n] [Fintype m] [DecidableEq m]
  {P : Measure Ω}

theorem real_spectral (A : Matrix n n ℝ) (hA : Aᵀ = A) :
    ∃ (U : Matrix n n ℝ) (l : n → ℝ), Uᵀ * U = 1 ∧ A = U * diagonal l * Uᵀ := by
  have h : A.IsHermitian := by rw [Matrix.IsHermitian, conjTranspose_eq_transpose_of_trivial, hA]
  have hs := h.spectral_theorem
  rw [Unitary.conjStarAlgAut_apply] at hs
  have hu := Matrix.mem_unitaryGroup_iff'.1 h.eigenvectorUnitary.2
  refine ⟨h.eigenvectorUnitary, h.eigenvalues, ?_, ?_⟩
  · rw [star_eq_conjTranspose, conjTranspose_eq_transpose_of_trivial] at hu
    exact hu
  · rw [star_eq_conjTranspose, conjTranspose_eq_transpose_of_trivial] at hs
    exact hs

/-- An orthogonal projection is `Q Q'` with orthonormal columns; their number is the trace. -/
theorem proj_factor (M : Matrix n n ℝ) (hT : Mᵀ = M) (hM : M * M = M) :
    ∃ (m : Type) (_ : Fintype m) (_ : DecidableEq m) (Q : Matrix n m ℝ), Qᵀ * Q = 1 ∧ Q * Qᵀ = M ∧ (Fintype.card m : ℝ) = trace M := by
  obtain ⟨U, l, hU, hA⟩ := real_spectral M hT
  have hU' : U * Uᵀ = 1 := mul_eq_one_comm.1 hU
  have hl : ∀ i, l i = 0 ∨ l i = 1 := by
    intro i
    have h1 : diagonal l = Uᵀ * M * U := by
      rw [hA, Matrix.mul_assoc, Matrix.mul_assoc, hU, Matrix.mul_one, ← Matrix.mul_assoc, hU, Matrix.one_mul]
    have h2 : diagonal l * diagonal l = diagonal l := by
      conv_rhs => rw [h1, ← hM]
      rw [h1, Matrix.mul_assoc, ← Matrix.mul_assoc U, ← Matrix.mul_assoc U, hU', Matrix.one_mul, Matrix.mul_assoc, Matrix.mul_assoc, Matrix.mul_assoc]
    rw [diagonal_mul_diagonal] at h2
    have h3 := congrFun (diagonal_injective h2) i
    rcases eq_or_ne (l i) 0 with h | h
    · exact .inl h
    · exact .inr (mul_right_cancel₀ h (by rw [h3, one_mul]))
  classical
  let Q : Matrix n {i // l i = 1} ℝ := U.submatrix id Subtype.val
  have hQQ : Q * Qᵀ = M := by
    rw [hA]
    ext i j
    rw [Matrix.mul_apply, Matrix.mul_apply]
    simp only [Matrix.mul_diagonal, Q, submatrix_apply, transpose_apply, id]
    refine (Finset.sum_subtype (Finset.univ.filter fun a => l a = 1) (p := fun a => l a = 1) (by simp) fun a => U i a * U j a).symm.trans ?_
    rw [Finset.sum_filter]
    refine Finset.sum_congr rfl fun a _ => ?_
    rcases hl a with h | h <;> simp [h]
  have hQ : Qᵀ * Q = 1 := by
    ext i j
    have := congrFun (congrFun hU i.1) j.1
    rw [Matrix.mul_apply] at this ⊢
    simp only [Q, submatrix_apply, transpose_apply, id] at this ⊢
    rw [this, Matrix.one_apply, Matrix.one_apply]
    simp [Subtype.ext_iff]
  refine ⟨_, inferInstance, inferInstance, Q, hQ, hQQ, ?_⟩
  rw [← hQQ, trace_mul_comm, hQ, trace_one]

theorem rot_int {e : Ω → n → ℝ} (h : Spherical P e) (O : Matrix n n ℝ) (hO : Oᵀ * O = 1) {F : (n → ℝ) → ℝ} (hF : Measurable F) :
    ∫ ω, F (O *ᵥ e ω) ∂P = ∫ ω, F (e ω) ∂P := by
  have hm : Measurable fun v : n → ℝ => O *ᵥ v := (Continuous.matrix_mulVec continuous_const continuous_id).measurable
  have h1 := integral_map (μ := P) (φ := fun ω => O *ᵥ e ω) (hm.comp h.meas).aemeasurable (f := F) hF.aestronglyMeasurable
  have h2 := integral_map (μ := P) (φ := e) h.meas.aemeasurable (f := F) hF.aestronglyMeasurable
  rw [← h1, h.rot O hO, h2]

theorem dot_rot (O : Matrix n n ℝ) (hO : Oᵀ * O = 1) (v : n → ℝ) : (O *ᵥ v) ⬝ᵥ (O *ᵥ v) = v ⬝ᵥ v := by
  rw [dotProduct_mulVec, ← mulVec_transpose, mulVec_mulVec, hO, one_mulVec]

/-- Rotations of the plane of two coordinates. -/
theorem exists_rot (i j : n) (hij : i ≠ j) (sg : ℝ) (hs : sg ^ 2 = 1) :
    ∃ O : Matrix n n ℝ, Oᵀ * O = 1 ∧ ∀ v, (O *ᵥ v) i = 7 / 25 * v i + sg * (24 / 25) * v j := by
  let w : n → ℝ := Pi.single i (3 / 5) - Pi.single j (sg * (4 / 5))
  have hw : w ⬝ᵥ w = 1 := by
    simp only [w, dotProduct_sub, sub_dotProduct, dotProduct_single, Pi.single_apply, hij, hij.symm, if_true, if_false]
    simp only [Pi.sub_apply, Pi.single_apply, hij, hij.symm, if_true, if_false]
    linear_combination (16 / 25) * hs
  refine ⟨1 - (2 : ℝ) • vecMulVec w w, ?_, fun v => ?_⟩
  · rw [transpose_sub, transpose_one, transpose_smul, transpose_vecMulVec, Matrix.sub_mul, Matrix.mul_sub, Matrix.one_mul, Matrix.one_mul, Matrix.mul_sub, Matrix.mul_one,
      Matrix.smul_mul, Matrix.mul_smul, vecMulVec_mul_vecMulVec, hw]
    simp only [one_smul]
    module
  · rw [sub_mulVec, one_mulVec, smul_mulVec, vecMulVec_mulVec]
    simp only [w, Pi.sub_apply, Pi.smul_apply, sub_dotProduct, single_dotProduct, Pi.single_apply, hij, if_true, if_false, MulOpposite.op_sub, smul_eq_mul,
      MulOpposite.smul_eq_mul_unop, MulOpposite.unop_sub, MulOpposite.unop_op]
    ring

/-- Second and fourth moments of the coordinates of a random unit vector. -/
theorem unit_moments {t : Ω → n → ℝ} (h : Spherical P t) (h1 : ∀ᵐ ω ∂P, t ω ⬝ᵥ t ω = 1) :
    (∀ i, ∫ ω, t ω i ^ 2 ∂P = 1 / Fintype.card n) ∧
    ∀ i j, ∫ ω, t ω i ^ 2 * t ω j ^ 2 ∂P = (if i = j then 3 else 1) / (Fintype.card n * (Fintype.card n + 2)) := by
  have := h.prob
  have hc : ∀ i, Measurable fun ω => t ω i := fun i => (measurable_pi_apply i).comp h.meas
  have hb : ∀ i, ∀ᵐ ω ∂P, |t ω i| ≤ 1 := by
    intro i
    filter_upwards [h1] with ω hω
    rw [← sq_le_one_iff_abs_le_one, ← hω, dotProduct]
    simp only [← sq]
    exact Finset.single_le_sum (f := fun i => t ω i ^ 2) (fun _ _ => sq_nonneg _) (Finset.mem_univ i)
  have int2 : ∀ i j, Integrable (fun ω => t ω i * t ω j) P := by
    intro i j
    refine Integrable.of_bound ((hc i).mul (hc j)).aestronglyMeasurable 1 ?_
    filter_upwards [hb i, hb j] with ω hi hj
    rw [Real.norm_eq_abs, abs_mul]
    exact mul_le_one₀ hi (abs_nonneg _) hj
  have int4 : ∀ i j a b, Integrable (fun ω => t ω i * t ω j * (t ω a * t ω b)) P := by
    intro i j a b
    refine Integrable.of_bound (((hc i).mul (hc j)).mul ((hc a).mul (hc b))).aestronglyMeasurable 1 ?_
    filter_upwards [hb i, hb j, hb a, hb b] with ω hi hj ha hb
    rw [Real.norm_eq_abs, abs_mul, abs_mul, abs_mul]
    exact mul_le_one₀ (mul_le_one₀ hi (abs_nonneg _) hj) (by positivity) (mul_le_one₀ ha (abs_nonneg _) hb)
  have i2 : ∀ i, Integrable (fun ω => t ω i ^ 2) P := fun i => by simpa only [sq] using int2 i i
  have i4 : ∀ i j, Integrable (fun ω => t ω i ^ 2 * t ω j ^ 2) P := fun i j => by simpa only [sq] using int4 i i j j
  have even2 : ∀ i j, i ≠ j → 2 * ∫ ω, t ω i ^ 2 ∂P = 2 * ((49 / 625) * ∫ ω, t ω i ^ 2 ∂P + (576 / 625) * ∫ ω, t ω j ^ 2 ∂P) := by
    intro i j hij
    obtain ⟨O, hO, hOi⟩ := exists_rot i j hij 1 (by norm_num)
    obtain ⟨O', hO', hOi'⟩ := exists_rot i j hij (-1) (by norm_num)
    have e1 := rot_int h O hO (F := fun v => v i ^ 2) ((measurable_pi_apply i).pow_const 2)
    have e2 := rot_int h O' hO' (F := fun v => v i ^ 2) ((measurable_pi_apply i).pow_const 2)
    simp only [hOi, hOi'] at e1 e2
    have hi1 : Integrable (fun ω => (7 / 25 * t ω i + 1 * (24 / 25) * t ω j) ^ 2) P := by
      refine Integrable.congr (f := fun ω => (49 / 625) * t ω i ^ 2 + (2 * 168 / 625) * (t ω i * t ω j) + (576 / 625) * t ω j ^ 2)
        ((((i2 i).const_mul _).add ((int2 i j).const_mul _)).add ((i2 j).const_mul _)) (.of_forall fun ω => ?_)
      simp only; ring
    have hi2 : Integrable (fun ω => (7 / 25 * t ω i + -1 * (24 / 25) * t ω j) ^ 2) P := by
      refine Integrable.congr (f := fun ω => (49 / 625) * t ω i ^ 2 + (-2 * 168 / 625) * (t ω i * t ω j) + (576 / 625) * t ω j ^ 2)
        ((((i2 i).const_mul _).add ((int2 i j).const_mul _)).add ((i2 j).const_mul _)) (.of_forall fun ω => ?_)
      simp only; ring
    have e3 := integral_add hi1 hi2
    rw [e1, e2] at e3
    rw [two_mul, ← e3, ← integral_const_mul, ← integral_const_mul, ← integral_add ((i2 i).const_mul _) ((i2 j).const_mul _), ← integral_const_mul]
    refine integral_congr_ae (.of_forall fun ω => ?_)
    simp only; ring
  have even4 : ∀ i j, i ≠ j → 2 * ∫ ω, t ω i ^ 2 * t ω i ^ 2 ∂P = 2 * ((49 / 625) ^ 2 * ∫ ω, t ω i ^ 2 * t ω i ^ 2 ∂P +
      6 * (49 / 625) * (576 / 625) * ∫ ω, t ω i ^ 2 * t ω j ^ 2 ∂P + (576 / 625) ^ 2 * ∫ ω, t ω j ^ 2 * t ω j ^ 2 ∂P) := by
    intro i j hij
    obtain ⟨O, hO, hOi⟩ := exists_rot i j hij 1 (by norm_num)
    obtain ⟨O', hO', hOi'⟩ := exists_rot i j hij (-1) (by norm_num)
    have hF : Measurable fun v : n → ℝ => v i ^ 2 * v i ^ 2 := ((measurable_pi_apply i).pow_const 2).mul ((measurable_pi_apply i).pow_const 2)
    have e1 := rot_int h O hO hF
    have e2 := rot_int h O' hO' hF
    simp only [hOi, hOi'] at e1 e2
    have hi : ∀ s : ℝ, Integrable (fun ω => (7 / 25 * t ω i + s * (24 / 25) * t ω j) ^ 2 * (7 / 25 * t ω i + s * (24 / 25) * t ω j) ^ 2) P := by
      intro s
      refine Integrable.congr (f := fun ω => ((7 / 25) ^ 4 * (t ω i ^ 2 * t ω i ^ 2) + (4 * (7 / 25) ^ 3 * s * (24 / 25)) * (t ω i * t ω i * (t ω i * t ω j))) +
          ((6 * (7 / 25) ^ 2 * s ^ 2 * (24 / 25) ^ 2) * (t ω i ^ 2 * t ω j ^ 2) +
          (4 * (7 / 25) * s ^ 3 * (24 / 25) ^ 3) * (t ω i * t ω j * (t ω j * t ω j))) + (s ^ 4 * (24 / 25) ^ 4) * (t ω j ^ 2 * t ω j ^ 2))
        (((((i4 i i).const_mul _).add ((int4 i i i j).const_mul _)).add (((i4 i j).const_mul _).add ((int4 i j j j).const_mul _))).add
          ((i4 j j).const_mul _)) (.of_forall fun ω => ?_)
      simp only; ring
    have e3 := integral_add (hi 1) (hi (-1))
    rw [e1, e2] at e3
    have e4 : ∫ ω, (2 * (((49 / 625) ^ 2 * (t ω i ^ 2 * t ω i ^ 2) + 6 * (49 / 625) * (576 / 625) * (t ω i ^ 2 * t ω j ^ 2)) +
        (576 / 625) ^ 2 * (t ω j ^ 2 * t ω j ^ 2))) ∂P = 2 * ((49 / 625) ^ 2 * ∫ ω, t ω i ^ 2 * t ω i ^ 2 ∂P +
      6 * (49 / 625) * (576 / 625) * ∫ ω, t ω i ^ 2 * t ω j ^ 2 ∂P + (576 / 625) ^ 2 * ∫ ω, t ω j ^ 2 * t ω j ^ 2 ∂P) := by
      have g1 : Integrable (fun ω => (49 / 625) ^ 2 * (t ω i ^ 2 * t ω i ^ 2)) P := (i4 i i).const_mul _
      have g2 : Integrable (fun ω => 6 * (49 / 625) * (576 / 625) * (t ω i ^ 2 * t ω j ^ 2)) P := (i4 i j).const_mul _
      have g3 : Integrable (fun ω => (576 / 625) ^ 2 * (t ω j ^ 2 * t ω j ^ 2)) P := (i4 j j).const_mul _
      rw [integral_const_mul]
      congr 1
      refine (integral_add (g1.add g2) g3).trans ?_
      rw [integral_const_mul]
      congr 1
      refine (integral_add g1 g2).trans ?_
      rw [integral_const_mul, integral_const_mul]
    rw [two_mul, ← e3, ← e4]
    refine integral_congr_ae (.of_forall fun ω => ?_)
    simp only; ring
  have eq2 : ∀ i j, ∫ ω, t ω i ^ 2 ∂P = ∫ ω, t ω j ^ 2 ∂P := by
    intro i j
    rcases eq_or_ne i j with rfl | hij
    · rfl
    · linarith [even2 i j hij]
  have sum2 : ∑ i, ∫ ω, t ω i ^ 2 ∂P = 1 := by
    rw [← integral_finsetSum _ fun i _ => i2 i]
    have : (fun ω => ∑ i, t ω i ^ 2) =ᵐ[P] fun _ => 1 := by
      filter_upwards [h1] with ω hω
      rw [← hω, dotProduct]; simp only [sq]
    rw [integral_congr_ae this]
    simp
  have key2 : ∀ i, ∫ ω, t ω i ^ 2 ∂P = 1 / Fintype.card n := by
    intro i
    have hn : (Fintype.card n : ℝ) ≠ 0 := by
      have : Nonempty n := ⟨i⟩
      exact_mod_cast Fintype.card_ne_zero
    rw [Finset.sum_congr rfl fun j _ => eq2 j i, Finset.sum_const, Finset.card_univ, nsmul_eq_mul] at sum2
    rw [eq_div_iff hn, mul_comm, sum2]
  refine ⟨key2, ?_⟩
  have comm4 : ∀ i j, ∫ ω, t ω i ^ 2 * t ω j ^ 2 ∂P = ∫ ω, t ω j ^ 2 * t ω i ^ 2 ∂P := fun i j => by simp only [mul_comm]
  have eq4 : ∀ i j, i ≠ j → ∫ ω, t ω i ^ 2 * t ω i ^ 2 ∂P = 3 * ∫ ω, t ω i ^ 2 * t ω j ^ 2 ∂P := by
    intro i j hij
    have a1 := even4 i j hij
    have a2 := even4 j i hij.symm
    rw [comm4 j i] at a2
    linarith
  have sum4 : ∀ i, ∑ j, ∫ ω, t ω i ^ 2 * t ω j ^ 2 ∂P = 1 / Fintype.card n := by
    intro i
    rw [← integral_finsetSum _ fun j _ => i4 i j, ← key2 i]
    refine integral_congr_ae ?_
    filter_upwards [h1] with ω hω
    rw [← Finset.mul_sum]
    have : ∑ j, t ω j ^ 2 = 1 := by rw [← hω, dotProduct]; simp only [sq]
    rw [this, mul_one]
  have key4 : ∀ i, ∫ ω, t ω i ^ 2 * t ω i ^ 2 ∂P = 3 / (Fintype.card n * (Fintype.card n + 2)) := by
    intro i
    have hn : (0 : ℝ) < Fintype.card n := by
      have : Nonempty n := ⟨i⟩
      exact_mod_cast Fintype.card_pos
    have hs := sum4 i
    rw [← Finset.add_sum_erase _ _ (Finset.mem_univ i)] at hs
    have e : ∀ j ∈ Finset.univ.erase i, ∫ ω, t ω i ^ 2 * t ω j ^ 2 ∂P = (∫ ω, t ω i ^ 2 * t ω i ^ 2 ∂P) / 3 := by
      intro j hj
      rw [eq4 i j (Finset.ne_of_mem_erase hj).symm]; ring
    rw [Finset.sum_congr rfl e, Finset.sum_const, Finset.card_erase_of_mem (Finset.mem_univ i), Finset.card_univ, nsmul_eq_mul,
      Nat.cast_sub (by exact_mod_cast hn), Nat.cast_one] at hs
    rw [eq_div_iff (by positivity)]
    have hs := (eq_div_iff hn.ne').1 hs
    linear_combination 3 * hs
  intro i j
  rcases eq_or_ne i j with rfl | hij
  · rw [if_pos rfl, key4 i]
  · rw [if_neg hij]
    have := eq4 i j hij
    rw [key4 i] at this
    rw [show ∫ ω, t ω i ^ 2 * t ω j ^ 2 ∂P = (3 / (Fintype.card n * (Fintype.card n + 2))) / 3 by rw [this]; ring]
    ring

theorem trace_conj (U : Matrix n n ℝ) (hU : Uᵀ * U = 1) (l : n → ℝ) :
    trace (U * diagonal l * Uᵀ) = ∑ i, l i ∧ trace (U * diagonal l * Uᵀ * (U * diagonal l * Uᵀ)) = ∑ i, l i ^ 2 := by
  constructor
  · rw [trace_mul_comm, ← Matrix.mul_assoc, hU, Matrix.one_mul, trace_diagonal]
  · rw [Matrix.mul_assoc, ← Matrix.mul_assoc Uᵀ, ← Matrix.mul_assoc Uᵀ, hU, Matrix.one_mul, Matrix.mul_assoc, ← Matrix.mul_assoc (diagonal l),
      trace_mul_comm, Matrix.mul_assoc, hU, Matrix.mul_one, diagonal_mul_diagonal, trace_diagonal]
    simp only [sq]

/-- Mean and second moment of a quadratic form in a vector with uniformly distributed direction. -/
theorem unit_quad {t : Ω → n → ℝ} (h : Spherical P t) (h1 : ∀ᵐ ω ∂P, t ω ⬝ᵥ t ω = 1) (C : Matrix n n ℝ) (hC : Cᵀ = C) :
    ∫ ω, t ω ⬝ᵥ (C *ᵥ t ω) ∂P = trace C / Fintype.card n ∧
    ∫ ω, (t ω ⬝ᵥ (C *ᵥ t ω)) ^ 2 ∂P = (2 * trace (C * C) + trace C ^ 2) / (Fintype.card n * (Fintype.card n + 2)) := by
  have := h.prob
  obtain ⟨U, l, hU, hA⟩ := real_spectral C hC
  have hU' : Uᵀᵀ * Uᵀ = 1 := by rw [transpose_transpose]; exact mul_eq_one_comm.1 hU
  have hq : ∀ v, v ⬝ᵥ (C *ᵥ v) = ∑ i, l i * (Uᵀ *ᵥ v) i ^ 2 := by
    intro v
    rw [hA, Matrix.mul_assoc, ← mulVec_mulVec, dotProduct_mulVec, ← mulVec_transpose, ← mulVec_mulVec, dotProduct]
    refine Finset.sum_congr rfl fun i _ => ?_
    rw [mulVec_diagonal]; ring
  obtain ⟨m2, m4⟩ := unit_moments h h1
  obtain ⟨t1, t2⟩ := trace_conj U hU l
  rw [← hA] at t1 t2
  simp only [hq]
  have hc : ∀ i : n, Measurable fun v : n → ℝ => v i := fun i => measurable_pi_apply i
  have hF : Measurable fun v : n → ℝ => ∑ i, l i * v i ^ 2 := Finset.measurable_sum _ fun i _ => ((hc i).pow_const 2).const_mul _
  have hb : ∀ i, ∀ᵐ ω ∂P, |t ω i| ≤ 1 := by
    intro i
    filter_upwards [h1] with ω hω
    rw [← sq_le_one_iff_abs_le_one, ← hω, dotProduct]
    simp only [← sq]
    exact Finset.single_le_sum (f := fun i => t ω i ^ 2) (fun _ _ => sq_nonneg _) (Finset.mem_univ i)
  have i2 : ∀ i, Integrable (fun ω => t ω i ^ 2) P := by
    intro i
    refine Integrable.of_bound (((hc i).comp h.meas).pow_const 2).aestronglyMeasurable 1 ?_
    filter_upwards [hb i] with ω hi
    rw [Real.norm_eq_abs, abs_pow]
    exact pow_le_one₀ (abs_nonneg _) hi
  have i4 : ∀ i j, Integrable (fun ω => t ω i ^ 2 * t ω j ^ 2) P := by
    intro i j
    refine Integrable.of_bound ((((hc i).comp h.meas).pow_const 2).mul (((hc j).comp h.meas).pow_const 2)).aestronglyMeasurable 1 ?_
    filter_upwards [hb i, hb j] with ω hi hj
    rw [Real.norm_eq_abs, abs_mul, abs_pow, abs_pow]
    exact mul_le_one₀ (pow_le_one₀ (abs_nonneg _) hi) (by positivity) (pow_le_one₀ (abs_nonneg _) hj)
  constructor
  · rw [rot_int h Uᵀ hU' hF, integral_finsetSum _ fun i _ => (i2 i).const_mul _, t1, Finset.sum_div]
    refine Finset.sum_congr rfl fun i _ => ?_
    rw [integral_const_mul, m2 i]; ring
  · rw [rot_int h Uᵀ hU' (hF.pow_const 2)]
    have e : ∀ ω, (∑ i, l i * t ω i ^ 2) ^ 2 = ∑ i, ∑ j, (l i * l j) * (t ω i ^ 2 * t ω j ^ 2) := by
      intro ω
      rw [sq, Finset.sum_mul_sum]
      refine Finset.sum_congr rfl fun i _ => Finset.sum_congr rfl fun j _ => ?_
      ring
    simp only [e]
    rw [integral_finsetSum _ fun i _ => integrable_finsetSum _ fun j _ => (i4 i j).const_mul _]
    have e2 : ∀ i, ∫ ω, (∑ j, (l i * l j) * (t ω i ^ 2 * t ω j ^ 2)) ∂P =
        (2 * l i ^ 2 + l i * ∑ j, l j) / (Fintype.card n * (Fintype.card n + 2)) := by
      intro i
      rw [integral_finsetSum _ fun j _ => (i4 i j).const_mul _]
      simp only [integral_const_mul, m4]
      rw [add_div, Finset.mul_sum, Finset.sum_div]
      have e3 : ∀ j, l i * l j * ((if i = j then (3 : ℝ) else 1) / (Fintype.card n * (Fintype.card n + 2))) =
          (if i = j then 2 * l i ^ 2 / (Fintype.card n * (Fintype.card n + 2)) else 0) + l i * l j / (Fintype.card n * (Fintype.card n + 2)) := by
        intro j
        split_ifs with hij
        · subst hij; ring
        · ring
      simp only [e3]
      rw [Finset.sum_add_distrib, Finset.sum_ite_eq, if_pos (Finset.mem_univ i)]
    simp only [e2]
    rw [← Finset.sum_div, Finset.sum_add_distrib, ← Finset.mul_sum, ← Finset.sum_mul, t1, t2]
    ring

/-- The direction of a spherical vector. -/
theorem spherical_dir {e : Ω → n → ℝ} (h : Spherical P e) : Spherical P fun ω => (Real.sqrt (e ω ⬝ᵥ e ω))⁻¹ • e ω := by
  have hg : Measurable fun v : n → ℝ => (Real.sqrt (v ⬝ᵥ v))⁻¹ • v := by
    have h1 : Measurable fun v : n → ℝ => v ⬝ᵥ v := (Continuous.dotProduct continuous_id continuous_id).measurable
    exact (h1.sqrt.inv).smul measurable_id
  refine ⟨h.prob, hg.comp h.meas, fun O hO => ?_⟩
  have hm : Measurable fun v : n → ℝ => O *ᵥ v := (Continuous.matrix_mulVec continuous_const continuous_id).measurable
  have e1 : (fun ω => O *ᵥ ((Real.sqrt (e ω ⬝ᵥ e ω))⁻¹ • e ω)) = (fun v : n → ℝ => (Real.sqrt (v ⬝ᵥ v))⁻¹ • v) ∘ fun ω => O *ᵥ e ω := by
    funext ω
    rw [Function.comp, dot_rot O hO, mulVec_smul]
  have hme : Measurable fun ω => O *ᵥ e ω := hm.comp h.meas
  rw [e1, ← Measure.map_map hg hme, h.rot O hO, Measure.map_map hg h.meas]
  rfl

/-- Orthonormal combinations of a spherical vector. -/
theorem spherical_factor {e : Ω → n → ℝ} (h : Spherical P e) (Q : Matrix n m ℝ) (hQ : Qᵀ * Q = 1) : Spherical P fun ω => Qᵀ *ᵥ e ω := by
  have hg : Measurable fun v : n → ℝ => Qᵀ *ᵥ v := (Continuous.matrix_mulVec continuous_const continuous_id).measurable
  refine ⟨h.prob, hg.comp h.meas, fun O hO => ?_⟩
  let R : Matrix n n ℝ := Q * O * Qᵀ + (1 - Q * Qᵀ)
  have c1 : (1 - Q * Qᵀ) * Q = 0 := by rw [Matrix.sub_mul, Matrix.one_mul, Matrix.mul_assoc, hQ, Matrix.mul_one, sub_self]
  have c2 : Qᵀ * (1 - Q * Qᵀ) = 0 := by rw [Matrix.mul_sub, Matrix.mul_one, ← Matrix.mul_assoc, hQ, Matrix.one_mul, sub_self]
  have hR : Rᵀ * R = 1 := by
    have e1 : Rᵀ = Q * Oᵀ * Qᵀ + (1 - Q * Qᵀ) := by
      simp only [R, transpose_add, transpose_mul, transpose_sub, transpose_one, transpose_transpose, Matrix.mul_assoc]
    have p1 : Q * Oᵀ * Qᵀ * (Q * O * Qᵀ) = Q * Qᵀ := by
      calc Q * Oᵀ * Qᵀ * (Q * O * Qᵀ) = Q * (Oᵀ * ((Qᵀ * Q) * O)) * Qᵀ := by simp only [Matrix.mul_assoc]
        _ = Q * Qᵀ := by rw [hQ, Matrix.one_mul, hO, Matrix.mul_one]
    have p2 : Q * Oᵀ * Qᵀ * (1 - Q * Qᵀ) = 0 := by rw [Matrix.mul_assoc, c2, Matrix.mul_zero]
    have p3 : (1 - Q * Qᵀ) * (Q * O * Qᵀ) = 0 := by rw [← Matrix.mul_assoc, ← Matrix.mul_assoc, c1, Matrix.zero_mul, Matrix.zero_mul]
    have p4 : (1 - Q * Qᵀ) * (1 - Q * Qᵀ) = 1 - Q * Qᵀ := by
      rw [Matrix.mul_sub, Matrix.mul_one, ← Matrix.mul_assoc, c1, Matrix.zero_mul, sub_zero]
    rw [e1]
    simp only [R]
    rw [Matrix.add_mul, Matrix.mul_add, Matrix.mul_add, p1, p2, p3, p4]
    abel
  have hRQ : Qᵀ * R = O * Qᵀ := by
    simp only [R]
    rw [Matrix.mul_add, c2, add_zero, ← Matrix.mul_assoc, ← Matrix.mul_assoc, hQ, Matrix.one_mul]
  have hm : Measurable fun v : n → ℝ => R *ᵥ v := (Continuous.matrix_mulVec continuous_const continuous_id).measurable
  have e1 : (fun ω => O *ᵥ (Qᵀ *ᵥ e ω)) = (fun v : n → ℝ => Qᵀ *ᵥ v) ∘ fun ω => R *ᵥ e ω := by
    funext ω
    simp only [Function.comp, mulVec_mulVec, hRQ]
  have hme : Measurable fun ω => R *ᵥ e ω := hm.comp h.meas
  rw [e1, ← Measure.map_map hg hme, h.rot R hR, Measure.map_map hg h.meas]
  rfl

/-- Mean and second moment of the ratio of quadratic forms in spherical residuals. -/
theorem ratio_moments {e : Ω → n → ℝ} (h : Spherical P e) (M : Matrix n n ℝ) (hT : Mᵀ = M) (hM : M * M = M)
    (h0 : ∀ᵐ ω ∂P, M *ᵥ e ω ≠ 0) (W : Matrix n n ℝ) :
    MemLp (fun ω => ((M *ᵥ e ω) ⬝ᵥ (W *ᵥ (M *ᵥ e ω))) / ((M *ᵥ e ω) ⬝ᵥ (M *ᵥ e ω))) 2 P ∧
    ∫ ω, ((M *ᵥ e ω) ⬝ᵥ (W *ᵥ (M *ᵥ e ω))) / ((M *ᵥ e ω) ⬝ᵥ (M *ᵥ e ω)) ∂P = trace (M * W) / trace M ∧
    ∫ ω, (((M *ᵥ e ω) ⬝ᵥ (W *ᵥ (M *ᵥ e ω))) / ((M *ᵥ e ω) ⬝ᵥ (M *ᵥ e ω))) ^ 2 ∂P =
      (trace (M * W * (M * Wᵀ)) + trace (M * W * (M * W)) + trace (M * W) ^ 2) / (trace M * (trace M + 2)) := by
  obtain ⟨m, _, _, Q, hQ, hQQ, hd⟩ := proj_factor M hT hM
  let C : Matrix m m ℝ := (1 / 2 : ℝ) • (Qᵀ * W * Q + (Qᵀ * W * Q)ᵀ)
  have hC : Cᵀ = C := by
    simp only [C]
    rw [transpose_smul, transpose_add, transpose_transpose, add_comm]
  let t : Ω → m → ℝ := fun ω => (Real.sqrt ((Qᵀ *ᵥ e ω) ⬝ᵥ (Qᵀ *ᵥ e ω)))⁻¹ • (Qᵀ *ᵥ e ω)
  have ht : Spherical P t := spherical_dir (spherical_factor h Q hQ)
  have hMe : ∀ ω, M *ᵥ e ω = Q *ᵥ (Qᵀ *ᵥ e ω) := fun ω => by rw [mulVec_mulVec, hQQ]
  have hqq : ∀ v : m → ℝ, (Q *ᵥ v) ⬝ᵥ (Q *ᵥ v) = v ⬝ᵥ v := by
    intro v
    rw [dotProduct_mulVec, ← mulVec_transpose, mulVec_mulVec, hQ, one_mulVec]
  have hnum : ∀ v : m → ℝ, (Q *ᵥ v) ⬝ᵥ (W *ᵥ (Q *ᵥ v)) = v ⬝ᵥ (C *ᵥ v) := by
    intro v
    have e1 : (Q *ᵥ v) ⬝ᵥ (W *ᵥ (Q *ᵥ v)) = v ⬝ᵥ ((Qᵀ * W * Q) *ᵥ v) := by
      rw [dotProduct_comm, dotProduct_mulVec, ← mulVec_transpose, dotProduct_comm, mulVec_mulVec, mulVec_mulVec, Matrix.mul_assoc]
    have e2 : v ⬝ᵥ ((Qᵀ * W * Q)ᵀ *ᵥ v) = v ⬝ᵥ ((Qᵀ * W * Q) *ᵥ v) := by
      rw [mulVec_transpose, dotProduct_comm, ← dotProduct_mulVec]
    rw [e1]
    simp only [C]
    rw [smul_mulVec, dotProduct_smul, add_mulVec, dotProduct_add, e2, smul_eq_mul]
    ring
  have hpos : ∀ᵐ ω ∂P, 0 < (Qᵀ *ᵥ e ω) ⬝ᵥ (Qᵀ *ᵥ e ω) := by
    filter_upwards [h0] with ω hω
    refine lt_of_le_of_ne (by simp only [dotProduct]; exact Finset.sum_nonneg fun i _ => mul_self_nonneg _) fun hz => hω ?_
    rw [hMe, dotProduct_self_eq_zero.1 hz.symm, mulVec_zero]
  have h1 : ∀ᵐ ω ∂P, t ω ⬝ᵥ t ω = 1 := by
    filter_upwards [hpos] with ω hω
    simp only [t, smul_dotProduct, dotProduct_smul, smul_eq_mul]
    have := Real.mul_self_sqrt hω.le
    have hs := (Real.sqrt_pos.2 hω).ne'
    field_simp
    rw [sq]; exact this.symm
  have hr : ∀ᵐ ω ∂P, ((M *ᵥ e ω) ⬝ᵥ (W *ᵥ (M *ᵥ e ω))) / ((M *ᵥ e ω) ⬝ᵥ (M *ᵥ e ω)) = t ω ⬝ᵥ (C *ᵥ t ω) := by
    filter_upwards [hpos] with ω hω
    rw [hMe, hqq, hnum]
    simp only [t, smul_dotProduct, dotProduct_smul, mulVec_smul, smul_eq_mul]
    have := Real.mul_self_sqrt hω.le
    have hs := (Real.sqrt_pos.2 hω).ne'
    rw [div_eq_iff hω.ne']
    field_simp
    rw [sq, this]
  have hb : ∀ i, ∀ᵐ ω ∂P, |t ω i| ≤ 1 := by
    intro i
    filter_upwards [h1] with ω hω
    rw [← sq_le_one_iff_abs_le_one, ← hω, dotProduct]
    simp only [← sq]
    exact Finset.single_le_sum (f := fun i => t ω i ^ 2) (fun _ _ => sq_nonneg _) (Finset.mem_univ i)
  have hL : MemLp (fun ω => t ω ⬝ᵥ (C *ᵥ t ω)) 2 P := by
    have := h.prob
    simp only [dotProduct, Matrix.mulVec, Finset.mul_sum]
    refine memLp_finsetSum _ fun i _ => memLp_finsetSum _ fun j _ => ?_
    have hi : Measurable fun ω => t ω i := (measurable_pi_apply i).comp ht.meas
    have hj : Measurable fun ω => t ω j := (measurable_pi_apply j).comp ht.meas
    refine MemLp.of_bound (hi.mul (hj.const_mul _)).aestronglyMeasurable |C i j| ?_
    filter_upwards [hb i, hb j] with ω b1 b2
    rw [Real.norm_eq_abs, abs_mul, abs_mul]
    calc |t ω i| * (|C i j| * |t ω j|) ≤ 1 * (|C i j| * 1) := by gcongr
      _ = |C i j| := by ring
  refine ⟨hL.ae_eq (hr.mono fun ω hω => hω.symm), ?_⟩
  obtain ⟨a1, a2⟩ := unit_quad ht h1 C hC
  have tr1 : trace C = trace (M * W) := by
    simp only [C]
    rw [trace_smul, trace_add, trace_transpose, Matrix.mul_assoc, trace_mul_comm, Matrix.mul_assoc, hQQ, trace_mul_comm, smul_eq_mul]
    ring
  have tr2 : 2 * trace (C * C) = trace (M * W * (M * Wᵀ)) + trace (M * W * (M * W)) := by
    have b1 : ∀ A B : Matrix n n ℝ, trace (Qᵀ * A * Q * (Qᵀ * B * Q)) = trace (M * A * (M * B)) := by
      intro A B
      have : Qᵀ * A * Q * (Qᵀ * B * Q) = (Qᵀ * A * Q * Qᵀ * B) * Q := by simp only [Matrix.mul_assoc]
      rw [this, trace_mul_comm, ← hQQ]
      simp only [Matrix.mul_assoc]
    have b2 : (Qᵀ * W * Q)ᵀ = Qᵀ * Wᵀ * Q := by simp only [transpose_mul, transpose_transpose, Matrix.mul_assoc]
    have b3 : trace (M * Wᵀ * (M * Wᵀ)) = trace (M * W * (M * W)) := by
      rw [← trace_transpose]
      simp only [transpose_mul, transpose_transpose, hT]
      rw [Matrix.mul_assoc, trace_mul_comm]
      simp only [Matrix.mul_assoc]
    have b4 : trace (M * Wᵀ * (M * W)) = trace (M * W * (M * Wᵀ)) := trace_mul_comm _ _
    simp only [C]
    rw [b2, Matrix.smul_mul, Matrix.mul_smul, trace_smul, trace_smul, Matrix.add_mul, Matrix.mul_add, Matrix.mul_add, trace_add, trace_add,
      trace_add, b1, b1, b1, b1, b3, b4]
    simp only [smul_eq_mul]
    ring
  constructor
  · rw [integral_congr_ae hr, a1, tr1, hd]
  · have hr2 := hr.mono fun ω hω => congrArg (· ^ 2) hω
    rw [integral_congr_ae hr2, a2, tr1, tr2, hd]


/-- Independent normal errors with equal variance are spherical. -/
theorem normal_spherical (s2 : ℝ) (hs : 0 < s2) : Spherical (Measure.pi fun _ : n => gaussianReal 0 s2.toNNReal) fun v => v := by
  refine ⟨inferInstance, measurable_id, fun O hO => ?_⟩
  have hO' : O * Oᵀ = 1 := mul_eq_one_comm.1 hO
  have hd : IsUnit O.det := by
    have : O.det * Oᵀ.det = 1 := by rw [← det_mul, hO', det_one]
    exact IsUnit.of_mul_eq_one _ this
  have h1 := DGPRandom.affine_density O hd 0 s2 hs
  have h2 := DGPRandom.affine_density (1 : Matrix n n ℝ) (by rw [det_one]; exact isUnit_one) 0 s2 hs
  rw [hO'] at h1
  rw [transpose_one, Matrix.mul_one] at h2
  simp only [add_zero, one_mulVec] at h1 h2
  rw [h1, ← h2]

/-- A fixed non-zero matrix does not annihilate normal errors. -/
theorem normal_ne (s2 : ℝ) (hs : 0 < s2) (M : Matrix n n ℝ) (hM : M ≠ 0) :
    ∀ᵐ v ∂(Measure.pi fun _ : n => gaussianReal 0 s2.toNNReal), M *ᵥ v ≠ 0 := by
  rw [DGPRandom.gauss_pi _ (Real.toNNReal_pos.2 hs).ne']
  refine (withDensity_absolutelyContinuous volume _).ae_le ?_
  have h0 : volume ((LinearMap.ker (Matrix.mulVecLin M) : Submodule ℝ (n → ℝ)) : Set (n → ℝ)) = 0 := by
    refine Measure.addHaar_submodule _ _ fun htop => hM ?_
    rw [LinearMap.ker_eq_top] at htop
    ext i j
    have := congrFun (LinearMap.congr_fun htop (Pi.single j 1)) i
    simpa using this
  refine mem_ae_iff.2 (measure_mono_null (fun v hv => ?_) h0)
  simpa using hv


variable {k : Type} [Fintype k] [DecidableEq k]

/-- Mean and variance of Moran's I of least squares residuals. -/
theorem cliff_ord {e : Ω → n → ℝ} (h : Spherical P e) (x : Matrix n k ℝ) (beta : k → ℝ)
    (r : Ω → Reg n k) (hr : ∀ ω, LM.reg x (x *ᵥ beta + e ω) = some (r ω)) (h0 : ∀ᵐ ω ∂P, (r ω).fit.u ≠ 0) (W : Matrix n n ℝ)
    (mean var : ℝ) (hc : RegDiag.CliffOrd x W mean var) :
    MemLp (fun ω => mI (r ω) W) 2 P ∧ ∫ ω, mI (r ω) W ∂P = mean ∧ Var[fun ω => mI (r ω) W; P] = var := by
  have := h.prob
  have hne : Nonempty Ω := nonempty_of_isProbabilityMeasure P
  let ω0 : Ω := Classical.choice hne
  have hu : ∀ ω, (r ω).fit.u = (1 - x * (xᵀ * x)⁻¹ * xᵀ) *ᵥ e ω := by
    intro ω
    obtain ⟨f, hf, hf'⟩ := Option.map_eq_some_iff.1 (hr ω)
    rw [← hf']
    exact (ols_linear x beta (e ω) f hf).2.2
  have hx : IsUnit (xᵀ * x).det := by
    obtain ⟨f, hf, -⟩ := Option.map_eq_some_iff.1 (hr ω0)
    exact (ols_eq_some hf).1
  obtain ⟨hMM, htr⟩ := annihilator x hx
  set M := 1 - x * (xᵀ * x)⁻¹ * xᵀ with hMdef
  have hT : Mᵀ = M := by
    rw [← hMM, transpose_mul, transpose_transpose]
  rw [hT] at hMM
  simp only [hu] at h0
  obtain ⟨q0, q1, q2⟩ := ratio_moments h M hT hMM h0 W
  rw [htr] at q1 q2
  have hmi : ∀ ω, mI (r ω) W = ((Fintype.card n : ℝ) / ∑ i, ∑ j, W i j) *
      (((M *ᵥ e ω) ⬝ᵥ (W *ᵥ (M *ᵥ e ω))) / ((M *ᵥ e ω) ⬝ᵥ (M *ᵥ e ω))) := by
    intro ω
    rw [mI, utu_eq_dot]
    have : wu (r ω) W = W *ᵥ (r ω).fit.u := rfl
    rw [this, hu, s0, div_mul_div_comm]
  have hL : MemLp (fun ω => mI (r ω) W) 2 P := by
    simp only [hmi]
    exact q0.const_mul _
  obtain ⟨c1, c2⟩ := hc
  rw [← hMdef] at c1 c2
  have hmean : ∫ ω, mI (r ω) W ∂P = mean := by
    simp only [hmi]
    rw [integral_const_mul, q1, c1]
  refine ⟨hL, hmean, ?_⟩
  rw [variance_eq_sub hL, hmean, c2]
  congr 1
  simp only [Pi.pow_apply, hmi, mul_pow]
  rw [integral_const_mul, q2]

/-- **C169.** Moran's I of the residuals of `OLS`: over all errors with a distribution that does not change under rotations, its
mean is the reported `eI`, its variance the reported `vI`, and the standardised value has mean zero and variance one. -/
theorem C169_moran {e : Ω → n → ℝ} (h : Spherical P e) (x : Matrix n k ℝ) (hk : Fintype.card k < Fintype.card n) (beta : k → ℝ)
    (r : Ω → Reg n k) (hr : ∀ ω, LM.reg x (x *ᵥ beta + e ω) = some (r ω)) (h0 : ∀ᵐ ω ∂P, (r ω).fit.u ≠ 0) (W : Matrix n n ℝ)
    (hW : ∀ i, W i i = 0) (ω' : Ω) :
    ∫ ω, mI (r ω) W ∂P = eI (r ω') W ∧ Var[fun ω => mI (r ω) W; P] = vI (r ω') W ∧
    (vI (r ω') W ≠ 0 → ∫ ω, zI (mI (r ω) W) (eI (r ω) W) (vI (r ω) W) ∂P = 0 ∧
      Var[fun ω => zI (mI (r ω) W) (eI (r ω) W) (vI (r ω) W); P] = 1) := by
  have := h.prob
  obtain ⟨hL, h1, h2⟩ := cliff_ord h x beta r hr h0 W _ _ (C60_moran_moments _ _ _ (hr ω') W hW hk)
  refine ⟨h1, h2, fun hv => ?_⟩
  have hsame : ∀ ω, eI (r ω) W = eI (r ω') W ∧ vI (r ω) W = vI (r ω') W := by
    intro ω
    obtain ⟨a1, a2⟩ := C60_moran_moments _ _ _ (hr ω) W hW hk
    obtain ⟨b1, b2⟩ := C60_moran_moments _ _ _ (hr ω') W hW hk
    have e1 : eI (r ω) W = eI (r ω') W := a1.trans b1.symm
    exact ⟨e1, by rw [a2, b2, e1]⟩
  simp only [fun ω => (hsame ω).1, fun ω => (hsame ω).2]
  have hpos : 0 < vI (r ω') W := lt_of_le_of_ne (h2 ▸ variance_nonneg _ _) hv.symm
  have hI : Integrable (fun ω => mI (r ω) W) P := hL.integrable (by norm_num)
  have hz : ∀ ω, zI (mI (r ω) W) (eI (r ω') W) (vI (r ω') W) =
      (Real.sqrt (vI (r ω') W))⁻¹ * (mI (r ω) W - eI (r ω') W) := fun ω => by rw [zI, div_eq_inv_mul]
  simp only [hz]
  refine ⟨?_, ?_⟩
  · rw [integral_const_mul, integral_sub hI (integrable_const _), h1]
    simp
  · rw [variance_const_mul, variance_sub_const hL.aestronglyMeasurable, h2, inv_pow, Real.sq_sqrt hpos.le, inv_mul_cancel₀ hpos.ne']

/-- **C169.** The same for the pooled regression of `OLS_Regimes`, whatever varies over regimes. -/
theorem C169_regimes {ρ p : Type} [Fintype ρ] [Fintype p] [DecidableEq ρ] [DecidableEq p] {e : Ω → n → ℝ} (h : Spherical P e)
    (x : Matrix n p ℝ) (g : n → ρ) (vary : Option p → Bool) (hk : Fintype.card (GM.RCol vary ρ) < Fintype.card n)
    (beta : GM.RCol vary ρ → ℝ) (d : Ω → RegDiag.Diag n (GM.RCol vary ρ))
    (hr : ∀ ω, RegDiag.pooled x (GM.frame g vary (RegDiag.withConst x) *ᵥ beta + e ω) g vary = some (d ω))
    (h0 : ∀ᵐ ω ∂P, (d ω).reg.fit.u ≠ 0) (W : Matrix n n ℝ) (hW : ∀ i, W i i = 0) (ω' : Ω) :
    ∫ ω, mI (d ω).reg W ∂P = RegDiag.meanI (d ω') W ∧ Var[fun ω => mI (d ω).reg W; P] = RegDiag.varI (d ω') W :=
  (cliff_ord h _ beta (fun ω => (d ω).reg) (fun ω => (RegDiag.plain_eq (hr ω)).1) h0 W _ _
    (RegDiag.C160_pooled_moran x _ g vary _ (hr ω') W hW hk)).2

/-- **C169.** Data from `make_error(n, mu=0, varu, method='normal')` and `dgp_ols`. -/
theorem C169_generated {q : ℕ} (x : Matrix (Fin q) k ℝ) (hx : IsUnit (xᵀ * x).det) (hk : Fintype.card k < q) (beta : k → ℝ) (varu : ℝ)
    (hs : 0 < varu) (W : Matrix (Fin q) (Fin q) ℝ) (hW : ∀ i, W i i = 0) :
    ∃ (P : Measure (Fin q → ℝ)) (r : (Fin q → ℝ) → Reg (Fin q) k), DGPRandom.makeError q 0 varu "normal" = .ok (some P) ∧
      (∀ u, DGP.dgpOls u ⟨q, x *ᵥ beta⟩ = .ok (some (x *ᵥ beta + u))) ∧ (∀ u, LM.reg x (x *ᵥ beta + u) = some (r u)) ∧
      ∀ u', ∫ u, mI (r u) W ∂P = eI (r u') W ∧ Var[fun u => mI (r u) W; P] = vI (r u') W := by
  have hr : ∀ u, LM.reg x (x *ᵥ beta + u) = some ⟨x, x *ᵥ beta + u, olsWith x (x *ᵥ beta + u) (xᵀ * x)⁻¹⟩ := by
    intro u
    unfold LM.reg
    rw [ols_of_isUnit _ _ hx]
    rfl
  refine ⟨_, fun u => ⟨x, x *ᵥ beta + u, olsWith x (x *ᵥ beta + u) (xᵀ * x)⁻¹⟩, DGPRandom.makeError_normal q varu hs, fun u => ?_, hr, fun u' => ?_⟩
  · unfold DGP.dgpOls
    simp only [dite_true, DGP.vadd_rfl]
    rw [add_comm]
  · have hk' : Fintype.card k < Fintype.card (Fin q) := by rwa [Fintype.card_fin]
    obtain ⟨-, htr⟩ := annihilator x hx
    have hM : (1 - x * (xᵀ * x)⁻¹ * xᵀ) ≠ 0 := by
      intro h
      rw [h, trace_zero] at htr
      have : (Fintype.card k : ℝ) < Fintype.card (Fin q) := by exact_mod_cast hk'
      linarith
    have h0 : ∀ᵐ u ∂(Measure.pi fun _ : Fin q => gaussianReal 0 varu.toNNReal),
        (olsWith x (x *ᵥ beta + u) (xᵀ * x)⁻¹).u ≠ 0 := by
      filter_upwards [normal_ne varu hs _ hM] with u hu
      rwa [(ols_linear x beta u _ (ols_of_isUnit x (x *ᵥ beta + u) hx)).2.2]
    obtain ⟨h1, h2, -⟩ := C169_moran (normal_spherical varu hs) x hk' beta _ hr h0 W hW u'
    exact ⟨h1, h2⟩


/-- One pair of neighbours and one observation without. -/
def pair3 : Matrix (Fin 3) (Fin 3) ℝ := !![0, 1, 0; 1, 0, 0; 0, 0, 0]

/-- The variance of a case is not zero. -/
theorem C169_example : IsUnit (DGPRandom.ones3ᵀ * DGPRandom.ones3).det ∧ (∀ i, pair3 i i = 0) ∧
    ∃ r, LM.reg DGPRandom.ones3 DGPRandom.y3 = some r ∧ vI r pair3 = 1 / 2 := by
  have e : DGPRandom.ones3ᵀ * DGPRandom.ones3 = (3 : ℝ) • 1 := by
    ext i j
    fin_cases i <;> fin_cases j <;> simp [DGPRandom.ones3, Matrix.mul_apply, Fin.sum_univ_three] <;> norm_num
  have hu : IsUnit (DGPRandom.ones3ᵀ * DGPRandom.ones3).det := by
    rw [e, det_smul, det_one]
    simp
  have ei : (DGPRandom.ones3ᵀ * DGPRandom.ones3)⁻¹ = (1 / 3 : ℝ) • 1 := by
    refine inv_eq_left_inv ?_
    rw [e, Matrix.smul_mul, Matrix.mul_smul, smul_smul, Matrix.one_mul]
    norm_num
  refine ⟨hu, fun i => by fin_cases i <;> simp [pair3], _, by unfold LM.reg; rw [ols_of_isUnit _ _ hu]; rfl, ?_⟩
  simp [vI, AB, trA, s0, s1, olsWith, ei, pair3, DGPRandom.ones3, Fin.sum_univ_three, Matrix.mul_apply, Matrix.vecMul, vecHead, vecTail]
  norm_num

end Spreg.Sampling
