import Verif.Props.Diagnostics
import Verif.Props.Checks
import Verif.Props.SUR2
import Mathlib.Analysis.Matrix.Spectrum
import Mathlib.Analysis.Matrix.PosDef
/-
Property C77: the multicollinearity condition index.
-/
namespace Spreg.Diag
open Matrix Spreg.Lin Spreg.LM

variable {n k : Type} [Fintype n] [Fintype k]

/-- the rescaled cross product, symmetric form -/
noncomputable def corrM (M : Matrix k k ℝ) : Matrix k k ℝ :=
  Matrix.of fun i j => M i j / (Real.sqrt (M i i) * Real.sqrt (M j j))

theorem ciScale_charpoly [DecidableEq k] (M : Matrix k k ℝ) (hpos : ∀ i, 0 < M i i) :
    (ciScale M).charpoly = (corrM M).charpoly := by
  set D := Matrix.diagonal (fun i => (Real.sqrt (M i i))⁻¹) with hD
  have h1 : ciScale M = (M * D) * D := by
    ext i j
    rw [hD, Matrix.mul_diagonal, Matrix.mul_diagonal, ciScale, Matrix.of_apply, mul_assoc, ← mul_inv,
      Real.mul_self_sqrt (hpos j).le, div_eq_mul_inv]
  have h2 : corrM M = D * (M * D) := by
    ext i j
    rw [hD, Matrix.diagonal_mul, Matrix.mul_diagonal, corrM, Matrix.of_apply, div_eq_mul_inv, mul_inv]
    ring
  rw [h1, h2, charpoly_mul_comm]

theorem corrM_posDef [DecidableEq k] (M : Matrix k k ℝ) (hM : M.PosDef) : (corrM M).PosDef := by
  have hpos : ∀ i, 0 < M i i := fun i => hM.diag_pos
  set D := Matrix.diagonal (fun i => (Real.sqrt (M i i))⁻¹) with hD
  have h2 : corrM M = Dᴴ * M * D := by
    ext i j
    rw [hD, diagonal_conjTranspose, Matrix.mul_diagonal, Matrix.diagonal_mul, corrM, Matrix.of_apply,
      div_eq_mul_inv, mul_inv]
    simp only [Pi.star_apply, star_trivial]
    ring
  rw [h2]
  apply hM.conjTranspose_mul_mul_same
  intro v w hvw
  ext i
  have := congrFun hvw i
  simp only [hD, mulVec_diagonal] at this
  have hne : (Real.sqrt (M i i))⁻¹ ≠ 0 := inv_ne_zero (Real.sqrt_pos.mpr (hpos i)).ne'
  exact mul_left_cancel₀ hne this

theorem gram_posDef [DecidableEq k] (x : Matrix n k ℝ) (hu : IsUnit (xᵀ * x).det) : (xᵀ * x).PosDef :=
  SUR.posDef_of (psd_gram x) hu

theorem eig_facts [DecidableEq k] (M : Matrix k k ℝ) (hM : M.PosDef) :
    (ciScale M).charpoly.roots = Multiset.map (corrM_posDef M hM).1.eigenvalues Finset.univ.val := by
  rw [ciScale_charpoly M (fun i => hM.diag_pos), (corrM_posDef M hM).1.roots_charpoly_eq_eigenvalues]
  rfl

/-- C77: all eigenvalues of the scaled cross product of a full-rank design are real and positive (as many
real roots of the characteristic polynomial as columns), and they sum to the number of columns. -/
theorem C77_real_eigenvalues [DecidableEq k] (x : Matrix n k ℝ) (hu : IsUnit (xᵀ * x).det) :
    Multiset.card (ciScale (xᵀ * x)).charpoly.roots = Fintype.card k ∧
    (∀ e ∈ (ciScale (xᵀ * x)).charpoly.roots, 0 < e) ∧
    (ciScale (xᵀ * x)).charpoly.roots.sum = Fintype.card k := by
  have hM := gram_posDef x hu
  have h := eig_facts _ hM
  have hC := corrM_posDef _ hM
  refine ⟨by rw [h]; simp, ?_, ?_⟩
  · intro e he
    rw [h, Multiset.mem_map] at he
    obtain ⟨i, -, rfl⟩ := he
    exact hC.eigenvalues_pos i
  · rw [h]
    have h1 := hC.1.trace_eq_sum_eigenvalues
    have h2 : (corrM (xᵀ * x)).trace = Fintype.card k := by
      unfold trace
      have : ∀ i, (corrM (xᵀ * x)).diag i = 1 := fun i => by
        have hp : 0 < (xᵀ * x) i i := hM.diag_pos
        rw [diag_apply, corrM, Matrix.of_apply, Real.mul_self_sqrt hp.le, div_self hp.ne']
      rw [Finset.sum_congr rfl fun i _ => this i]; simp
    rw [h2] at h1
    exact h1.symm

theorem foldl_max_mem (l : List ℝ) (a : ℝ) : l.foldl max a ∈ a :: l ∧ ∀ v ∈ a :: l, v ≤ l.foldl max a := by
  refine ⟨?_, (Chk.foldl_max_gt a l _).1 (lt_irrefl _)⟩
  induction l generalizing a with
  | nil => simp
  | cons b t ih =>
    rw [List.foldl_cons]
    rcases List.mem_cons.mp (ih (max a b)) with h | h
    · rw [h]
      rcases max_choice a b with h2 | h2 <;> rw [h2] <;> simp
    · exact List.mem_cons_of_mem _ (List.mem_cons_of_mem _ h)

theorem foldl_min_mem (l : List ℝ) (a : ℝ) : l.foldl min a ∈ a :: l ∧ ∀ v ∈ a :: l, l.foldl min a ≤ v := by
  refine ⟨?_, (Chk.foldl_min_lt a l _).1 (lt_irrefl _)⟩
  induction l generalizing a with
  | nil => simp
  | cons b t ih =>
    rw [List.foldl_cons]
    rcases List.mem_cons.mp (ih (min a b)) with h | h
    · rw [h]
      rcases min_choice a b with h2 | h2 <;> rw [h2] <;> simp
    · exact List.mem_cons_of_mem _ (List.mem_cons_of_mem _ h)

/-- C77: for a full-rank design with at least one column the condition index is the square root of the ratio
of the largest to the smallest eigenvalue of the cross product whose columns are divided by its diagonal, and
it is at least one. -/
theorem C77_condition_index [DecidableEq k] [Nonempty k] (x : Matrix n k ℝ) (hu : IsUnit (xᵀ * x).det) :
    ∃ hi lo : ℝ, conditionIndex (xᵀ * x) = some (Real.sqrt (hi / lo)) ∧
      hi ∈ (ciScale (xᵀ * x)).charpoly.roots ∧ lo ∈ (ciScale (xᵀ * x)).charpoly.roots ∧
      (∀ e ∈ (ciScale (xᵀ * x)).charpoly.roots, lo ≤ e ∧ e ≤ hi) ∧ 0 < lo ∧ lo ≤ 1 ∧ 1 ≤ hi ∧
      1 ≤ Real.sqrt (hi / lo) := by
  obtain ⟨hcard, hpos, hsum⟩ := C77_real_eigenvalues x hu
  set ms := (ciScale (xᵀ * x)).charpoly.roots with hms
  have hl : ms.toList ≠ [] := by
    intro h
    have : Multiset.card ms = 0 := by rw [← Multiset.length_toList, h]; rfl
    rw [hcard] at this
    exact Fintype.card_ne_zero this
  obtain ⟨e, es, hes⟩ := List.exists_cons_of_ne_nil hl
  have hmem : ∀ v, v ∈ e :: es ↔ v ∈ ms := fun v => by rw [← hes, Multiset.mem_toList]
  obtain ⟨m1, m2⟩ := foldl_max_mem es e
  obtain ⟨l1, l2⟩ := foldl_min_mem es e
  set hi := es.foldl max e
  set lo := es.foldl min e
  have hlo := hpos lo ((hmem _).mp l1)
  have hN : (0 : ℝ) < Fintype.card k := by exact_mod_cast Fintype.card_pos
  have s1 : (Fintype.card k : ℝ) * lo ≤ Fintype.card k := by
    have := Multiset.card_nsmul_le_sum (s := ms) (a := lo) (fun v hv => l2 v ((hmem v).mpr hv))
    rw [hcard, hsum, nsmul_eq_mul] at this; exact this
  have s2 : (Fintype.card k : ℝ) ≤ Fintype.card k * hi := by
    have := Multiset.sum_le_card_nsmul ms hi (fun v hv => m2 v ((hmem v).mpr hv))
    rw [hcard, hsum, nsmul_eq_mul] at this; exact this
  refine ⟨hi, lo, ?_, (hmem _).mp m1, (hmem _).mp l1,
    fun v hv => ⟨l2 v ((hmem v).mpr hv), m2 v ((hmem v).mpr hv)⟩, hlo, ?_, ?_, ?_⟩
  · unfold conditionIndex
    simp only
    rw [← hms, hes]
  · nlinarith
  · nlinarith
  · rw [Real.one_le_sqrt, le_div_iff₀ hlo, one_mul]
    exact l2 _ m1

/-- C77: the index is one exactly when the columns of the design are mutually orthogonal. -/
theorem C77_one_iff [DecidableEq k] [Nonempty k] (x : Matrix n k ℝ) (hu : IsUnit (xᵀ * x).det) :
    conditionIndex (xᵀ * x) = some 1 ↔ ∀ a b : k, a ≠ b → ∑ i, x i a * x i b = 0 := by
  obtain ⟨hi, lo, hci, hhi, hlo, hb, hlo0, hlo1, hhi1, -⟩ := C77_condition_index x hu
  have hM := gram_posDef x hu
  have hC := corrM_posDef _ hM
  have hroots := eig_facts _ hM
  have hdiag : ∀ i, 0 < (xᵀ * x) i i := fun i => hM.diag_pos
  rw [hci, Option.some.injEq]
  have e1 : Real.sqrt (hi / lo) = 1 ↔ (∀ i, hC.1.eigenvalues i = 1) := by
    rw [Real.sqrt_eq_one, div_eq_one_iff_eq hlo0.ne']
    constructor
    · intro h i
      have := hb (hC.1.eigenvalues i) (by rw [hroots, Multiset.mem_map]; exact ⟨i, Finset.mem_univ _, rfl⟩)
      linarith [this.1, this.2]
    · intro h
      rw [hroots, Multiset.mem_map] at hhi hlo
      obtain ⟨i, -, h1⟩ := hhi
      obtain ⟨j, -, h2⟩ := hlo
      rw [← h1, ← h2, h, h]
  rw [e1]
  have e2 : (∀ i, hC.1.eigenvalues i = 1) ↔ corrM (xᵀ * x) = 1 := by
    constructor
    · intro h
      have hs := hC.1.spectral_theorem
      have : (RCLike.ofReal ∘ hC.1.eigenvalues : k → ℝ) = fun _ => 1 := by
        ext i; simp [h i]
      rw [this] at hs
      rw [hs]
      have h1 : (diagonal fun _ => (1 : ℝ) : Matrix k k ℝ) = 1 := diagonal_one
      rw [h1, map_one]
    · intro h i
      have this : hC.1.eigenvalues i ∈ (ciScale (xᵀ * x)).charpoly.roots := by
        rw [hroots, Multiset.mem_map]; exact ⟨i, Finset.mem_univ _, rfl⟩
      rw [ciScale_charpoly _ hdiag, congrArg Matrix.charpoly h] at this
      rw [charpoly_one, Polynomial.mem_roots', Polynomial.IsRoot.def] at this
      have h2 := this.2
      simp only [Polynomial.eval_pow, Polynomial.eval_sub, Polynomial.eval_X, Polynomial.eval_one] at h2
      have := pow_eq_zero_iff (Fintype.card_ne_zero) |>.mp h2
      linarith
  rw [e2]
  constructor
  · intro h a b hab
    have := congrFun (congrFun h a) b
    rw [corrM, Matrix.of_apply, one_apply_ne hab] at this
    have hne : Real.sqrt ((xᵀ * x) a a) * Real.sqrt ((xᵀ * x) b b) ≠ 0 :=
      mul_ne_zero (Real.sqrt_pos.mpr (hdiag a)).ne' (Real.sqrt_pos.mpr (hdiag b)).ne'
    rcases div_eq_zero_iff.mp this with h0 | h0
    · exact h0
    · exact absurd h0 hne
  · intro h
    ext a b
    by_cases hab : a = b
    · subst hab
      rw [corrM, Matrix.of_apply, one_apply_eq, Real.mul_self_sqrt (hdiag a).le, div_self (hdiag a).ne']
    · rw [corrM, Matrix.of_apply, one_apply_ne hab]
      have : (xᵀ * x) a b = 0 := h a b hab
      rw [this, zero_div]

/-- C77: the index does not depend on the units of the regressors: multiplying each column by a nonzero
number changes nothing. -/
theorem C77_units [DecidableEq k] (x : Matrix n k ℝ) (c : k → ℝ) (hc : ∀ j, c j ≠ 0) :
    conditionIndex ((Matrix.of fun i j => x i j * c j)ᵀ * (Matrix.of fun i j => x i j * c j))
      = conditionIndex (xᵀ * x) := by
  have hxx : ∀ i j, ((Matrix.of fun i j => x i j * c j)ᵀ * (Matrix.of fun i j => x i j * c j)) i j
      = c i * (xᵀ * x) i j * c j := fun i j => by
    simp only [Matrix.mul_apply, transpose_apply, Matrix.of_apply, Finset.mul_sum, Finset.sum_mul]
    exact Finset.sum_congr rfl fun r _ => by ring
  have hs : ciScale ((Matrix.of fun i j => x i j * c j)ᵀ * (Matrix.of fun i j => x i j * c j))
      = diagonal c * (ciScale (xᵀ * x) * diagonal fun j => (c j)⁻¹) := by
    ext i j
    rw [Matrix.diagonal_mul, Matrix.mul_diagonal, ciScale, ciScale, Matrix.of_apply, Matrix.of_apply, hxx, hxx]
    have := hc j
    rcases eq_or_ne ((xᵀ * x) j j) 0 with h0 | h0
    · rw [h0]; simp
    · field_simp
  unfold conditionIndex
  have : (ciScale ((Matrix.of fun i j => x i j * c j)ᵀ * (Matrix.of fun i j => x i j * c j))).charpoly
      = (ciScale (xᵀ * x)).charpoly := by
    rw [hs, charpoly_mul_comm, Matrix.mul_assoc, diagonal_mul_diagonal]
    have : (fun i => (c i)⁻¹ * c i) = fun _ => 1 := by ext i; rw [inv_mul_cancel₀ (hc i)]
    rw [this, diagonal_one, Matrix.mul_one]
  rw [this]

/-- The design of the running example has an index above one: its columns are not orthogonal. -/
example : conditionIndex (exDᵀ * exD) ≠ some 1 := by
  rw [Ne, C77_one_iff exD exD_isUnit]
  intro h
  have := h 0 1 (by decide)
  simp [exD, Fin.sum_univ_four] at this
  norm_num at this

end Spreg.Diag
