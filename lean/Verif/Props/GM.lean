import Verif.Model.GM
import Verif.Props.OLS
import Mathlib.Analysis.Calculus.Deriv.Pow
import Mathlib.Analysis.Calculus.Deriv.Add
import Mathlib.Tactic.FieldSimp
import Mathlib.Analysis.Calculus.Deriv.Mul
import Mathlib.Algebra.BigOperators.Field
/-
Properties C13-C16, C57: moment equations of the GM estimators, spatial filters.
-/
namespace Spreg.GM
open Matrix Spreg.Lin

variable {n k : Type} [Fintype n] [Fintype k]

theorem N_ne_zero [Nonempty n] : N n ≠ 0 := by
  unfold N; exact_mod_cast Fintype.card_ne_zero

/-- bilinearity of `v ↦ v' A v` along `u - lam * w` -/
theorem quad_sub (A : Matrix n n ℝ) (u w : n → ℝ) (lam : ℝ) :
    (u - lam • w) ⬝ᵥ (A *ᵥ (u - lam • w)) = u ⬝ᵥ (A *ᵥ u)
      - lam * (u ⬝ᵥ (A *ᵥ w) + w ⬝ᵥ (A *ᵥ u)) + lam ^ 2 * (w ⬝ᵥ (A *ᵥ w)) := by
  simp only [mulVec_sub, mulVec_smul, sub_dotProduct, dotProduct_sub, smul_dotProduct,
    dotProduct_smul, smul_eq_mul]
  ring

/-! ### C13 -/

/-- C13: for every parameter value the moment arrays reproduce the sample moments of the filtered
residual `e = u - lam*W u`. -/
theorem C13_moments [Nonempty n] (W : Matrix n n ℝ) (u : n → ℝ) (lam s2 : ℝ) :
    let e : n → ℝ := fun i => u i - lam * ∑ j, W i j * u j
    let we : n → ℝ := fun i => ∑ j, W i j * e j
    ∀ i, (momentsGM W u).g i - ((momentsGM W u).G *ᵥ ![lam, lam ^ 2, s2]) i =
      ![(∑ i, e i ^ 2) / Fintype.card n - s2,
        (∑ i, we i ^ 2) / Fintype.card n - s2 * (∑ i, ∑ j, W i j ^ 2) / Fintype.card n,
        (∑ i, e i * we i) / Fintype.card n] i := by
  intro e we i
  have he : e = u - lam • (W *ᵥ u) := by ext i; simp [e, mulVec, dotProduct]
  have hwe : we = W *ᵥ e := by ext i; simp [we, mulVec, dotProduct]
  have h1 : ∑ i, e i ^ 2 = e ⬝ᵥ e := utu_eq_dot e
  have h2 : ∑ i, we i ^ 2 = we ⬝ᵥ we := utu_eq_dot we
  have h3 : ∑ i, e i * we i = e ⬝ᵥ we := rfl
  have htr : ∑ i, ∑ j, W i j ^ 2 = ∑ i, (Wᵀ * W) i i := by
    simp only [mul_apply, transpose_apply, ← pow_two]
    exact Finset.sum_comm
  have hn : (Fintype.card n : ℝ) ≠ 0 := N_ne_zero (n := n)
  have e1 : e ⬝ᵥ e = u ⬝ᵥ u - 2 * lam * (u ⬝ᵥ (W *ᵥ u)) + lam ^ 2 * ((W *ᵥ u) ⬝ᵥ (W *ᵥ u)) := by
    rw [he]
    simp only [sub_dotProduct, dotProduct_sub, smul_dotProduct, dotProduct_smul, smul_eq_mul]
    rw [dotProduct_comm (W *ᵥ u) u]; ring
  have e2 : we ⬝ᵥ we = (W *ᵥ u) ⬝ᵥ (W *ᵥ u) - 2 * lam * ((W *ᵥ u) ⬝ᵥ (W *ᵥ (W *ᵥ u)))
      + lam ^ 2 * ((W *ᵥ (W *ᵥ u)) ⬝ᵥ (W *ᵥ (W *ᵥ u))) := by
    rw [hwe, he, mulVec_sub, mulVec_smul]
    simp only [sub_dotProduct, dotProduct_sub, smul_dotProduct, dotProduct_smul, smul_eq_mul]
    rw [dotProduct_comm (W *ᵥ (W *ᵥ u)) (W *ᵥ u)]; ring
  have e3 : e ⬝ᵥ we = u ⬝ᵥ (W *ᵥ u) - lam * (u ⬝ᵥ (W *ᵥ (W *ᵥ u)) + (W *ᵥ u) ⬝ᵥ (W *ᵥ u))
      + lam ^ 2 * ((W *ᵥ u) ⬝ᵥ (W *ᵥ (W *ᵥ u))) := by
    rw [hwe, he, quad_sub]
  rw [h1, h2, h3, htr, e1, e2, e3]
  fin_cases i <;>
    simp [momentsGM, mulVec, dotProduct, Fin.sum_univ_three, N] <;> field_simp <;> ring

/-- C13: hence the objective handed to the optimiser is the sum of squares of these three moments. -/
theorem C13_objective [Nonempty n] (W : Matrix n n ℝ) (u : n → ℝ) (lam s2 : ℝ) :
    let e : n → ℝ := fun i => u i - lam * ∑ j, W i j * u j
    let we : n → ℝ := fun i => ∑ j, W i j * e j
    foptimPar ![lam, lam ^ 2, s2] (momentsGM W u) =
      ((∑ i, e i ^ 2) / Fintype.card n - s2) ^ 2 +
      ((∑ i, we i ^ 2) / Fintype.card n - s2 * (∑ i, ∑ j, W i j ^ 2) / Fintype.card n) ^ 2 +
      ((∑ i, e i * we i) / Fintype.card n) ^ 2 := by
  intro e we
  have h := C13_moments W u lam s2
  simp only at h
  unfold foptimPar
  rw [Fin.sum_univ_three, h 0, h 1, h 2]
  rfl

/-- C13/C14: the rescaling of the moments before optimisation divides the objective by `scale²`, so for
every nonzero scale the set of minimisers (over any set of admissible parameters) is unchanged. -/
theorem C13_rescale {r c : Type} [Fintype r] [Fintype c] (M : Moments r c) (s : ℝ) (hs : s ≠ 0)
    (S : Set (c → ℝ)) (p : c → ℝ) :
    foptimPar p (rescale M s) = foptimPar p M / s ^ 2 ∧
    ((∀ q ∈ S, foptimPar p (rescale M s) ≤ foptimPar q (rescale M s)) ↔
      (∀ q ∈ S, foptimPar p M ≤ foptimPar q M)) := by
  have key : ∀ p : c → ℝ, foptimPar p (rescale M s) = foptimPar p M / s ^ 2 := by
    intro p
    unfold foptimPar rescale
    rw [Finset.sum_div]
    refine Finset.sum_congr rfl fun i _ => ?_
    have : ((Matrix.of fun i j => M.G i j / s : Matrix r c ℝ) *ᵥ p) i = (M.G *ᵥ p) i / s := by
      simp only [mulVec, dotProduct, of_apply, Finset.sum_div]
      exact Finset.sum_congr rfl fun j _ => by ring
    simp only [this]
    field_simp
  refine ⟨key p, ?_⟩
  have hpos : 0 < s ^ 2 := by positivity
  simp only [key]
  constructor
  · intro h q hq; exact (div_le_div_iff_of_pos_right hpos).mp (h q hq)
  · intro h q hq; exact (div_le_div_iff_of_pos_right hpos).mpr (h q hq)

/-- Non-vacuity (C13): two units that are neighbours, `u = (1, 2)`: first moment at `lam = 1/2, s2 = 0`. -/
example : (momentsGM !![0, 1; 1, 0] ![1, 2]).g 0
    - ((momentsGM !![0, 1; 1, 0] ![1, 2]).G *ᵥ ![1/2, (1/2)^2, 0]) 0 = 9/8 := by
  have := C13_moments (!![0, 1; 1, 0] : Matrix (Fin 2) (Fin 2) ℝ) ![1, 2] (1/2) 0 0
  simp only at this
  rw [this]
  simp [Fin.sum_univ_two]
  norm_num

/-! ### C14 -/

/-- C14: two-equation moments (heteroskedastic case), for any `A1` and `s`. -/
theorem C14_moments2eqs (A1 s : Matrix n n ℝ) (u : n → ℝ) (lam : ℝ) :
    let e : n → ℝ := fun i => u i - lam * ∑ j, s i j * u j
    ∀ i, (moments2eqs A1 s u).g i - ((moments2eqs A1 s u).G *ᵥ ![lam, lam ^ 2]) i =
      ![(∑ i, ∑ j, e i * A1 i j * e j) / Fintype.card n,
        (∑ i, ∑ j, e i * s i j * e j) / Fintype.card n] i := by
  intro e i
  have he : e = u - lam • (s *ᵥ u) := by ext i; simp [e, mulVec, dotProduct]
  rw [quad_eq A1 e, quad_eq s e, he, quad_sub, quad_sub]
  have t1 : u ⬝ᵥ ((A1 + A1ᵀ) *ᵥ (s *ᵥ u)) = u ⬝ᵥ (A1 *ᵥ (s *ᵥ u)) + (s *ᵥ u) ⬝ᵥ (A1 *ᵥ u) := by
    rw [add_mulVec, dotProduct_add]
    congr 1
    rw [dotProduct_mulVec, vecMul_transpose, dotProduct_comm]
  have t2 : u ⬝ᵥ ((s + sᵀ) *ᵥ (s *ᵥ u)) = u ⬝ᵥ (s *ᵥ (s *ᵥ u)) + (s *ᵥ u) ⬝ᵥ (s *ᵥ u) := by
    rw [add_mulVec, dotProduct_add]
    congr 1
    rw [dotProduct_mulVec, vecMul_transpose, dotProduct_comm]
  have t3 : (s *ᵥ u) ᵥ* A1 ⬝ᵥ s *ᵥ u = (s *ᵥ u) ⬝ᵥ (A1 *ᵥ (s *ᵥ u)) := (dotProduct_mulVec _ _ _).symm
  fin_cases i
  · show _ / N n - ∑ j : Fin 2, _ * _ = _
    rw [Fin.sum_univ_two]
    simp only [moments2eqs, of_apply, cons_val_zero, cons_val_one, t1, t3]
    simp [N]
    ring
  · show _ / N n - ∑ j : Fin 2, _ * _ = _
    rw [Fin.sum_univ_two]
    simp only [moments2eqs, of_apply, cons_val_zero, cons_val_one, t2]
    simp [N]
    ring

/-- C14: two-equation moments (homoskedastic case) for symmetric `A1`, `A2`. -/
theorem C14_momentsHom (W A1 A2 : Matrix n n ℝ) (h1 : A1ᵀ = A1) (h2 : A2ᵀ = A2) (u : n → ℝ)
    (lam : ℝ) :
    let e : n → ℝ := fun i => u i - lam * ∑ j, W i j * u j
    ∀ i, (momentsHom W A1 A2 u).g i - ((momentsHom W A1 A2 u).G *ᵥ ![lam, lam ^ 2]) i =
      ![(∑ i, ∑ j, e i * A1 i j * e j) / Fintype.card n,
        (∑ i, ∑ j, e i * A2 i j * e j) / Fintype.card n] i := by
  intro e i
  have he : e = u - lam • (W *ᵥ u) := by ext i; simp [e, mulVec, dotProduct]
  rw [quad_eq A1 e, quad_eq A2 e, he, quad_sub, quad_sub]
  have t : ∀ A : Matrix n n ℝ, Aᵀ = A → u ⬝ᵥ (A *ᵥ (W *ᵥ u)) + (W *ᵥ u) ⬝ᵥ (A *ᵥ u)
      = 2 * ((W *ᵥ u) ᵥ* A ⬝ᵥ u) := by
    intro A hA
    have e1 : u ⬝ᵥ (A *ᵥ (W *ᵥ u)) = (W *ᵥ u) ᵥ* A ⬝ᵥ u := by
      rw [dotProduct_comm, ← vecMul_transpose, hA]
    rw [e1, dotProduct_mulVec]; ring
  have t3 : ∀ A : Matrix n n ℝ, (W *ᵥ u) ⬝ᵥ (A *ᵥ (W *ᵥ u)) = (W *ᵥ u) ᵥ* A ⬝ᵥ (W *ᵥ u) :=
    fun A => dotProduct_mulVec _ _ _
  rw [t A1 h1, t A2 h2, t3, t3]
  fin_cases i
  · show _ / N n - ∑ j : Fin 2, _ * _ = _
    rw [Fin.sum_univ_two]
    simp only [momentsHom, of_apply, cons_val_zero, cons_val_one]
    simp [N]
    ring
  · show _ / N n - ∑ j : Fin 2, _ * _ = _
    rw [Fin.sum_univ_two]
    simp only [momentsHom, of_apply, cons_val_zero, cons_val_one]
    simp [N]
    ring

/-- C14: without symmetry of `A1` the homoskedastic moments are not those quadratic forms. -/
theorem C14_hom_needs_symmetry :
    ∃ (W A : Matrix (Fin 2) (Fin 2) ℝ) (u : Fin 2 → ℝ) (lam : ℝ),
      (momentsHom W A A u).g 0 - ((momentsHom W A A u).G *ᵥ ![lam, lam ^ 2]) 0 ≠
        (∑ i, ∑ j, (u i - lam * (W *ᵥ u) i) * A i j * (u j - lam * (W *ᵥ u) j)) / 2 := by
  refine ⟨!![0, 1; 0, 0], !![0, 1; 0, 0], ![0, 1], 1, ?_⟩
  simp [momentsHom, N, mulVec, dotProduct, vecMul, Fin.sum_univ_two]
  norm_num

/-- C14: minus the Jacobian used in the variance formulas, `G (1, 2 lam)'`, is the derivative of the
moment vector `g - G (lam, lam^2)'` with respect to `lam`. -/
theorem C14_jacobian {r : Type} (M : Moments r (Fin 2)) (lam : ℝ) (i : r) :
    HasDerivAt (fun t => M.g i - (M.G *ᵥ ![t, t ^ 2]) i) (-(M.G *ᵥ ![1, 2 * lam]) i) lam := by
  have e : (fun t : ℝ => M.g i - (M.G *ᵥ ![t, t ^ 2]) i)
      = fun t => M.g i - (M.G i 0 * t + M.G i 1 * t ^ 2) := by
    funext t; simp [mulVec, dotProduct, Fin.sum_univ_two]
  rw [e]
  have h1 : HasDerivAt (fun t : ℝ => M.G i 0 * t + M.G i 1 * t ^ 2)
      (M.G i 0 * 1 + M.G i 1 * (2 * lam)) lam := by
    refine ((hasDerivAt_id lam).const_mul _).add ?_
    have := (hasDerivAt_pow 2 lam).const_mul (M.G i 1)
    simpa using this
  have h2 := h1.const_sub (M.g i)
  have e2 : -(M.G *ᵥ ![1, 2 * lam]) i = -(M.G i 0 * 1 + M.G i 1 * (2 * lam)) := by
    simp [mulVec, dotProduct, Fin.sum_univ_two]
  rw [e2]
  exact h2

/-- C14: weighting the moments by `Ec` with `Ec' Ec = V^{-1}` makes the objective the quadratic form
`m' V^{-1} m` of the moment vector `m = g - G par`. -/
theorem C14_weighted {r c : Type} [Fintype r] [Fintype c] (M : Moments r c) (Ec Vi : Matrix r r ℝ)
    (hE : Ecᵀ * Ec = Vi) (p : c → ℝ) :
    foptimPar p (weight M Ec)
      = (M.g - M.G *ᵥ p) ⬝ᵥ (Vi *ᵥ (M.g - M.G *ᵥ p)) := by
  have e : ∀ i, (weight M Ec).g i - ((weight M Ec).G *ᵥ p) i = (Ec *ᵥ (M.g - M.G *ᵥ p)) i := by
    intro i
    simp [weight, mulVec_sub, mulVec_mulVec]
  unfold foptimPar
  simp only [e]
  have := utu_eq_dot (Ec *ᵥ (M.g - M.G *ᵥ p))
  unfold utu at this
  rw [this, ← hE, ← mulVec_mulVec, dotProduct_mulVec _ Ecᵀ, vecMul_transpose]

/-! ### C15 -/

/-- C15: the heteroskedastic `A1` is `S'S` with the diagonal replaced by zeros, and symmetric. -/
theorem C15_A1het [DecidableEq n] (S : Matrix n n ℝ) :
    (∀ i, A1het S i i = 0) ∧ (∀ i j, i ≠ j → A1het S i j = ∑ a, S a i * S a j) ∧
    (A1het S)ᵀ = A1het S := by
  refine ⟨fun i => by simp [A1het], fun i j h => ?_, ?_⟩
  · simp [A1het, h, mul_apply]
  · unfold A1het
    rw [transpose_sub, diagonal_transpose, transpose_mul, transpose_transpose]

/-- C15: the homoskedastic `A1`, in both variants, is symmetric with zero trace; off the diagonal it is a
nonnegative multiple of `s's`. -/
theorem C15_A1hom [DecidableEq n] [Nonempty n] (s : Matrix n n ℝ) (b : Bool) :
    (∑ i, A1hom s b i i = 0) ∧ (A1hom s b)ᵀ = A1hom s b ∧
    ∃ c : ℝ, 0 < c ∧ c ≤ 1 ∧ ∀ i j, i ≠ j → A1hom s b i j = c * ∑ a, s a i * s a j := by
  have hn : N n ≠ 0 := N_ne_zero
  set t := ∑ i, (sᵀ * s) i i with ht
  have hnum : ∑ i, (sᵀ * s - diagonal fun _ => t / N n : Matrix n n ℝ) i i = 0 := by
    simp only [Matrix.sub_apply, diagonal_apply_eq, Finset.sum_sub_distrib, Finset.sum_const,
      Finset.card_univ, nsmul_eq_mul, ← ht]
    have : (Fintype.card n : ℝ) = N n := rfl
    rw [this]; field_simp; ring
  have hsym : (sᵀ * s - diagonal fun _ => t / N n : Matrix n n ℝ)ᵀ = (sᵀ * s - diagonal fun _ => t / N n) := by
    rw [transpose_sub, diagonal_transpose, transpose_mul, transpose_transpose]
  have hd : (0 : ℝ) < 1 + (t / N n) ^ 2 := by positivity
  cases b
  · refine ⟨by simpa [A1hom] using hnum, by simpa [A1hom] using hsym, 1, one_pos, le_refl _, ?_⟩
    intro i j hij
    simp [A1hom, hij, mul_apply]
  · refine ⟨?_, ?_, 1 / (1 + (t / N n) ^ 2), by positivity, ?_, ?_⟩
    · have : ∀ i, A1hom s true i i = (1 / (1 + (t / N n) ^ 2)) *
          (sᵀ * s - diagonal fun _ => t / N n : Matrix n n ℝ) i i := by
        intro i; simp [A1hom, ht]
      simp only [this, ← Finset.mul_sum, hnum, mul_zero]
    · have : A1hom s true = (1 / (1 + (t / N n) ^ 2)) • (sᵀ * s - diagonal fun _ => t / N n) := by
        simp [A1hom, ht]
      rw [this, transpose_smul, hsym]
    · rw [div_le_one hd]; nlinarith [sq_nonneg (t / N n)]
    · intro i j hij
      simp [A1hom, hij, mul_apply, ht]

/-- C15: `A2` is symmetric and defines the same quadratic form as the weights matrix. -/
theorem C15_A2hom (s : Matrix n n ℝ) :
    (A2hom s)ᵀ = A2hom s ∧ (∀ i, A2hom s i i = s i i) ∧
    ∀ v : n → ℝ, ∑ i, ∑ j, v i * A2hom s i j * v j = ∑ i, ∑ j, v i * s i j * v j := by
  refine ⟨?_, fun i => ?_, fun v => ?_⟩
  · unfold A2hom; rw [transpose_smul, transpose_add, transpose_transpose, add_comm]
  · simp [A2hom]; ring
  · rw [quad_eq, quad_eq]
    unfold A2hom
    rw [smul_mulVec, add_mulVec, dotProduct_smul, dotProduct_add]
    have : v ⬝ᵥ (sᵀ *ᵥ v) = v ⬝ᵥ (s *ᵥ v) := by
      rw [dotProduct_mulVec, vecMul_transpose, dotProduct_comm]
    rw [this, smul_eq_mul]; ring

/-- Non-vacuity (C15): the example weights give a non-zero `A1`. -/
example : A1het (!![0, 1, 1; 1, 0, 0; 0, 0, 0] : Matrix (Fin 3) (Fin 3) ℝ) 1 2 = 1 := by
  simp [A1het, mul_apply, Fin.sum_univ_three]

/-! ### C16 -/

/-- C16: the filter is `v - lam * W v`, entry by entry; it is the identity for `lam = 0`, is linear, and
recovers `v` from the spatial error process `e = (I - lam W)^{-1} v`. -/
theorem C16_spFilter [DecidableEq n] (W : Matrix n n ℝ) (lam : ℝ) (v : n → ℝ) :
    (∀ i, spFilter W lam v i = v i - lam * ∑ j, W i j * v j) ∧
    spFilter W 0 v = v ∧
    (∀ (a b : ℝ) (v' : n → ℝ),
      spFilter W lam (a • v + b • v') = a • spFilter W lam v + b • spFilter W lam v') ∧
    (IsUnit (1 - lam • W).det → spFilter W lam ((1 - lam • W)⁻¹ *ᵥ v) = v) := by
  have hM : ∀ z : n → ℝ, spFilter W lam z = (1 - lam • W) *ᵥ z := by
    intro z; unfold spFilter; rw [sub_mulVec, one_mulVec, smul_mulVec]
  refine ⟨fun i => by simp [spFilter, mulVec, dotProduct], by simp [spFilter], fun a b v' => ?_, fun hu => ?_⟩
  · rw [hM, hM, hM, mulVec_add, mulVec_smul, mulVec_smul]
  · rw [hM, mulVec_mulVec, mul_nonsing_inv _ hu, one_mulVec]

/-- C16: the matrix form filters column by column, and the panel form filters period by period. -/
theorem C16_columns_panel {T : Type} [Fintype T] [DecidableEq T] (W : Matrix n n ℝ) (lam : ℝ)
    (x : Matrix n k ℝ) (v : T × n → ℝ) :
    (∀ i j, spFilterM W lam x i j = spFilter W lam (fun a => x a j) i) ∧
    (∀ t i, spFilterPanel W lam v (t, i) = spFilter W lam (fun a => v (t, a)) i) := by
  refine ⟨fun i j => by simp [spFilterM, spFilter, mul_apply, mulVec, dotProduct], fun t i => ?_⟩
  simp only [spFilterPanel, spFilter, Pi.sub_apply, Pi.smul_apply, smul_eq_mul]
  congr 2
  simp only [mulVec, dotProduct, kroneckerMap_apply]
  rw [Fintype.sum_prod_type]
  rw [Finset.sum_eq_single t]
  · simp
  · intro b _ hb
    simp [Matrix.one_apply_ne (Ne.symm hb)]
  · simp

theorem spFilterM_mulVec (W : Matrix n n ℝ) (lam : ℝ) (x : Matrix n k ℝ) (b : k → ℝ) :
    spFilterM W lam x *ᵥ b = spFilter W lam (x *ᵥ b) := by
  unfold spFilterM spFilter
  rw [sub_mulVec, smul_mulVec, mulVec_mulVec]

/-- C16: GM error model, whatever value the optimiser returns. The reported residual is `y - x betas`,
the reported filtered residual is the filter of it and equals the residual of the second-stage regression;
it is orthogonal to the filtered regressors; and `sig2` is its mean square. -/
theorem C16_gmError [DecidableEq k] (opt : Moments (Fin 3) (Fin 3) → ℝ) (W : Matrix n n ℝ)
    (x : Matrix n k ℝ) (y : n → ℝ) (f : GMErrorFit n k) (h : gmError opt W x y = some f) :
    (∀ i, y i = f.predy i + f.u i) ∧ (∀ i, f.predy i = ∑ j, x i j * f.betas j) ∧
    (∀ i, f.eFiltered i = f.u i - f.lam * ∑ j, W i j * f.u j) ∧
    (∀ j, ∑ i, (x i j - f.lam * ∑ a, W i a * x a j) * f.eFiltered i = 0) ∧
    f.sig2 = (∑ i, f.eFiltered i ^ 2) / Fintype.card n := by
  unfold gmError at h
  rw [Option.bind_eq_some_iff] at h
  obtain ⟨o, -, h⟩ := h
  rw [Option.map_eq_some_iff] at h
  obtain ⟨o2, ho2, rfl⟩ := h
  simp only at ho2 ⊢
  set lam := opt (momentsGM W o.u)
  obtain ⟨hu2, rfl⟩ := ols_eq_some ho2
  set o2 := olsWith (spFilterM W lam x) (spFilter W lam y)
    ((spFilterM W lam x)ᵀ * spFilterM W lam x)⁻¹ with ho2d
  have hres : o2.u = spFilter W lam (y - x *ᵥ o2.betas) := by
    have h1 : o2.u = spFilter W lam y - spFilterM W lam x *ᵥ o2.betas := rfl
    rw [h1, spFilterM_mulVec]
    unfold spFilter
    rw [mulVec_sub, smul_sub]; abel
  have hef : (y - x *ᵥ o2.betas) - (lam • W) *ᵥ (y - x *ᵥ o2.betas) = o2.u := by
    rw [hres]; unfold spFilter; rw [smul_mulVec]
  refine ⟨fun i => by simp, fun i => rfl, fun i => ?_, fun j => ?_, ?_⟩
  · rw [smul_mulVec]
    simp only [Pi.sub_apply, Pi.smul_apply, smul_eq_mul]
    rfl
  · rw [hef]
    have := congrFun (normal_eq _ (spFilter W lam y) hu2) j
    simp only [mulVec, dotProduct, transpose_apply, Pi.zero_apply] at this
    rw [← this]
    refine Finset.sum_congr rfl fun i _ => ?_
    simp [spFilterM, mul_apply, ho2d]
  · rw [hef]; rfl

/-- Non-vacuity for `C16_gmError`: a run that succeeds (optimiser returning 1/2). -/
example : ∃ f, gmError (fun _ => 1/2) (!![0, 1; 1, 0] : Matrix (Fin 2) (Fin 2) ℝ)
    (!![1; 1] : Matrix (Fin 2) (Fin 1) ℝ) ![1, 3] = some f := by
  have h1 : IsUnit ((!![1; 1] : Matrix (Fin 2) (Fin 1) ℝ)ᵀ * (!![1; 1] : Matrix (Fin 2) (Fin 1) ℝ)).det := by
    rw [isUnit_iff_ne_zero]; simp [Matrix.mul_apply, Fin.sum_univ_two]
  have h2 : IsUnit ((spFilterM (!![0, 1; 1, 0] : Matrix (Fin 2) (Fin 2) ℝ) (1/2) !![1; 1])ᵀ
      * spFilterM (!![0, 1; 1, 0] : Matrix (Fin 2) (Fin 2) ℝ) (1/2) !![1; 1]).det := by
    rw [isUnit_iff_ne_zero]; simp [spFilterM, Matrix.mul_apply, Fin.sum_univ_two]; norm_num
  unfold gmError
  rw [ols_of_isUnit _ _ h1, Option.bind_some]
  dsimp only
  rw [ols_of_isUnit _ _ h2]
  exact ⟨_, rfl⟩

/-! ### C57 -/

theorem trace_mul_diag (M E : Matrix n n ℝ) [DecidableEq n] (e : n → ℝ) (hE : E = diagonal e)
    (M' : Matrix n n ℝ) :
    ∑ i, (M * E * (M' * E)) i i = ∑ i, ∑ j, M i j * M' j i * (e i * e j) := by
  subst hE
  refine Finset.sum_congr rfl fun i _ => ?_
  rw [mul_apply]
  refine Finset.sum_congr rfl fun j _ => ?_
  rw [mul_diagonal, mul_diagonal]; ring

/-- C57: the variance matrix of the heteroskedastic moments is symmetric and positive semidefinite,
for the `A1` and residual-based `E` that the code passes. -/
theorem C57_vcHet [DecidableEq n] (W : Matrix n n ℝ) (u : n → ℝ) (lam : ℝ) :
    SymPSD (vcHet W (A1het W) (psiSigma W u lam)) := by
  set e : n → ℝ := fun i => (u i - lam * (W *ᵥ u) i) ^ 2 with he
  have he0 : ∀ i, 0 ≤ e i := fun i => sq_nonneg _
  set A : Matrix n n ℝ := (2 : ℝ) • A1het W with hA
  set B : Matrix n n ℝ := W + Wᵀ with hB
  have hAs : ∀ i j, A j i = A i j := by
    intro i j
    have := (C15_A1het W).2.2
    have h2 := congrFun (congrFun this i) j
    simp only [transpose_apply] at h2
    simp [hA, h2]
  have hBs : ∀ i j, B j i = B i j := by intro i j; simp [hB]; ring
  have hE : psiSigma W u lam = diagonal e := rfl
  have p11 := trace_mul_diag A (psiSigma W u lam) e hE A
  have p12 := trace_mul_diag A (psiSigma W u lam) e hE B
  have p22 := trace_mul_diag B (psiSigma W u lam) e hE B
  refine ⟨?_, fun v => ?_⟩
  · ext i j; fin_cases i <;> fin_cases j <;> rfl
  · have hN : 0 ≤ 2 * N n := by unfold N; positivity
    have hq : ∑ i, ∑ j, v i * vcHet W (A1het W) (psiSigma W u lam) i j * v j
        = (∑ i, ∑ j, (v 0 * A i j + v 1 * B i j) ^ 2 * (e i * e j)) / (2 * N n) := by
      simp only [Fin.sum_univ_two, vcHet, of_apply, cons_val_zero, cons_val_one]
      rw [← hA, ← hB, p11, p12, p22]
      have : ∑ i, ∑ j, (v 0 * A i j + v 1 * B i j) ^ 2 * (e i * e j)
          = v 0 ^ 2 * (∑ i, ∑ j, A i j * A j i * (e i * e j))
            + 2 * v 0 * v 1 * (∑ i, ∑ j, A i j * B j i * (e i * e j))
            + v 1 ^ 2 * (∑ i, ∑ j, B i j * B j i * (e i * e j)) := by
        simp only [Finset.mul_sum, ← Finset.sum_add_distrib]
        refine Finset.sum_congr rfl fun i _ => Finset.sum_congr rfl fun j _ => ?_
        rw [hAs i j, hBs i j]; ring
      rw [this]; ring
    rw [hq]
    apply div_nonneg _ hN
    exact Finset.sum_nonneg fun i _ => Finset.sum_nonneg fun j _ =>
      mul_nonneg (sq_nonneg _) (mul_nonneg (he0 i) (he0 j))

end Spreg.GM
