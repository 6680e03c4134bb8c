import Verif.Props.GMHetConsist
import Verif.Spec.HomErrors
set_option linter.unusedSectionVars false
set_option linter.unusedSimpArgs false
/-
C188: the generalized moments estimator for homoskedastic errors is consistent.
-/
namespace Spreg.Consist
open Spreg Spreg.Lin Spreg.GM Spreg.Sampling Matrix MeasureTheory Filter Topology

variable {Ω : ℕ → Type} [∀ t, MeasurableSpace (Ω t)] {P : ∀ t, Measure (Ω t)}

section det
variable {m : Type} [Fintype m] [DecidableEq m]

theorem homA_one (a1 : String) (W : Matrix m m ℝ) : homA a1 W 1 = A2hom W := if_pos rfl

theorem homA_zero (a1 : String) (ha : a1 = "hom" ∨ a1 = "hom_sc" ∨ a1 = "het") (W : Matrix m m ℝ) : chooseA1 a1 W = .ok (homA a1 W 0) := by
  have h2 : ∀ c : ℝ, (diagonal fun _ : m => c) = c • (1 : Matrix m m ℝ) := fun c => by
    rw [smul_one_eq_diagonal]
  rcases ha with rfl | rfl | rfl
  · rw [chooseA1, if_pos rfl, homA, if_neg (by decide), if_neg (by decide), if_neg (by decide), one_smul, A1hom]
    simp only [Bool.false_eq_true, if_false]
    rw [h2]; rfl
  · rw [chooseA1, if_neg (by decide), if_pos rfl, homA, if_neg (by decide), if_neg (by decide), if_pos rfl, A1hom]
    simp only [if_true]
    rw [h2]; rfl
  · rw [chooseA1, if_neg (by decide), if_neg (by decide), if_pos rfl, homA, if_neg (by decide), if_pos rfl, (hetA_eq W).1]

theorem homA_sym (a1 : String) (W : Matrix m m ℝ) (a : Fin 2) : (homA a1 W a)ᵀ = homA a1 W a := by
  rw [homA]
  split_ifs
  · rw [transpose_smul, transpose_add, transpose_transpose, add_comm]
  · rw [(hetA_eq W).1, A1het, transpose_sub, transpose_mul, transpose_transpose, diagonal_transpose]
  · rw [transpose_smul, transpose_sub, transpose_mul, transpose_transpose, transpose_smul, transpose_one]
  · rw [transpose_smul, transpose_sub, transpose_mul, transpose_transpose, transpose_smul, transpose_one]

theorem homA_trace (a1 : String) {W : Matrix m m ℝ} (hW : ∀ i, W i i = 0) (hm : 0 < Fintype.card m) (a : Fin 2) : ∑ i, homA a1 W a i i = 0 := by
  have hc : (Fintype.card m : ℝ) ≠ 0 := by exact_mod_cast hm.ne'
  have key : ∀ c : ℝ, ∑ i, (c • (Wᵀ * W - ((Wᵀ * W).trace / Fintype.card m) • (1 : Matrix m m ℝ))) i i = 0 := by
    intro c
    show trace _ = 0
    rw [trace_smul, trace_sub, trace_smul, trace_one, smul_eq_mul, smul_eq_mul, div_mul_cancel₀ _ hc, sub_self, mul_zero]
  rw [homA]
  split_ifs
  · simp [hW]
  · exact Finset.sum_eq_zero fun i _ => hetA_diag hW 0 i
  · exact key _
  · exact key _

theorem homA_sums (a1 : String) {W : Matrix m m ℝ} {r : ℝ} (hW : Sums W r) (hm : 0 < Fintype.card m) (a : Fin 2) :
    Sums (homA a1 W a) (r * r + r * r + r) := by
  have hne : Nonempty m := Fintype.card_pos_iff.1 hm
  have hr := hW.nonneg
  have hc : (0 : ℝ) < Fintype.card m := by exact_mod_cast hm
  have up : ∀ {A : Matrix m m ℝ} {b c : ℝ}, Sums A b → b ≤ c → Sums A c := fun h hb => ⟨fun i => (h.1 i).trans hb, fun j => (h.2 j).trans hb⟩
  have hww : Sums (Wᵀ * W) (r * r) := hW.tr.mul hW
  have ht : |(Wᵀ * W).trace / Fintype.card m| ≤ r * r := by
    rw [abs_div, abs_of_pos hc, div_le_iff₀ hc]
    refine (Finset.abs_sum_le_sum_abs _ _).trans ((Finset.sum_le_sum fun i _ => sums_get hww i i).trans (le_of_eq ?_))
    rw [Finset.sum_const, Finset.card_univ, nsmul_eq_mul, mul_comm]
  have h1 : Sums (((Wᵀ * W).trace / Fintype.card m) • (1 : Matrix m m ℝ)) (r * r) := by
    constructor <;> intro i <;> simp only [Matrix.smul_apply, one_apply, smul_eq_mul, abs_mul] <;> simp [apply_ite abs] <;> simpa [abs_div] using ht
  have h2 : Sums (Wᵀ * W - ((Wᵀ * W).trace / Fintype.card m) • (1 : Matrix m m ℝ)) (r * r + r * r) := by
    have h3 : Sums (-(((Wᵀ * W).trace / Fintype.card m) • (1 : Matrix m m ℝ))) (r * r) := sums_le h1 fun i j => by rw [Matrix.neg_apply, abs_neg]
    rw [sub_eq_add_neg]
    exact sums_add hww h3
  have key : ∀ c : ℝ, |c| ≤ 1 → Sums (c • (Wᵀ * W - ((Wᵀ * W).trace / Fintype.card m) • (1 : Matrix m m ℝ))) (r * r + r * r + r) := fun c hc1 =>
    up (sums_le h2 fun i j => by
      rw [Matrix.smul_apply, smul_eq_mul, abs_mul]
      exact mul_le_of_le_one_left (abs_nonneg _) hc1) (by linarith)
  rw [homA]
  split_ifs
  · have h4 := sums_add hW hW.tr
    refine up (b := r) ⟨fun i => ?_, fun j => ?_⟩ (by nlinarith)
    · have := h4.1 i
      simp only [Matrix.smul_apply, smul_eq_mul, abs_mul, ← Finset.mul_sum]
      rw [abs_of_pos (by norm_num)]; linarith
    · have := h4.2 j
      simp only [Matrix.smul_apply, smul_eq_mul, abs_mul, ← Finset.mul_sum]
      rw [abs_of_pos (by norm_num)]; linarith
  · obtain ⟨q, hq, e⟩ := hetA_sums hW 0
    exact up hq (by rw [e, if_pos rfl]; nlinarith)
  · refine key _ ?_
    rw [abs_of_pos (by positivity)]
    rw [div_le_one (by positivity)]
    nlinarith [sq_nonneg ((Wᵀ * W).trace / (Fintype.card m : ℝ))]
  · exact key 1 (by simp)

/-- The moments and the array of weights. -/
noncomputable def mh (a1 : String) (W : Matrix m m ℝ) (u : m → ℝ) : Moments (Fin 2) (Fin 2) := momentsHom W (homA a1 W 0) (homA a1 W 1) u
noncomputable def vh (a1 : String) (W : Matrix m m ℝ) (u : m → ℝ) (l : ℝ) : Matrix (Fin 2) (Fin 2) ℝ := vcHom (homA a1 W 0) (homA a1 W 1) (spFilter W l u) 0 0

theorem hom_mom (a1 : String) (W : Matrix m m ℝ) (u : m → ℝ) (a : Fin 2) :
    (mh a1 W u).g a = (u ⬝ᵥ (homA a1 W a *ᵥ u)) / Fintype.card m ∧
    (mh a1 W u).G a 0 = (2 * ((W *ᵥ u) ⬝ᵥ (homA a1 W a *ᵥ u))) / Fintype.card m ∧
    (mh a1 W u).G a 1 = -((W *ᵥ u) ⬝ᵥ (homA a1 W a *ᵥ (W *ᵥ u))) / Fintype.card m := by
  fin_cases a
  · exact ⟨rfl, by rw [dotProduct_mulVec]; rfl, by rw [dotProduct_mulVec]; rfl⟩
  · exact ⟨rfl, by rw [dotProduct_mulVec]; rfl, by rw [dotProduct_mulVec]; rfl⟩

theorem hom_dev (a1 : String) (W : Matrix m m ℝ) (u : m → ℝ) (lam : ℝ) (a : Fin 2) :
    dev (mh a1 W u) lam a = (((1 - lam • W) *ᵥ u) ⬝ᵥ ((homA a1 W a * (1 - lam • W)) *ᵥ u)) / Fintype.card m := by
  obtain ⟨h0, h1, h2⟩ := hom_mom a1 W u a
  rw [dev, h0, h1, h2]
  have hs := homA_sym a1 W a
  revert hs
  generalize homA a1 W a = A
  intro hs
  have f1 : (1 - lam • W) *ᵥ u = u - lam • (W *ᵥ u) := by rw [sub_mulVec, one_mulVec, smul_mulVec]
  rw [← mulVec_mulVec, f1]
  have tr : u ⬝ᵥ (A *ᵥ (W *ᵥ u)) = (W *ᵥ u) ⬝ᵥ (A *ᵥ u) := by
    rw [dotProduct_comm, dotProduct_comm (W *ᵥ u), ← vecMul_transpose, hs, ← dotProduct_mulVec, dotProduct_comm]
  simp only [mulVec_sub, mulVec_smul, dotProduct_sub, sub_dotProduct, smul_dotProduct, dotProduct_smul, smul_eq_mul, tr]
  ring

/-- The elements of the array of weights. -/
theorem hom_vc (a1 : String) (W : Matrix m m ℝ) (hW : ∀ i, W i i = 0) (u : m → ℝ) (l : ℝ) (a b : Fin 2) :
    vh a1 W u l a b = (2 * m2 (spFilter W l u) ^ 2 * (∑ i, ∑ j, homA a1 W a i j * homA a1 W b i j) +
      (m4 (spFilter W l u) - 3 * m2 (spFilter W l u) ^ 2) * ∑ i, homA a1 W a i i * homA a1 W b i i) / Fintype.card m := by
  have hd : ∀ i, homA a1 W 1 i i = 0 := fun i => by rw [homA, if_pos rfl]; simp [hW]
  have htr : ∀ a b, ∑ i, (homA a1 W a * homA a1 W b) i i = ∑ i, ∑ j, homA a1 W a i j * homA a1 W b i j := fun a b => by
    refine Finset.sum_congr rfl fun i _ => ?_
    rw [mul_apply]
    refine Finset.sum_congr rfl fun j _ => ?_
    rw [← congrFun (congrFun (homA_sym a1 W b) j) i, transpose_apply]
  have hcom : ∑ i, ∑ j, homA a1 W 1 i j * homA a1 W 0 i j = ∑ i, ∑ j, homA a1 W 0 i j * homA a1 W 1 i j :=
    Finset.sum_congr rfl fun i _ => Finset.sum_congr rfl fun j _ => mul_comm _ _
  have hsm : ∀ c : ℝ, ∀ A : Matrix m m ℝ, ∑ i, (c • A) i i = c * ∑ i, A i i := fun c A => by
    rw [Finset.mul_sum]; rfl
  have e : ∀ a b, vh a1 W u l a b = (![![2 * m2 (spFilter W l u) ^ 2 * (∑ i, (homA a1 W 0 * homA a1 W 0) i i) +
      (m4 (spFilter W l u) - 3 * m2 (spFilter W l u) ^ 2) * ((fun i => homA a1 W 0 i i) ⬝ᵥ fun i => homA a1 W 0 i i) +
      m2 (spFilter W l u) * ((0 : m → ℝ) ⬝ᵥ 0) + 2 * m3 (spFilter W l u) * ((0 : m → ℝ) ⬝ᵥ fun i => homA a1 W 0 i i),
      m2 (spFilter W l u) ^ 2 * (∑ i, (homA a1 W 0 * ((2 : ℝ) • homA a1 W 1)) i i) + m2 (spFilter W l u) * ((0 : m → ℝ) ⬝ᵥ 0) +
        m3 (spFilter W l u) * ((0 : m → ℝ) ⬝ᵥ fun i => homA a1 W 0 i i)],
      ![m2 (spFilter W l u) ^ 2 * (∑ i, (homA a1 W 0 * ((2 : ℝ) • homA a1 W 1)) i i) + m2 (spFilter W l u) * ((0 : m → ℝ) ⬝ᵥ 0) +
        m3 (spFilter W l u) * ((0 : m → ℝ) ⬝ᵥ fun i => homA a1 W 0 i i),
        m2 (spFilter W l u) ^ 2 * (∑ i, ((2 : ℝ) • (homA a1 W 1 * homA a1 W 1)) i i) + m2 (spFilter W l u) * ((0 : m → ℝ) ⬝ᵥ 0)]] a b) / N m := fun a b => rfl
  rw [e]
  simp only [zero_dotProduct, mul_zero, add_zero, Matrix.mul_smul, hsm, htr]
  show _ / (Fintype.card m : ℝ) = _
  congr 1
  fin_cases a <;> fin_cases b <;> simp [hd, hcom, dotProduct] <;> ring

theorem vh_sym (a1 : String) (W : Matrix m m ℝ) (u : m → ℝ) (l : ℝ) : vh a1 W u l 0 1 = vh a1 W u l 1 0 := rfl
end det
end Spreg.Consist
