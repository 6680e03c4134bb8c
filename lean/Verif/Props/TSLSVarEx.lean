import Verif.Props.TSLSVar
import Verif.Props.GMErrorConsistEx
set_option linter.unusedSectionVars false
/-
The conditions of C186 are met.
-/
namespace Spreg.Consist
open Spreg Spreg.Lin Spreg.LagReg Spreg.Sampling Matrix MeasureTheory Filter Topology ProbabilityTheory

variable {m kx : Type} [Fintype m] [DecidableEq m] [Nonempty m] [Fintype kx] [DecidableEq kx]

theorem scale_errors {O n : Type} [DecidableEq n] [MeasurableSpace O] {Q : Measure O} {e : O → n → ℝ} {s : n → ℝ} (h : Errors Q e s) (d : n → ℝ) :
    Errors Q (fun ω i => d i * e ω i) (fun i => d i ^ 2 * s i) where
  prob := h.prob
  sq i := (h.sq i).const_mul _
  mean i := by rw [integral_const_mul, h.mean i, mul_zero]
  cov i j := by
    have : ∀ ω, d i * e ω i * (d j * e ω j) = (d i * d j) * (e ω i * e ω j) := fun ω => by ring
    simp only [this]
    rw [integral_const_mul, h.cov i j]
    split
    · next hij => subst hij; ring
    · rw [mul_zero]

theorem scale_pairs {O n : Type} [DecidableEq n] [MeasurableSpace O] {Q : Measure O} {e : O → n → ℝ} {s : n → ℝ} {V : ℝ} (h : PairErrors Q e s V) (d : n → ℝ)
    (D : ℝ) (hd : ∀ i, |d i| ≤ D) : PairErrors Q (fun ω i => d i * e ω i) (fun i => d i ^ 2 * s i) (D ^ 4 * V) := by
  have key : ∀ i j ω, d i * e ω i * (d j * e ω j) - covOf (fun i => d i ^ 2 * s i) i j = (d i * d j) * (e ω i * e ω j - covOf s i j) := by
    intro i j ω
    unfold covOf
    split
    · next hij => subst hij; ring
    · ring
  refine ⟨fun i j => ?_, fun i j => ?_, fun i j k l hn => ?_⟩
  · simp only [key]
    exact (h.sq i j).const_mul _
  · simp only [key, mul_pow]
    rw [integral_const_mul]
    have h1 := h.var i j
    have h0 : 0 ≤ ∫ ω, (e ω i * e ω j - covOf s i j) ^ 2 ∂Q := integral_nonneg fun ω => sq_nonneg _
    have hD : ∀ i, d i ^ 2 ≤ D ^ 2 := fun i => by rw [← sq_abs]; exact pow_le_pow_left₀ (abs_nonneg _) (hd i) 2
    have h4 : d i ^ 2 * d j ^ 2 ≤ D ^ 4 := by
      calc d i ^ 2 * d j ^ 2 ≤ D ^ 2 * D ^ 2 := mul_le_mul (hD i) (hD j) (sq_nonneg _) (sq_nonneg _)
        _ = D ^ 4 := by ring
    exact mul_le_mul h4 h1 h0 (by positivity)
  · simp only [key]
    have : ∀ ω, d i * d j * (e ω i * e ω j - covOf s i j) * (d k * d l * (e ω k * e ω l - covOf s k l)) =
      (d i * d j * (d k * d l)) * ((e ω i * e ω j - covOf s i j) * (e ω k * e ω l - covOf s k l)) := fun ω => by ring
    simp only [this]
    rw [integral_const_mul, h.cov i j k l hn, mul_zero]

/-- Copies of a map, with normal errors whose standard deviations `d0` differ between regions. -/
theorem rep_lagmodel (W0 : Matrix m m ℝ) (x0 : Matrix m kx ℝ) (a : ℝ) (b : kx → ℝ) (rho : ℝ) (d0 : m → ℝ) (hreg : IsUnit (1 - rho • W0).det) :
    LagModel (Ω := fun t => m × Fin (t + 1) → ℝ) (fun t => Measure.pi fun _ => gaussianReal 0 1) (fun t => m × Fin (t + 1)) (repW W0) (repX x0)
      (fun t e => (1 - rho • repW W0 t)⁻¹ *ᵥ fun i => a + ∑ j, repX x0 t i j * b j + d0 i.1 * e i) (fun _ e i => d0 i.1 * e i) a b rho
      (fun _ i => d0 i.1 ^ 2 * 1) where
  y_eq t ω i := by
    have hu := (rep_inv W0 rho hreg t).1
    have h1 : (1 - rho • repW W0 t) *ᵥ ((1 - rho • repW W0 t)⁻¹ *ᵥ fun i => a + ∑ j, repX x0 t i j * b j + d0 i.1 * ω i) =
        fun i => a + ∑ j, repX x0 t i j * b j + d0 i.1 * ω i := by
      rw [mulVec_mulVec, mul_nonsing_inv _ hu, one_mulVec]
    have h2 := congrFun h1 i
    rw [sub_mulVec, one_mulVec, smul_mulVec] at h2
    simp only [Pi.sub_apply, Pi.smul_apply, smul_eq_mul] at h2
    have e1 : ∀ v, (repW W0 t *ᵥ v) i = ∑ i', repW W0 t i i' * v i' := fun v => rfl
    rw [← e1]
    linarith
  err t := by
    have := iid_errors (m := m × Fin (t + 1)) (fun _ z => z) (fun _ => measurable_id) (fun _ => gauss_memLp 2) (fun _ => by simp)
    simp only [gauss_sq] at this
    exact scale_errors this fun i : m × Fin (t + 1) => d0 i.1
  var := ⟨∑ i, d0 i ^ 2, fun t i => by
    rw [mul_one]
    exact Finset.single_le_sum (f := fun i => d0 i ^ 2) (fun i _ => sq_nonneg _) (Finset.mem_univ i.1)⟩
  pairs := ⟨_, fun t => scale_pairs gauss_pairs (fun i : m × Fin (t + 1) => d0 i.1) (∑ i, |d0 i|) fun i =>
    Finset.single_le_sum (f := fun i => |d0 i|) (fun i _ => abs_nonneg _) (Finset.mem_univ i.1)⟩
  size := by
    have hmpos : (0 : ℝ) < Fintype.card m := by exact_mod_cast Fintype.card_pos
    have : (fun t : ℕ => ((Fintype.card (m × Fin (t + 1)) : ℕ) : ℝ)) = fun t : ℕ => (Fintype.card m : ℝ) * ((t : ℝ) + 1) := by
      funext t; rw [Fintype.card_prod, Fintype.card_fin]; push_cast; rfl
    rw [this]
    exact (tendsto_atTop_add_const_right _ _ tendsto_natCast_atTop_atTop).const_mul_atTop hmpos
  pos _ := Fintype.card_pos
  reg t := (rep_inv W0 rho hreg t).1
  sumsW := ⟨_, fun t => ⟨(rep_abs W0 t).1, (rep_abs W0 t).2⟩⟩
  sumsR := ⟨∑ i, ∑ j, |(1 - rho • W0)⁻¹ i j|, fun t => by
    rw [(rep_inv W0 rho hreg t).2]
    exact ⟨(rep_abs _ t).1, (rep_abs _ t).2⟩⟩
  bdd := ⟨∑ i, ∑ l, |x0 i l|, fun t i l => by
    refine le_trans ?_ (Finset.single_le_sum (f := fun i => ∑ l, |x0 i l|) (fun i _ => Finset.sum_nonneg fun l _ => abs_nonneg _) (Finset.mem_univ i.1))
    exact Finset.single_le_sum (f := fun l => |x0 i.1 l|) (fun l _ => abs_nonneg _) (Finset.mem_univ l)⟩

/-- The conditions of `C186_lag` are met: copies of a path of three regions, standard normal errors. -/
theorem C186_example :
    Consistent (Ω := fun t => Fin 3 × Fin (t + 1) → ℝ) (fun t => Measure.pi fun _ => gaussianReal 0 1)
      (fun t e => (gmLag (repW path3 t) (repX x3 t) (0 : Matrix _ Empty ℝ) (0 : Matrix _ Empty ℝ)
        ((1 - (1 / 2 : ℝ) • repW path3 t)⁻¹ *ᵥ fun i => 0 + ∑ j, repX x3 t i j * (1 : ℝ) + 1 * e i) 1 false).map fun f (_ : Unit) => sig2n f.u) (fun _ => 1) := by
  obtain ⟨r1, r2, l1, l2⟩ := rep_limits path3 x3 0 (fun _ => 1) (1 / 2) path3_reg 1 false path3_H path3_Z
  have M := rep_lagmodel path3 x3 0 (fun _ => 1) (1 / 2) (fun _ => 1) path3_reg
  simp only [one_pow, mul_one] at M
  refine (C186_lag (by simpa only [mul_one] using M) 1 false _ _ r1 r2 l1 l2).1

/-- The conditions of `C186_lag_white` are met: the errors of the second region of every copy have four times the variance. -/
theorem C186_white_example :
    ∃ Lam : ((Unit ⊕ Fin 1) ⊕ (Empty ⊕ Unit)) → ((Unit ⊕ Fin 1) ⊕ (Empty ⊕ Unit)) → ℝ, Consistent (Ω := fun t => Fin 3 × Fin (t + 1) → ℝ) (fun t => Measure.pi fun _ => gaussianReal 0 1)
      (fun t e => (gmLag (repW path3 t) (repX x3 t) (0 : Matrix _ Empty ℝ) (0 : Matrix _ Empty ℝ)
        ((1 - (1 / 2 : ℝ) • repW path3 t)⁻¹ *ᵥ fun i => 0 + ∑ j, repX x3 t i j * (1 : ℝ) + (![1, 2, 1] : Fin 3 → ℝ) i.1 * e i) 1 false).map fun f
        (p : ((Unit ⊕ Fin 1) ⊕ (Empty ⊕ Unit)) × ((Unit ⊕ Fin 1) ⊕ (Empty ⊕ Unit))) => (Fintype.card (Fin 3 × Fin (t + 1)) : ℝ) *
        sandwichTSLS f.varb f.zthhthi (psi0White (lagH (repW path3 t) (repX x3 t) (0 : Matrix _ Empty ℝ) 1 false) f.u none) p.1 p.2)
      fun p => Lam p.1 p.2 := by
  obtain ⟨r1, r2, l1, l2⟩ := rep_limits path3 x3 0 (fun _ => 1) (1 / 2) path3_reg 1 false path3_H path3_Z
  refine ⟨_, C186_lag_white (rep_lagmodel path3 x3 0 (fun _ => 1) (1 / 2) ![1, 2, 1] path3_reg) 1 false _ _
    (Matrix.of fun i j => (∑ o, lagH path3 x3 (0 : Matrix _ Empty ℝ) 1 false o i * lagH path3 x3 (0 : Matrix _ Empty ℝ) 1 false o j * ((![1, 2, 1] : Fin 3 → ℝ) o ^ 2 * 1)) /
      Fintype.card (Fin 3)) r1 r2 l1 l2 fun i j => ?_⟩
  refine tendsto_const_nhds.congr fun t => ?_
  rw [repH]
  exact (rep_avg (fun o => lagH path3 x3 (0 : Matrix _ Empty ℝ) 1 false o i * lagH path3 x3 (0 : Matrix _ Empty ℝ) 1 false o j * ((![1, 2, 1] : Fin 3 → ℝ) o ^ 2 * 1)) t).symm

end Spreg.Consist
