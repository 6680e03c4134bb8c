import Verif.Props.EndogConsist
import Verif.Props.TSLSVarEx
set_option linter.unusedSectionVars false
/-
The conditions of C189 are met.
-/
namespace Spreg.Consist
open Spreg Spreg.Lin Spreg.GM Spreg.LagReg Spreg.HardBound Spreg.Sampling Matrix MeasureTheory Filter Topology ProbabilityTheory

variable {m kx : Type} [Fintype m] [DecidableEq m] [Nonempty m] [Fintype kx] [DecidableEq kx]

/-- Copies of a map with independent standard normal innovations, a spatial lag and spatially autoregressive errors. -/
theorem rep_combo (W0 : Matrix m m ℝ) (x0 : Matrix m kx ℝ) (a : ℝ) (b : kx → ℝ) (rho lam : ℝ) (hlam : |lam| ≤ 0.99) (hreg : IsUnit (1 - rho • W0).det)
    (hregE : IsUnit (1 - lam • W0).det) (hd : ∀ i, W0 i i = 0) :
    ComboModel (Ω := fun t => m × Fin (t + 1) → ℝ) (fun t => Measure.pi fun _ => gaussianReal 0 1) (fun t => m × Fin (t + 1)) (repW W0) (repX x0)
      (fun t e => (1 - rho • repW W0 t)⁻¹ *ᵥ ((fun i => a + ∑ j, repX x0 t i j * b j) + (1 - lam • repW W0 t)⁻¹ *ᵥ e))
      (fun t e => (1 - lam • repW W0 t)⁻¹ *ᵥ e) (fun _ e => e) a b rho lam 1 := by
  have E := rep_model W0 x0 b lam hlam hregE hd
  have L := rep_lagmodel W0 x0 a b rho (fun _ => 1) hreg
  refine ⟨fun t ω i => ?_, E.v_eq, E.err, E.pairs, E.size, E.pos, L.reg, E.reg, E.diag, E.sumsW, L.sumsR, E.sumsR, E.bdd, hlam⟩
  have hu := (rep_inv W0 rho hreg t).1
  generalize hw : (fun i => a + ∑ j, repX x0 t i j * b j) + (1 - lam • repW W0 t)⁻¹ *ᵥ ω = w
  have h1 : (1 - rho • repW W0 t) *ᵥ ((1 - rho • repW W0 t)⁻¹ *ᵥ w) = w := by
    rw [mulVec_mulVec, mul_nonsing_inv _ hu, one_mulVec]
  have h2 := congrFun h1 i
  have h3 : w i = a + ∑ j, repX x0 t i j * b j + ((1 - lam • repW W0 t)⁻¹ *ᵥ ω) i := by rw [← hw]; rfl
  rw [sub_mulVec, one_mulVec, smul_mulVec] at h2
  simp only [Pi.sub_apply, Pi.smul_apply, smul_eq_mul] at h2
  have e1 : ∀ v, (repW W0 t *ᵥ v) i = ∑ i', repW W0 t i i' * v i' := fun v => rfl
  rw [← e1]
  linarith

/-- Limits of the products of instruments with spatial lags of the expected regressors. -/
theorem rep_Q1 (W0 : Matrix m m ℝ) (x0 : Matrix m kx ℝ) (a : ℝ) (b : kx → ℝ) (rho : ℝ) (hreg : IsUnit (1 - rho • W0).det) (L : ℕ) (lagQ : Bool) (i j) :
    Tendsto (fun t => (∑ o, lagH (repW W0 t) (repX x0 t) (0 : Matrix _ Empty ℝ) L lagQ o i * ∑ o', repW W0 t o o' *
      lagZ (repW W0 t) (repX x0 t) (0 : Matrix _ Empty ℝ) ((1 - rho • repW W0 t)⁻¹ *ᵥ fun i => a + ∑ j, repX x0 t i j * b j) o' j) /
        (Fintype.card (m × Fin (t + 1)) : ℝ)) atTop
      (𝓝 (((Fintype.card m : ℝ)⁻¹ • ((lagH W0 x0 (0 : Matrix m Empty ℝ) L lagQ)ᵀ *
        (W0 * lagZ W0 x0 (0 : Matrix m Empty ℝ) ((1 - rho • W0)⁻¹ *ᵥ fun i => a + ∑ j, x0 i j * b j)))) i j)) := by
  have hmean : ∀ t, (1 - rho • repW W0 t)⁻¹ *ᵥ (fun i => a + ∑ j, repX x0 t i j * b j) =
      fun i => ((1 - rho • W0)⁻¹ *ᵥ fun i => a + ∑ j, x0 i j * b j) i.1 := by
    intro t
    rw [(rep_inv W0 rho hreg t).2]
    exact repW_mulVec _ t fun i => a + ∑ j, x0 i j * b j
  refine tendsto_const_nhds.congr fun t => ?_
  rw [repH, hmean t, repZ]
  generalize lagZ W0 x0 (0 : Matrix m Empty ℝ) ((1 - rho • W0)⁻¹ *ᵥ fun i => a + ∑ j, x0 i j * b j) = Z0
  generalize lagH W0 x0 (0 : Matrix m Empty ℝ) L lagQ = H0
  have e : ∀ o, ∑ o', repW W0 t o o' * (Z0.submatrix Prod.fst id : Matrix (m × Fin (t + 1)) _ ℝ) o' j = (W0 *ᵥ fun i => Z0 i j) o.1 :=
    fun o => congrFun (repW_mulVec W0 t fun i => Z0 i j) o
  simp only [e]
  refine Eq.trans ?_ (rep_avg (fun o => H0 o i * (W0 *ᵥ fun i => Z0 i j) o) t).symm
  rw [Matrix.smul_apply, mul_apply, div_eq_inv_mul]; rfl

theorem path3_HT (w : Fin 3 → ℝ) (hv : (lagH path3 x3 (0 : Matrix (Fin 3) Empty ℝ) 1 false)ᵀ *ᵥ w = 0) : w = 0 := by
  have hcol := path3_col
  have k0 := congrFun hv (.inl (.inl ())); have k1 := congrFun hv (.inl (.inr 0)); have k2 := congrFun hv (.inr (.inr (.inl 0, 0)))
  have hk : ∀ j, ((lagH path3 x3 (0 : Matrix (Fin 3) Empty ℝ) 1 false)ᵀ *ᵥ w) j = ∑ i, lagH path3 x3 (0 : Matrix (Fin 3) Empty ℝ) 1 false i j * w i :=
    fun j => rfl
  rw [hk] at k0 k1 k2
  simp only [hcol] at k2
  simp [lagH, path3, x3, mulVec, dotProduct, Fin.sum_univ_three] at k0 k1 k2
  funext i
  fin_cases i <;> simp <;> linarith

/-- The conditions of `C189_gmCombo` are met: copies of a path of three regions with `rho = lambda = 1/2`, one regressor and its spatial lag as instruments, standard
normal innovations; with and without `hard_bound`. -/
theorem C189_example (hb : Bool) : (∃ opt, Minimises opt) ∧ ∀ opt, Minimises opt →
    Consistent (Ω := fun t => Fin 3 × Fin (t + 1) → ℝ) (fun t => Measure.pi fun _ => gaussianReal 0 1)
      (fun t e =>
        let y := (1 - (1 / 2 : ℝ) • repW path3 t)⁻¹ *ᵥ ((fun i => 0 + ∑ j, repX x3 t i j * (1 : ℝ)) + (1 - (1 / 2 : ℝ) • repW path3 t)⁻¹ *ᵥ e)
        (gmEndogError (guarded hb fun M => .ok (opt M)) (repW path3 t) (lagZ (repW path3 t) (repX x3 t) (0 : Matrix _ Empty ℝ) y)
          (lagH (repW path3 t) (repX x3 t) (0 : Matrix _ Empty ℝ) 1 false) y).toOption.map fun f => f.betas)
      (Sum.elim (Sum.elim (fun _ => 0) fun _ => 1) (Sum.elim Empty.elim fun _ => 1 / 2)) := by
  refine ⟨minimises_exists, fun opt hopt => ?_⟩
  have hpow : path3 ^ 2 = !![1 / 2, 0, 1 / 2; 0, 1, 0; 1 / 2, 0, 1 / 2] := by
    rw [sq]
    ext i j
    fin_cases i <;> fin_cases j <;> simp [path3, mul_apply, Fin.sum_univ_three] <;> norm_num
  have hd : ∀ i, path3 i i = 0 := by intro i; fin_cases i <;> simp [path3]
  obtain ⟨r1, r2, l1, l2⟩ := rep_limits path3 x3 0 (fun _ => 1) (1 / 2) path3_reg 1 false path3_H path3_Z
  have hBpd : ((Fintype.card (Fin 3) : ℝ)⁻¹ • ((lagH path3 x3 (0 : Matrix (Fin 3) Empty ℝ) 1 false)ᵀ * lagH path3 x3 (0 : Matrix (Fin 3) Empty ℝ) 1 false)).PosDef := by
    refine Matrix.PosDef.smul ?_ (by simp)
    have := Matrix.PosDef.conjTranspose_mul_self (lagH path3 x3 (0 : Matrix (Fin 3) Empty ℝ) 1 false) (fun u v huv => by
      have : lagH path3 x3 (0 : Matrix (Fin 3) Empty ℝ) 1 false *ᵥ (u - v) = 0 := by rw [mulVec_sub, sub_eq_zero]; exact huv
      exact sub_eq_zero.1 (path3_H _ this))
    rwa [conjTranspose_eq_transpose_of_trivial] at this
  refine (C189_gmCombo (rep_combo path3 x3 0 (fun _ => 1) (1 / 2) (1 / 2) (by rw [abs_of_pos] <;> norm_num) path3_reg path3_reg hd) 1 false _ _ _ r1 r2 ?_ l1 l2
    (rep_Q1 path3 x3 0 (fun _ => 1) (1 / 2) path3_reg 1 false) (rep_err path3 (1 / 2) path3_reg) ?_ ?_ opt hopt hb fun _ => by rw [abs_of_pos] <;> norm_num).1
  · refine (rank_ok _ _ hBpd fun v hv => path3_Z v ?_).2
    rw [← smul_comm, ← smul_sub, ← Matrix.mul_smul, ← Matrix.mul_sub, smul_mulVec, smul_eq_zero] at hv
    rcases hv with hv | hv
    · norm_num at hv
    · rw [← mulVec_mulVec] at hv
      have h1 := path3_HT _ hv
      generalize lagZ path3 x3 (0 : Matrix (Fin 3) Empty ℝ) ((1 - (1 / 2 : ℝ) • path3)⁻¹ *ᵥ fun i => 0 + ∑ j, x3 i j * (1 : ℝ)) = Z0 at h1 ⊢
      have h2 : (1 - (1 / 2 : ℝ) • path3)⁻¹ *ᵥ ((1 - (1 / 2 : ℝ) • path3) *ᵥ (Z0 *ᵥ v)) = 0 := by
        have : (1 - (1 / 2 : ℝ) • path3) *ᵥ (Z0 *ᵥ v) = 0 := by
          rw [← h1, mulVec_mulVec, Matrix.sub_mul, Matrix.one_mul, Matrix.smul_mul]
        rw [this, mulVec_zero]
      rw [mulVec_mulVec, nonsing_inv_mul _ path3_reg, one_mulVec] at h2
      rw [h2, mulVec_zero]
  · have r0 : path3 ^ ((0 : Fin 3) : ℕ) * (1 - (1 / 2 : ℝ) • path3)⁻¹ = !![7 / 6, 2 / 3, 1 / 6; 1 / 3, 4 / 3, 1 / 3; 1 / 6, 2 / 3, 7 / 6] := by
      rw [path3_R]
      exact Matrix.one_mul _
    have r1 : path3 ^ ((1 : Fin 3) : ℕ) * (1 - (1 / 2 : ℝ) • path3)⁻¹ = !![1 / 3, 4 / 3, 1 / 3; 2 / 3, 2 / 3, 2 / 3; 1 / 3, 4 / 3, 1 / 3] := by
      rw [path3_R]
      refine (congrArg (· * _) (pow_one path3)).trans ?_
      ext i j
      fin_cases i <;> fin_cases j <;> simp [path3, mul_apply, Fin.sum_univ_three] <;> norm_num
    have r2 : path3 ^ ((2 : Fin 3) : ℕ) * (1 - (1 / 2 : ℝ) • path3)⁻¹ = !![2 / 3, 2 / 3, 2 / 3; 1 / 3, 4 / 3, 1 / 3; 2 / 3, 2 / 3, 2 / 3] := by
      rw [path3_R]
      refine (congrArg (· * _) hpow).trans ?_
      ext i j
      fin_cases i <;> fin_cases j <;> simp [mul_apply, Fin.sum_univ_three] <;> norm_num
    have rt : (∑ i, ∑ j, path3 i j ^ 2) = 5 / 2 := by
      simp [path3, Fin.sum_univ_three]
      norm_num
    rw [det_fin_three, rt]
    simp only [r0, r1, r2]
    simp [Fin.sum_univ_three]
    norm_num
  · rw [path3_R]
    simp [path3, mul_apply, Fin.sum_univ_three]
    norm_num
end Spreg.Consist
