import Verif.Props.ErrConsist
set_option linter.unusedSectionVars false
set_option linter.unusedSimpArgs false
/-
C184: the generalized moments estimator of the spatial error model is consistent.
-/
namespace Spreg.Consist
open Spreg Spreg.Lin Spreg.GM Spreg.Sampling Matrix MeasureTheory Filter Topology

variable {Ω : ℕ → Type} [∀ t, MeasurableSpace (Ω t)] {P : ∀ t, Measure (Ω t)}

/-- Solutions of linear equations with a right side that vanishes. -/
theorem conv_solve {k : Type} [Fintype k] [DecidableEq k] (S : ∀ t, Ω t → Matrix k k ℝ) (S0 : Matrix k k ℝ) (h0 : S0.det ≠ 0)
    (h : ∀ i j, ConvP P (fun t ω => S t ω i j) (S0 i j)) (w : ∀ t, Ω t → k → ℝ) (hw : ∀ l, ConvP P (fun t ω => w t ω l) 0) (l : k) :
    ConvP P (fun t ω => ((S t ω)⁻¹ *ᵥ w t ω) l) 0 := by
  have h1 := conv_sum (P := P) (fun t ω j => (S t ω)⁻¹ l j * w t ω j) (fun j => S0⁻¹ l j * 0) fun j => conv_mul (conv_matinv S S0 h0 h l j) (hw j)
  simp only [mul_zero, Finset.sum_const_zero] at h1
  exact h1

/-- OLS from scaled cross products. -/
theorem ols_scaled {m k : Type} [Fintype m] [Fintype k] [DecidableEq k] (x : Matrix m k ℝ) (beta : k → ℝ) (u : m → ℝ) (c : ℝ) (hc : c ≠ 0)
    (h : (c⁻¹ • (xᵀ * x)).det ≠ 0) :
    ∃ f, ols x (x *ᵥ beta + u) = some f ∧ f.betas = beta + (c⁻¹ • (xᵀ * x))⁻¹ *ᵥ (c⁻¹ • (xᵀ *ᵥ u)) ∧
      f.u = u - x *ᵥ ((c⁻¹ • (xᵀ * x))⁻¹ *ᵥ (c⁻¹ • (xᵀ *ᵥ u))) ∧ c • f.xtxi = (c⁻¹ • (xᵀ * x))⁻¹ := by
  have hu : IsUnit (xᵀ * x).det := by
    rw [isUnit_iff_ne_zero]
    intro h0
    apply h
    rw [det_smul, h0, mul_zero]
  have hinv : (c⁻¹ • (xᵀ * x))⁻¹ = c • (xᵀ * x)⁻¹ := by
    refine inv_eq_right_inv ?_
    rw [smul_mul_smul_comm, inv_mul_cancel₀ hc, one_smul, mul_nonsing_inv _ hu]
  have hd : (c⁻¹ • (xᵀ * x))⁻¹ *ᵥ (c⁻¹ • (xᵀ *ᵥ u)) = (xᵀ * x)⁻¹ *ᵥ (xᵀ *ᵥ u) := by
    rw [hinv, smul_mulVec, mulVec_smul, smul_smul, mul_inv_cancel₀ hc, one_smul]
  have hb : (olsWith x (x *ᵥ beta + u) (xᵀ * x)⁻¹).betas = beta + (xᵀ * x)⁻¹ *ᵥ (xᵀ *ᵥ u) := by
    show (xᵀ * x)⁻¹ *ᵥ (xᵀ *ᵥ (x *ᵥ beta + u)) = _
    rw [mulVec_add, mulVec_add, mulVec_mulVec beta, mulVec_mulVec beta, nonsing_inv_mul _ hu, one_mulVec]
  refine ⟨_, ols_of_isUnit _ _ hu, ?_, ?_, ?_⟩
  · rw [hd, hb]
  · rw [hd]
    show x *ᵥ beta + u - x *ᵥ (olsWith x (x *ᵥ beta + u) (xᵀ * x)⁻¹).betas = _
    rw [hb, mulVec_add]
    abel
  · rw [hinv]; rfl

/-- Average of the products of lags `a` and `b`. -/
noncomputable def qf {m : Type} [Fintype m] [DecidableEq m] (W : Matrix m m ℝ) (u : m → ℝ) (a b : ℕ) : ℝ := ((W ^ a *ᵥ u) ⬝ᵥ (W ^ b *ᵥ u)) / Fintype.card m

theorem qf_G {m : Type} [Fintype m] [DecidableEq m] (W : Matrix m m ℝ) (u : m → ℝ) (hc : (Fintype.card m : ℝ) ≠ 0) (i j : Fin 3) :
    (momentsGM W u).G i j = (!![2 * qf W u 0 1, -qf W u 1 1, 1; 2 * qf W u 1 2, -qf W u 2 2, (∑ i, ∑ j, W i j ^ 2) / Fintype.card m;
      qf W u 0 2 + qf W u 1 1, -qf W u 1 2, 0] : Matrix (Fin 3) (Fin 3) ℝ) i j := by
  have e2 : W ^ 2 *ᵥ u = W *ᵥ (W *ᵥ u) := by rw [sq, mulVec_mulVec]
  have et : ∑ i, (Wᵀ * W) i i = ∑ i, ∑ j, W i j ^ 2 := by
    rw [Finset.sum_comm]
    exact Finset.sum_congr rfl fun i _ => by rw [mul_apply]; exact Finset.sum_congr rfl fun j _ => (sq _).symm
  fin_cases i <;> fin_cases j <;> simp [momentsGM, qf, e2, et, N, hc, neg_div, mul_div_assoc, add_div]

theorem qf_res {m : Type} [Fintype m] [DecidableEq m] (W : Matrix m m ℝ) (u : m → ℝ) (hc : (Fintype.card m : ℝ) ≠ 0) (lam s : ℝ) (i : Fin 3) :
    (momentsGM W u).g i - ((momentsGM W u).G i 0 * lam + (momentsGM W u).G i 1 * lam ^ 2 + (momentsGM W u).G i 2 * s) =
      ![(((1 - lam • W) *ᵥ u) ⬝ᵥ ((1 - lam • W) *ᵥ u)) / Fintype.card m - s,
        ((((W * (1 - lam • W)) *ᵥ u) ⬝ᵥ ((W * (1 - lam • W)) *ᵥ u)) - s * ∑ i, ∑ j, W i j ^ 2) / Fintype.card m,
        (((1 - lam • W) *ᵥ u) ⬝ᵥ ((W * (1 - lam • W)) *ᵥ u)) / Fintype.card m] i := by
  have f1 : (1 - lam • W) *ᵥ u = u - lam • (W *ᵥ u) := by rw [sub_mulVec, one_mulVec, smul_mulVec]
  have f2 : (W * (1 - lam • W)) *ᵥ u = W *ᵥ u - lam • (W *ᵥ (W *ᵥ u)) := by rw [← mulVec_mulVec, f1, mulVec_sub, mulVec_smul]
  have et : ∑ i, (Wᵀ * W) i i = ∑ i, ∑ j, W i j ^ 2 := by
    rw [Finset.sum_comm]
    exact Finset.sum_congr rfl fun i _ => by rw [mul_apply]; exact Finset.sum_congr rfl fun j _ => (sq _).symm
  rw [f1, f2]
  have c1 : (W *ᵥ u) ⬝ᵥ u = u ⬝ᵥ (W *ᵥ u) := dotProduct_comm _ _
  have c3 : (W *ᵥ (W *ᵥ u)) ⬝ᵥ (W *ᵥ u) = (W *ᵥ u) ⬝ᵥ (W *ᵥ (W *ᵥ u)) := dotProduct_comm _ _
  simp only [sub_dotProduct, dotProduct_sub, smul_dotProduct, dotProduct_smul, smul_eq_mul, c1, c3]
  fin_cases i <;> simp [momentsGM, et, N] <;> field_simp <;> ring

section model
variable {k : Type} [Fintype k] [DecidableEq k] {n : ℕ → Type} [∀ t, Fintype (n t)] [∀ t, DecidableEq (n t)]
  {W : ∀ t, Matrix (n t) (n t) ℝ} {x : ∀ t, Matrix (n t) k ℝ} {y v e : ∀ t, Ω t → n t → ℝ} {beta : k → ℝ} {lam s : ℝ}

theorem sums_pow (hW : ∃ r, ∀ t, Sums (W t) r) (a : ℕ) : ∃ r, ∀ t, Sums (W t ^ a) r := by
  obtain ⟨r, hr⟩ := hW
  refine ⟨r ^ a, fun t => ?_⟩
  induction a with
  | zero => rw [pow_zero, pow_zero]; exact Sums.one
  | succ a ih => rw [pow_succ, pow_succ]; exact ih.mul (hr t)

/-- Averages of products of lags of residuals. -/
theorem em_qf (h : ErrorModel P n W x y v e beta lam fun _ _ => s) {m : Fin 3 → Fin 3 → ℝ} {tau : ℝ} (hm : ErrLimits P n W v m tau)
    (d : ∀ t, Ω t → k → ℝ) (hd : ∀ l, ConvP P (fun t ω => d t ω l) 0) (a b : Fin 3) :
    ConvP P (fun t ω => qf (W t) (v t ω - x t *ᵥ d t ω) a b) (m a b) := by
  obtain ⟨ra, ha⟩ := sums_pow h.sumsW a.1
  obtain ⟨rb, hb⟩ := sums_pow h.sumsW b.1
  have h1 := em_quad_const h (fun t => W t ^ a.1) (fun t => W t ^ b.1) ra rb ha hb d hd
  have h2 : ∀ t, ∫ ω, ∑ o, ((W t ^ a.1) *ᵥ v t ω) o * ((W t ^ b.1) *ᵥ v t ω) o ∂P t =
      s * ∑ i, ((W t ^ a.1 * (1 - lam • W t)⁻¹)ᵀ * (W t ^ b.1 * (1 - lam • W t)⁻¹)) i i := by
    intro t
    rw [Finset.mul_sum, ← (bilin_mean (h.err t) ((W t ^ a.1 * (1 - lam • W t)⁻¹)ᵀ * (W t ^ b.1 * (1 - lam • W t)⁻¹))).2]
    congr 1
    funext ω
    rw [(em_v h t ω).2.1, mulVec_mulVec (e t ω) (W t ^ a.1), mulVec_mulVec (e t ω) (W t ^ b.1),
      ← mulVec_mulVec (e t ω) (W t ^ a.1 * (1 - lam • W t)⁻¹)ᵀ, dotProduct_mulVec (e t ω), vecMul_transpose]
    rfl
  have h3 := conv_add _ _ (hm.1 a b) _ h1
  refine conv_congr h3 fun t ω => ?_
  rw [h2, qf]
  ring

/-- The moment equations hold in the limit. -/
theorem em_res (h : ErrorModel P n W x y v e beta lam fun _ _ => s) (d : ∀ t, Ω t → k → ℝ) (hd : ∀ l, ConvP P (fun t ω => d t ω l) 0) (i : Fin 3) :
    ConvP P (fun t ω => (momentsGM (W t) (v t ω - x t *ᵥ d t ω)).g i - ((momentsGM (W t) (v t ω - x t *ᵥ d t ω)).G i 0 * lam +
      (momentsGM (W t) (v t ω - x t *ᵥ d t ω)).G i 1 * lam ^ 2 + (momentsGM (W t) (v t ω - x t *ᵥ d t ω)).G i 2 * s)) 0 := by
  have hc : ∀ t, (Fintype.card (n t) : ℝ) ≠ 0 := fun t => by exact_mod_cast (h.pos t).ne'
  obtain ⟨r, hr⟩ := h.sumsW
  have hA : ∀ t, Sums (1 - lam • W t) (1 + |lam| * r) := fun t => (hr t).filter lam
  have hB : ∀ t, Sums (W t * (1 - lam • W t)) (r * (1 + |lam| * r)) := fun t => (hr t).mul (hA t)
  have eA : ∀ t, (1 - lam • W t) * (1 - lam • W t)⁻¹ = 1 := fun t => mul_nonsing_inv _ (h.reg t)
  have eB : ∀ t, W t * (1 - lam • W t) * (1 - lam • W t)⁻¹ = W t := fun t => by rw [Matrix.mul_assoc, eA, Matrix.mul_one]
  have et : ∀ t, ∑ i, ((W t)ᵀ * W t) i i = ∑ i, ∑ j, W t i j ^ 2 := fun t => by
    rw [Finset.sum_comm]
    exact Finset.sum_congr rfl fun i _ => by rw [mul_apply]; exact Finset.sum_congr rfl fun j _ => (sq _).symm
  have k0 := em_quad_const h _ _ _ _ hA hA d hd
  have k1 := em_quad_const h _ _ _ _ hB hB d hd
  have k2 := em_quad_const h _ _ _ _ hA hB d hd
  simp only [eA, eB, transpose_one, Matrix.one_mul, one_apply_eq, Finset.sum_const, Finset.card_univ, nsmul_eq_mul, mul_one, et, h.diag, mul_zero, sub_zero] at k0 k1 k2
  fin_cases i
  · refine conv_congr k0 fun t ω => (qf_res _ _ (hc t) lam s 0).trans ?_
    have := hc t
    simp only [Matrix.cons_val_zero]
    field_simp
  · exact conv_congr k1 fun t ω => (qf_res _ _ (hc t) lam s 1).trans rfl
  · exact conv_congr k2 fun t ω => (qf_res _ _ (hc t) lam s 2).trans rfl

/-- The matrix of the three moment equations in the limit. -/
def limitG (m : Fin 3 → Fin 3 → ℝ) (tau : ℝ) : Matrix (Fin 3) (Fin 3) ℝ :=
  !![2 * m 0 1, -m 1 1, 1; 2 * m 1 2, -m 2 2, tau; m 0 2 + m 1 1, -m 1 2, 0]

theorem em_lam (h : ErrorModel P n W x y v e beta lam fun _ _ => s) {m : Fin 3 → Fin 3 → ℝ} {tau : ℝ} (hm : ErrLimits P n W v m tau)
    (hdet : (limitG m tau).det ≠ 0) (hneg : 0 < m 1 1) (hs : 0 ≤ s) (opt : Moments (Fin 3) (Fin 3) → ℝ) (hopt : Minimises opt)
    (d : ∀ t, Ω t → k → ℝ) (hd : ∀ l, ConvP P (fun t ω => d t ω l) 0) :
    ConvP P (fun t ω => opt (momentsGM (W t) (v t ω - x t *ᵥ d t ω))) lam := by
  have hpr : ∀ t, IsProbabilityMeasure (P t) := fun t => (h.err t).prob
  have hc : ∀ t, (Fintype.card (n t) : ℝ) ≠ 0 := fun t => by exact_mod_cast (h.pos t).ne'
  have q := em_qf h hm d hd
  refine conv_opt opt hopt (fun t ω => momentsGM (W t) (v t ω - x t *ᵥ d t ω)) (limitG m tau) hdet (by simpa [limitG] using hneg) ?_ lam s h.box hs
    (em_res h d hd)
  intro i j
  refine conv_congr ?_ fun t ω => qf_G (W t) _ (hc t) i j
  fin_cases i <;> fin_cases j
  · exact conv_smul 2 (q 0 1)
  · exact conv_neg (q 1 1)
  · exact conv_const _ _ tendsto_const_nhds
  · exact conv_smul 2 (q 1 2)
  · exact conv_neg (q 2 2)
  · exact conv_const _ _ hm.2
  · exact conv_plus (q 0 2) (q 1 1)
  · exact conv_neg (q 1 2)
  · exact conv_const _ _ tendsto_const_nhds

/-- Limit of the cross products of the filtered regressors. -/
def limitS (q : Fin 2 → Fin 2 → Matrix k k ℝ) (lam : ℝ) : Matrix k k ℝ := q 0 0 - lam • q 0 1 - lam • q 1 0 + lam ^ 2 • q 1 1

/-- Cross products of the filtered regressors. -/
theorem em_S {s : ∀ t, n t → ℝ} (h : ErrorModel P n W x y v e beta lam s) {q : Fin 2 → Fin 2 → Matrix k k ℝ} (hq : RegLimits n W x q) (lh : ∀ t, Ω t → ℝ)
    (hl : ConvP P lh lam) (i j : k) :
    ConvP P (fun t ω => ((Fintype.card (n t) : ℝ)⁻¹ • ((spFilterM (W t) (lh t ω) (x t))ᵀ * spFilterM (W t) (lh t ω) (x t)) : Matrix k k ℝ) i j)
      (limitS q lam i j) := by
  have hpr : ∀ t, IsProbabilityMeasure (P t) := fun t => (h.err t).prob
  have c : ∀ a b, ConvP P (fun t _ => (∑ o, (W t ^ a.1 * x t : Matrix (n t) k ℝ) o i * (W t ^ b.1 * x t : Matrix (n t) k ℝ) o j) / (Fintype.card (n t) : ℝ))
      (q a b i j) := fun a b => conv_const _ _ (hq a b i j)
  have := conv_plus (conv_sub (conv_sub (c 0 0) (conv_mul hl (c 0 1))) (conv_mul hl (c 1 0))) (conv_mul (conv_mul hl hl) (c 1 1))
  rw [← sq] at this
  refine conv_congr this fun t ω => ?_
  rw [Matrix.smul_apply, mul_apply, smul_eq_mul]
  simp only [spFilterM, transpose_apply, Matrix.sub_apply, Matrix.smul_apply, smul_eq_mul, Fin.val_zero, Fin.val_one, pow_zero, pow_one, Matrix.one_mul,
    Fin.isValue, Fin.coe_ofNat_eq_mod, Nat.zero_mod, Nat.one_mod, sub_mul, mul_sub, Finset.sum_sub_distrib]
  simp only [mul_assoc, mul_left_comm _ (lh t ω), ← Finset.mul_sum]
  ring

/-- Products of the filtered regressors and the filtered disturbances. -/
theorem em_w {s : ∀ t, n t → ℝ} (h : ErrorModel P n W x y v e beta lam s) (lh : ∀ t, Ω t → ℝ) (hl : ConvP P lh lam) (l : k) :
    ConvP P (fun t ω => ((Fintype.card (n t) : ℝ)⁻¹ • ((spFilterM (W t) (lh t ω) (x t))ᵀ *ᵥ spFilter (W t) (lh t ω) (v t ω))) l) 0 := by
  obtain ⟨r, hr⟩ := h.sumsW
  have o1 : ∀ t, Sums (1 : Matrix (n t) (n t) ℝ) 1 := fun t => Sums.one
  have c00 := em_lin h _ _ _ _ o1 o1 l
  have c01 := em_lin h _ _ _ _ o1 hr l
  have c10 := em_lin h _ _ _ _ hr o1 l
  have c11 := em_lin h _ _ _ _ hr hr l
  have := conv_plus (conv_sub (conv_sub c00 (conv_mul hl c01)) (conv_mul hl c10)) (conv_mul (conv_mul hl hl) c11)
  simp only [mul_zero, sub_zero, add_zero] at this
  refine conv_congr this fun t ω => ?_
  rw [Pi.smul_apply, smul_eq_mul, spFilterM, spFilter, transpose_sub, transpose_smul, sub_mulVec, mulVec_sub, mulVec_sub, mulVec_smul, smul_mulVec, smul_mulVec,
    mulVec_smul, Matrix.one_mul, one_mulVec]
  simp only [Pi.sub_apply, Pi.smul_apply, smul_eq_mul]
  ring

/-- The error variance from filtered residuals. -/
theorem em_sig (h : ErrorModel P n W x y v e beta lam fun _ _ => s) {m : Fin 3 → Fin 3 → ℝ} {tau : ℝ} (hm : ErrLimits P n W v m tau) (lh : ∀ t, Ω t → ℝ)
    (hl : ConvP P lh lam) (d : ∀ t, Ω t → k → ℝ) (hd : ∀ l, ConvP P (fun t ω => d t ω l) 0) :
    ConvP P (fun t ω => sig2n (spFilter (W t) (lh t ω) (v t ω - x t *ᵥ d t ω))) s := by
  have hpr : ∀ t, IsProbabilityMeasure (P t) := fun t => (h.err t).prob
  have hc : ∀ t, (Fintype.card (n t) : ℝ) ≠ 0 := fun t => by exact_mod_cast (h.pos t).ne'
  obtain ⟨r, hr⟩ := h.sumsW
  have hA : ∀ t, Sums (1 - lam • W t) (1 + |lam| * r) := fun t => (hr t).filter lam
  have eA : ∀ t, (1 - lam • W t) * (1 - lam • W t)⁻¹ = 1 := fun t => mul_nonsing_inv _ (h.reg t)
  have k0 := em_quad_const h _ _ _ _ hA hA d hd
  simp only [eA, transpose_one, Matrix.one_mul, one_apply_eq, Finset.sum_const, Finset.card_univ, nsmul_eq_mul, mul_one] at k0
  have z : ConvP P (fun t ω => lh t ω - lam) 0 := by
    have := conv_sub hl (conv_const (P := P) (fun _ => lam) lam tendsto_const_nhds)
    rwa [sub_self] at this
  have p : ConvP P (fun t ω => lh t ω + lam) (lam + lam) := conv_plus hl (conv_const _ _ tendsto_const_nhds)
  have k1 := conv_plus (conv_plus (conv_const (P := P) (fun _ => s) s tendsto_const_nhds) k0)
    (conv_mul z (conv_sub (conv_mul p (em_qf h hm d hd 1 1)) (conv_smul 2 (em_qf h hm d hd 0 1))))
  simp only [add_zero, zero_mul] at k1
  refine conv_congr k1 fun t ω => ?_
  have := hc t
  have f1 : ∀ l : ℝ, ∀ u : n t → ℝ, (1 - l • W t) *ᵥ u = u - l • (W t *ᵥ u) := fun l u => by rw [sub_mulVec, one_mulVec, smul_mulVec]
  have e1 : ∀ w : n t → ℝ, ∑ i, w i ^ 2 = w ⬝ᵥ w := fun w => Finset.sum_congr rfl fun i _ => sq _
  have c1 : ∀ u : n t → ℝ, (W t *ᵥ u) ⬝ᵥ u = u ⬝ᵥ (W t *ᵥ u) := fun u => dotProduct_comm _ _
  rw [sig2n, utu, e1, spFilter, f1]
  simp only [qf, Fin.val_zero, Fin.val_one, pow_zero, pow_one, one_mulVec, Fin.isValue, Fin.coe_ofNat_eq_mod, Nat.zero_mod, Nat.one_mod]
  simp only [sub_dotProduct (v t ω - x t *ᵥ d t ω), dotProduct_sub (v t ω - x t *ᵥ d t ω) (v t ω - x t *ᵥ d t ω)]
  generalize hu : v t ω - x t *ᵥ d t ω = u
  simp only [sub_dotProduct, dotProduct_sub, smul_dotProduct, dotProduct_smul, smul_eq_mul, c1]
  field_simp
  ring

theorem spFilter_resid {m : Type} [Fintype m] (A : Matrix m m ℝ) (l : ℝ) (z : Matrix m k ℝ) (u : m → ℝ) (d : k → ℝ) :
    spFilter A l u - spFilterM A l z *ᵥ d = spFilter A l (u - z *ᵥ d) := by
  simp only [spFilter, spFilterM, mulVec_sub, sub_mulVec, smul_mulVec, smul_sub, mulVec_mulVec]
  abel

theorem gmError_some {m : Type} [Fintype m] (opt : Moments (Fin 3) (Fin 3) → ℝ) (A : Matrix m m ℝ) (z : Matrix m k ℝ) (w : m → ℝ) (l : ℝ) (f1 f2 : OLSFit m k)
    (h1 : ols z w = some f1) (hl : opt (momentsGM A f1.u) = l) (h2 : ols (spFilterM A l z) (spFilter A l w) = some f2) :
    ∃ f, gmError opt A z w = some f ∧ f.lam = l ∧ f.betas = f2.betas ∧ f.sig2 = sig2n f2.u ∧ f.vm = sig2n f2.u • f2.xtxi := by
  subst hl
  refine ⟨⟨f2.betas, opt (momentsGM A f1.u), z *ᵥ f2.betas, w - z *ᵥ f2.betas,
    (w - z *ᵥ f2.betas) - (opt (momentsGM A f1.u) • A) *ᵥ (w - z *ᵥ f2.betas), sig2n f2.u, sig2n f2.u • f2.xtxi⟩, ?_, rfl, rfl, rfl, rfl⟩
  rw [gmError, h1, Option.bind_some]
  simp only
  rw [h2, Option.map_some]

theorem gm_core (h : ErrorModel P n W x y v e beta lam fun _ _ => s) {q : Fin 2 → Fin 2 → Matrix k k ℝ} (hq : RegLimits n W x q) (hq0 : (q 0 0).det ≠ 0)
    (hqs : (limitS q lam).det ≠ 0) {m : Fin 3 → Fin 3 → ℝ} {tau : ℝ} (hm : ErrLimits P n W v m tau) (hdet : (limitG m tau).det ≠ 0) (hneg : 0 < m 1 1)
    (hs : 0 ≤ s) (opt : Moments (Fin 3) (Fin 3) → ℝ) (hopt : Minimises opt) :
    ∃ (bad : ∀ t, Set (Ω t)) (lh : ∀ t, Ω t → ℝ) (d : ∀ t, Ω t → k → ℝ) (S : ∀ t, Ω t → Matrix k k ℝ), Tendsto (fun t => P t (bad t)) atTop (𝓝 0) ∧
      ConvP P lh lam ∧ (∀ l, ConvP P (fun t ω => d t ω l) 0) ∧ (∀ i j, ConvP P (fun t ω => S t ω i j) (limitS q lam i j)) ∧
      ∀ t ω, ω ∉ bad t → ∃ f, gmError opt (W t) (x t) (y t ω) = some f ∧ f.lam = lh t ω ∧ f.betas = beta + d t ω ∧
        f.sig2 = sig2n (spFilter (W t) (lh t ω) (v t ω - x t *ᵥ d t ω)) ∧ (Fintype.card (n t) : ℝ) • f.vm = f.sig2 • (S t ω)⁻¹ := by
  have hpr : ∀ t, IsProbabilityMeasure (P t) := fun t => (h.err t).prob
  have hc : ∀ t, (Fintype.card (n t) : ℝ) ≠ 0 := fun t => by exact_mod_cast (h.pos t).ne'
  have hS1 : ∀ i j, ConvP P (fun t _ => ((Fintype.card (n t) : ℝ)⁻¹ • ((x t)ᵀ * x t) : Matrix k k ℝ) i j) (q 0 0 i j) := fun i j =>
    conv_congr (conv_const _ _ (hq 0 0 i j)) fun t ω => by
      rw [Matrix.smul_apply, mul_apply, div_eq_inv_mul, smul_eq_mul]
      simp
  have hw1 : ∀ l, ConvP P (fun t ω => ((Fintype.card (n t) : ℝ)⁻¹ • ((x t)ᵀ *ᵥ v t ω)) l) 0 := fun l =>
    conv_congr (em_lin h (fun t => 1) (fun t => 1) 1 1 (fun t => Sums.one) (fun t => Sums.one) l) fun t ω => by
      rw [Pi.smul_apply, Matrix.one_mul, one_mulVec, smul_eq_mul, div_eq_inv_mul]
  set d1 : ∀ t, Ω t → k → ℝ := fun t ω => ((Fintype.card (n t) : ℝ)⁻¹ • ((x t)ᵀ * x t))⁻¹ *ᵥ ((Fintype.card (n t) : ℝ)⁻¹ • ((x t)ᵀ *ᵥ v t ω)) with hd1
  have cd1 : ∀ l, ConvP P (fun t ω => d1 t ω l) 0 := conv_solve _ _ hq0 hS1 _ hw1
  set lh : ∀ t, Ω t → ℝ := fun t ω => opt (momentsGM (W t) (v t ω - x t *ᵥ d1 t ω)) with hlh
  have cl : ConvP P lh lam := em_lam h hm hdet hneg hs opt hopt d1 cd1
  set S : ∀ t, Ω t → Matrix k k ℝ := fun t ω => (Fintype.card (n t) : ℝ)⁻¹ • ((spFilterM (W t) (lh t ω) (x t))ᵀ * spFilterM (W t) (lh t ω) (x t)) with hSd
  have cS : ∀ i j, ConvP P (fun t ω => S t ω i j) (limitS q lam i j) := em_S h hq lh cl
  set d2 : ∀ t, Ω t → k → ℝ := fun t ω => (S t ω)⁻¹ *ᵥ ((Fintype.card (n t) : ℝ)⁻¹ • ((spFilterM (W t) (lh t ω) (x t))ᵀ *ᵥ spFilter (W t) (lh t ω) (v t ω))) with hd2
  have cd2 : ∀ l, ConvP P (fun t ω => d2 t ω l) 0 := conv_solve _ _ hqs cS _ (em_w h lh cl)
  refine ⟨fun t => {_ω | ((Fintype.card (n t) : ℝ)⁻¹ • ((x t)ᵀ * x t)).det = 0} ∪ {ω | (S t ω).det = 0}, lh, d2, S, ?_, cl, cd2, cS, ?_⟩
  · have b1 := (conv_det _ _ hq0 hS1).add (conv_det _ _ hqs cS)
    rw [add_zero] at b1
    exact tendsto_of_tendsto_of_tendsto_of_le_of_le tendsto_const_nhds b1 (fun _ => zero_le) fun t => measure_union_le _ _
  · intro t ω hω
    simp only [Set.mem_union, Set.mem_ofPred_eq, not_or] at hω
    obtain ⟨f1, g1, -, g1u, -⟩ := ols_scaled (x t) beta (v t ω) _ (hc t) hω.1
    obtain ⟨f2, g2, g2b, g2u, g2x⟩ := ols_scaled (spFilterM (W t) (lh t ω) (x t)) beta (spFilter (W t) (lh t ω) (v t ω)) _ (hc t) hω.2
    have hlam : opt (momentsGM (W t) f1.u) = lh t ω := by rw [g1u]
    have hys : spFilter (W t) (lh t ω) (x t *ᵥ beta + v t ω) = spFilterM (W t) (lh t ω) (x t) *ᵥ beta + spFilter (W t) (lh t ω) (v t ω) := by
      simp only [spFilter, spFilterM, mulVec_add, sub_mulVec, smul_mulVec, smul_add, mulVec_mulVec]
      abel
    have hu2 : f2.u = spFilter (W t) (lh t ω) (v t ω - x t *ᵥ d2 t ω) := by
      rw [g2u]
      exact spFilter_resid _ _ _ _ _
    rw [← hys] at g2
    obtain ⟨f, k1, k2, k3, k4, k5⟩ := gmError_some opt (W t) (x t) (x t *ᵥ beta + v t ω) (lh t ω) f1 f2 g1 hlam g2
    refine ⟨f, ?_, k2, ?_, ?_, ?_⟩
    · rw [(em_v h t ω).2.2]; exact k1
    · rw [k3]; exact g2b
    · rw [k4, hu2]
    · rw [k5, k4, smul_comm, g2x]

/-- **C184.** `GM_Error` is consistent: the coefficients, lambda and the error variance converge in probability to their true values, and `n` times the reported
variance matrix converges to the error variance times the inverse of the limit of the cross products of the filtered regressors. The estimator exists with a probability
that goes to one. The optimiser is any that minimises the sum of squared moments over the admissible values. -/
theorem C184_gmError (h : ErrorModel P n W x y v e beta lam fun _ _ => s) {q : Fin 2 → Fin 2 → Matrix k k ℝ} (hq : RegLimits n W x q) (hq0 : (q 0 0).det ≠ 0)
    (hqs : (q 0 0 - lam • q 0 1 - lam • q 1 0 + lam ^ 2 • q 1 1).det ≠ 0) {m : Fin 3 → Fin 3 → ℝ} {tau : ℝ} (hm : ErrLimits P n W v m tau)
    (hdet : (!![2 * m 0 1, -m 1 1, 1; 2 * m 1 2, -m 2 2, tau; m 0 2 + m 1 1, -m 1 2, 0] : Matrix (Fin 3) (Fin 3) ℝ).det ≠ 0) (hneg : 0 < m 1 1)
    (hs : 0 ≤ s) (opt : Moments (Fin 3) (Fin 3) → ℝ) (hopt : Minimises opt) :
    Consistent P (fun t ω => (gmError opt (W t) (x t) (y t ω)).map fun f => f.betas) beta ∧
    Consistent P (fun t ω => (gmError opt (W t) (x t) (y t ω)).map fun f (_ : Unit) => f.lam) (fun _ => lam) ∧
    Consistent P (fun t ω => (gmError opt (W t) (x t) (y t ω)).map fun f (_ : Unit) => f.sig2) (fun _ => s) ∧
    Consistent P (fun t ω => (gmError opt (W t) (x t) (y t ω)).map fun f (p : k × k) => Fintype.card (n t) * f.vm p.1 p.2)
      (fun p => s * (q 0 0 - lam • q 0 1 - lam • q 1 0 + lam ^ 2 • q 1 1)⁻¹ p.1 p.2) := by
  obtain ⟨bad, lh, d, S, hbad, cl, cd, cS, hf⟩ := gm_core h hq hq0 hqs hm hdet hneg hs opt hopt
  have hpr : ∀ t, IsProbabilityMeasure (P t) := fun t => (h.err t).prob
  have csig := em_sig h hm lh cl d cd
  refine ⟨?_, ?_, ?_, ?_⟩
  · refine consistent_except (fun t ω => beta + d t ω) bad hbad (fun t ω hω => ?_) _ fun j => ?_
    · obtain ⟨f, e1, -, e2, -⟩ := hf t ω hω
      rw [e1, Option.map_some, e2]
    · exact conv_add (fun _ => beta j) (beta j) tendsto_const_nhds _ (cd j)
  · refine consistent_except (fun t ω _ => lh t ω) bad hbad (fun t ω hω => ?_) _ fun _ => cl
    obtain ⟨f, e1, e2, -⟩ := hf t ω hω
    rw [e1, Option.map_some, e2]
  · refine consistent_except (fun t ω _ => sig2n (spFilter (W t) (lh t ω) (v t ω - x t *ᵥ d t ω))) bad hbad (fun t ω hω => ?_) _ fun _ => csig
    obtain ⟨f, e1, -, -, e2, -⟩ := hf t ω hω
    rw [e1, Option.map_some, e2]
  · refine consistent_except (k := k × k) (fun t ω (p : k × k) => sig2n (spFilter (W t) (lh t ω) (v t ω - x t *ᵥ d t ω)) * (S t ω)⁻¹ p.1 p.2) bad hbad
      (fun t ω hω => ?_) _ fun p => ?_
    · obtain ⟨f, e1, -, -, e2, e3⟩ := hf t ω hω
      rw [e1, Option.map_some]
      congr 1
      funext p
      have := congrFun (congrFun e3 p.1) p.2
      rw [e2] at this
      exact this
    · exact conv_mul csig (conv_matinv S _ hqs cS p.1 p.2)

end model

/-- Such an optimiser exists. -/
theorem minimises_exists : ∃ opt, Minimises opt := by
  have key : ∀ M : Moments (Fin 3) (Fin 3), ∃ l sig, 0 ≤ sig ∧ |l| ≤ 0.99 ∧
      ∀ l' sig', |l'| ≤ 0.99 → 0 ≤ sig' → ∑ i, (M.g i - (M.G i 0 * l + M.G i 1 * l ^ 2 + M.G i 2 * sig)) ^ 2 ≤
        ∑ i, (M.g i - (M.G i 0 * l' + M.G i 1 * l' ^ 2 + M.G i 2 * sig')) ^ 2 := by
    intro M
    set c := ∑ i, M.G i 2 ^ 2 with hc
    have hc0 : 0 ≤ c := Finset.sum_nonneg fun _ _ => sq_nonneg _
    set r : ℝ → Fin 3 → ℝ := fun l i => M.g i - (M.G i 0 * l + M.G i 1 * l ^ 2) with hr
    set b : ℝ → ℝ := fun l => ∑ i, r l i * M.G i 2 with hb
    set so : ℝ → ℝ := fun l => max 0 (b l / c) with hso
    have hf : ∀ l sig, ∑ i, (M.g i - (M.G i 0 * l + M.G i 1 * l ^ 2 + M.G i 2 * sig)) ^ 2 = ∑ i, r l i ^ 2 - 2 * b l * sig + c * sig ^ 2 := by
      intro l sig
      simp only [hr, hb, hc, Fin.sum_univ_three]
      ring
    have hle : ∀ l sig, 0 ≤ sig → ∑ i, r l i ^ 2 - 2 * b l * so l + c * so l ^ 2 ≤ ∑ i, r l i ^ 2 - 2 * b l * sig + c * sig ^ 2 := by
      intro l sig hsig
      rcases hc0.eq_or_lt with h0 | h0
      · have hz : ∀ i, M.G i 2 = 0 := by
          intro i
          have := (Finset.sum_eq_zero_iff_of_nonneg (fun i _ => sq_nonneg (M.G i 2))).1 (hc.symm.trans h0.symm) i (Finset.mem_univ i)
          exact pow_eq_zero_iff two_ne_zero |>.1 this
        have : b l = 0 := Finset.sum_eq_zero fun i _ => by rw [hz, mul_zero]
        rw [this, ← h0]; simp
      · by_cases hbl : 0 ≤ b l
        · have : so l = b l / c := max_eq_right (div_nonneg hbl hc0)
          have e : c * so l = b l := by rw [this]; field_simp
          rw [← e]
          nlinarith [mul_nonneg hc0 (sq_nonneg (sig - so l))]
        · have : so l = 0 := max_eq_left (div_nonpos_of_nonpos_of_nonneg (not_le.1 hbl).le hc0)
          rw [this]
          nlinarith [mul_nonneg hsig (neg_nonneg.2 (not_le.1 hbl).le), mul_nonneg hc0 (sq_nonneg sig)]
    have hcont : Continuous fun l => ∑ i, r l i ^ 2 - 2 * b l * so l + c * so l ^ 2 := by
      have c1 : ∀ i, Continuous fun l => r l i := fun i => by simp only [hr]; fun_prop
      have c2 : Continuous b := continuous_finsetSum _ fun i _ => (c1 i).mul continuous_const
      have c3 : Continuous so := continuous_const.max (c2.div_const c)
      exact ((continuous_finsetSum _ fun i _ => (c1 i).pow 2).sub ((continuous_const.mul c2).mul c3)).add (continuous_const.mul (c3.pow 2))
    obtain ⟨l, hl, hmin⟩ := (isCompact_Icc (a := (-0.99 : ℝ)) (b := 0.99)).exists_isMinOn ⟨0, by norm_num, by norm_num⟩ hcont.continuousOn
    refine ⟨l, so l, le_max_left _ _, abs_le.2 hl, fun l' sig' hl' hs' => ?_⟩
    rw [hf, hf]
    exact (hmin (abs_le.1 hl')).trans (hle l' sig' hs')
  choose opt sig h1 h2 h3 using key
  exact ⟨opt, fun M _ => ⟨sig M, h1 M, h2 M, h3 M⟩⟩
end Spreg.Consist
