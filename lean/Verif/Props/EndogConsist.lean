import Verif.Props.GMHetConsist
import Verif.Props.TSLSVar
import Verif.Spec.EndogError
import Verif.Spec.ComboModel
import Verif.Model.HardBound
set_option linter.unusedSectionVars false
set_option linter.unusedSimpArgs false
/-
C189: the generalized moments estimator of the spatial error model with endogenous regressors is consistent.
-/
namespace Spreg.Consist
open Spreg Spreg.Lin Spreg.GM Spreg.LagReg Spreg.HardBound Spreg.Sampling Matrix MeasureTheory Filter Topology

variable {Ω : ℕ → Type} [∀ t, MeasurableSpace (Ω t)] {P : ∀ t, Measure (Ω t)}

section model
variable {k l : Type} [Fintype k] [DecidableEq k] [Fintype l] [DecidableEq l] {n : ℕ → Type} [∀ t, Fintype (n t)] [∀ t, DecidableEq (n t)]
  {W : ∀ t, Matrix (n t) (n t) ℝ} {z : ∀ t, Ω t → Matrix (n t) k ℝ} {h : ∀ t, Matrix (n t) l ℝ} {y v e : ∀ t, Ω t → n t → ℝ} {theta : k → ℝ} {lam s : ℝ}

/-- The disturbances are those of a model whose regressors are the instruments, with coefficients of zero. -/
theorem endog_model (hm : EndogErrorModel P n W z h y v e theta lam s) : ErrorModel P n W h v v e (0 : l → ℝ) lam fun _ _ => s where
  y_eq t ω i := by simp
  v_eq := hm.v_eq
  err := hm.err
  var := ⟨s, fun _ _ => le_rfl⟩
  pairs := hm.pairs
  size := hm.size
  pos := hm.pos
  reg := hm.reg
  diag := hm.diag
  sumsW := hm.sumsW
  sumsR := hm.sumsR
  bdd := hm.bddH
  box := hm.box

theorem endog_y (hm : EndogErrorModel P n W z h y v e theta lam s) (t : ℕ) (ω : Ω t) : y t ω = z t ω *ᵥ theta + v t ω := by
  funext i
  exact hm.y_eq t ω i

/-- Quadratic forms of residuals have the averages that those of the disturbances are expected to have. -/
def QuadLim (P : ∀ t, Measure (Ω t)) (W : ∀ t, Matrix (n t) (n t) ℝ) (u : ∀ t, Ω t → n t → ℝ) (lam s : ℝ) : Prop :=
  ∀ (A B : ∀ t, Matrix (n t) (n t) ℝ) (a b : ℝ), (∀ t, Sums (A t) a) → (∀ t, Sums (B t) b) →
    ConvP P (fun t ω => ((A t *ᵥ u t ω) ⬝ᵥ (B t *ᵥ u t ω) - s * ∑ i, ((A t * (1 - lam • W t)⁻¹)ᵀ * (B t * (1 - lam • W t)⁻¹)) i i) / Fintype.card (n t)) 0

theorem sq_comb {m : Type} [Fintype m] (z : Matrix m k ℝ) (d : k → ℝ) : ∑ i, (z *ᵥ d) i ^ 2 ≤ (∑ j, d j ^ 2) * ∑ j, ∑ i, z i j ^ 2 := by
  calc ∑ i, (z *ᵥ d) i ^ 2 ≤ ∑ i, (∑ j, d j ^ 2) * ∑ j, z i j ^ 2 := Finset.sum_le_sum fun i _ => by
        have := Finset.sum_mul_sq_le_sq_mul_sq Finset.univ (fun j => z i j) d
        rw [mul_comm]
        exact this
    _ = _ := by rw [← Finset.mul_sum, Finset.sum_comm]

/-- Vanishing combinations of the regressors have averages of squares that vanish. -/
theorem endog_comb (hm : EndogErrorModel P n W z h y v e theta lam s) (d : ∀ t, Ω t → k → ℝ) (hd : ∀ j, ConvP P (fun t ω => d t ω j) 0) :
    ConvP P (fun t ω => (∑ i, (z t ω *ᵥ d t ω) i ^ 2) / Fintype.card (n t)) 0 := by
  have k1 := conv_sum (P := P) (fun t ω j => d t ω j ^ 2) (fun _ => 0) fun j => by
    have := conv_pow (hd j) 2
    rwa [zero_pow two_ne_zero] at this
  rw [Finset.sum_const_zero] at k1
  have k2 := conv_sum (P := P) (fun t ω j => (∑ j, d t ω j ^ 2) * ((∑ i, z t ω i j ^ 2) / Fintype.card (n t))) (fun _ => 0) fun j => conv_mbdd k1 (hm.bddZ j)
  rw [Finset.sum_const_zero] at k2
  refine conv_le k2 fun t ω => ?_
  have hc : (0 : ℝ) < Fintype.card (n t) := by exact_mod_cast hm.pos t
  have h0 : (∑ i, (z t ω *ᵥ d t ω) i ^ 2) / Fintype.card (n t) ≤ ∑ j, (∑ j, d t ω j ^ 2) * ((∑ i, z t ω i j ^ 2) / Fintype.card (n t)) := by
    rw [← Finset.mul_sum, ← Finset.sum_div, mul_div_assoc']
    exact div_le_div_of_nonneg_right (sq_comb _ _) hc.le
  have h1 : 0 ≤ (∑ i, (z t ω *ᵥ d t ω) i ^ 2) / Fintype.card (n t) := div_nonneg (Finset.sum_nonneg fun i _ => sq_nonneg _) hc.le
  rw [abs_of_nonneg h1, abs_of_nonneg (h1.trans h0)]
  exact h0

theorem quad_zero (hm : EndogErrorModel P n W z h y v e theta lam s) : QuadLim P W v lam s := fun A B a b hA hB => by
  have hpr : ∀ t, IsProbabilityMeasure (P t) := fun t => (hm.err t).prob
  have := em_quad_const (endog_model hm) A B a b hA hB (fun _ _ => 0) fun l => conv_const _ _ tendsto_const_nhds
  simpa only [mulVec_zero, sub_zero] using this

/-- The averages of squared disturbances stay bounded. -/
theorem endog_v (hm : EndogErrorModel P n W z h y v e theta lam s) {m : Fin 3 → Fin 3 → ℝ} {tau : ℝ} (hl : ErrLimits P n W v m tau) :
    ConvP P (fun t ω => (∑ i, v t ω i ^ 2) / Fintype.card (n t)) (m 0 0) := by
  have hpr : ∀ t, IsProbabilityMeasure (P t) := fun t => (hm.err t).prob
  have := em_qf (endog_model hm) hl (fun _ _ => 0) (fun l => conv_const _ _ tendsto_const_nhds) 0 0
  refine conv_congr this fun t ω => ?_
  simp only [qf, mulVec_zero, sub_zero, Fin.val_zero, pow_zero, one_mulVec]
  congr 1
  exact Finset.sum_congr rfl fun i _ => sq _

/-- Products of two vectors one of which is small. -/
theorem cross_zero (hpos : ∀ t, 0 < Fintype.card (n t)) {f g : ∀ t, Ω t → n t → ℝ} (A B : ∀ t, Matrix (n t) (n t) ℝ) (a b : ℝ) (hA : ∀ t, Sums (A t) a)
    (hB : ∀ t, Sums (B t) b) (hf : ConvP P (fun t ω => (∑ i, f t ω i ^ 2) / Fintype.card (n t)) 0) (hg : MeanBdd P fun t ω => (∑ i, g t ω i ^ 2) / Fintype.card (n t)) :
    ConvP P (fun t ω => ((A t *ᵥ f t ω) ⬝ᵥ (B t *ᵥ g t ω)) / Fintype.card (n t)) 0 := by
  have k1 := conv_smul (a ^ 2 * b ^ 2) (conv_mbdd hf hg)
  rw [mul_zero] at k1
  refine conv_sqrt (conv_le k1 fun t ω => ?_)
  have hc : (0 : ℝ) < Fintype.card (n t) := by exact_mod_cast hpos t
  have h1 := Finset.sum_mul_sq_le_sq_mul_sq Finset.univ (A t *ᵥ f t ω) (B t *ᵥ g t ω)
  have h2 := mul_le_mul (sums_norm (hA t) (f t ω)) (sums_norm (hB t) (g t ω)) (Finset.sum_nonneg fun i _ => sq_nonneg _)
    (mul_nonneg (sq_nonneg _) (Finset.sum_nonneg fun i _ => sq_nonneg _))
  have h3 : (((A t *ᵥ f t ω) ⬝ᵥ (B t *ᵥ g t ω)) / Fintype.card (n t)) ^ 2 ≤
      a ^ 2 * b ^ 2 * ((∑ i, f t ω i ^ 2) / Fintype.card (n t) * ((∑ i, g t ω i ^ 2) / Fintype.card (n t))) := by
    rw [div_pow, div_mul_div_comm, mul_div_assoc', ← sq]
    refine div_le_div_of_nonneg_right ((h1.trans h2).trans (le_of_eq ?_)) (sq_nonneg _)
    ring
  rw [abs_of_nonneg (sq_nonneg _)]
  exact h3.trans (le_abs_self _)

theorem quad_resid (hm : EndogErrorModel P n W z h y v e theta lam s) {m : Fin 3 → Fin 3 → ℝ} {tau : ℝ} (hl : ErrLimits P n W v m tau)
    (d : ∀ t, Ω t → k → ℝ) (hd : ∀ j, ConvP P (fun t ω => d t ω j) 0) : QuadLim P W (fun t ω => v t ω - z t ω *ᵥ d t ω) lam s := fun A B a b hA hB => by
  have hpr : ∀ t, IsProbabilityMeasure (P t) := fun t => (hm.err t).prob
  have kz := endog_comb hm d hd
  have kv := mbdd_of_conv (endog_v hm hl)
  have c1 := quad_zero hm A B a b hA hB
  have c2 := cross_zero hm.pos A B a b hA hB kz kv
  have c3 := cross_zero hm.pos B A b a hB hA kz kv
  have c4 := cross_zero hm.pos A B a b hA hB kz (mbdd_of_conv kz)
  have := conv_plus (conv_sub (conv_sub c1 c2) c3) c4
  simp only [sub_zero, add_zero] at this
  refine conv_congr this fun t ω => ?_
  rw [mulVec_sub, mulVec_sub, sub_dotProduct, dotProduct_sub, dotProduct_sub, dotProduct_comm (B t *ᵥ _) (A t *ᵥ v t ω)]
  ring

section quad
variable {beta : l → ℝ}

/-- Averages of products of lags of residuals. -/
theorem qu_qf (he : ErrorModel P n W h y v e beta lam fun _ _ => s) {m : Fin 3 → Fin 3 → ℝ} {tau : ℝ} (hm : ErrLimits P n W v m tau)
    {u : ∀ t, Ω t → n t → ℝ} (hu : QuadLim P W u lam s) (a b : Fin 3) :
    ConvP P (fun t ω => qf (W t) (u t ω) a b) (m a b) := by
  obtain ⟨ra, ha⟩ := sums_pow he.sumsW a.1
  obtain ⟨rb, hb⟩ := sums_pow he.sumsW b.1
  have h1 := hu (fun t => W t ^ a.1) (fun t => W t ^ b.1) ra rb ha hb
  have h2 : ∀ t, ∫ ω, ∑ o, ((W t ^ a.1) *ᵥ v t ω) o * ((W t ^ b.1) *ᵥ v t ω) o ∂P t =
      s * ∑ i, ((W t ^ a.1 * (1 - lam • W t)⁻¹)ᵀ * (W t ^ b.1 * (1 - lam • W t)⁻¹)) i i := by
    intro t
    rw [Finset.mul_sum, ← (bilin_mean (he.err t) ((W t ^ a.1 * (1 - lam • W t)⁻¹)ᵀ * (W t ^ b.1 * (1 - lam • W t)⁻¹))).2]
    congr 1
    funext ω
    rw [(em_v he t ω).2.1, mulVec_mulVec (e t ω) (W t ^ a.1), mulVec_mulVec (e t ω) (W t ^ b.1),
      ← mulVec_mulVec (e t ω) (W t ^ a.1 * (1 - lam • W t)⁻¹)ᵀ, dotProduct_mulVec (e t ω), vecMul_transpose]
    rfl
  have h3 := conv_add _ _ (hm.1 a b) _ h1
  refine conv_congr h3 fun t ω => ?_
  rw [h2, qf]
  ring

/-- The moment equations hold in the limit. -/
theorem qu_res (he : ErrorModel P n W h y v e beta lam fun _ _ => s) {u : ∀ t, Ω t → n t → ℝ} (hu : QuadLim P W u lam s) (i : Fin 3) :
    ConvP P (fun t ω => (momentsGM (W t) (u t ω)).g i - ((momentsGM (W t) (u t ω)).G i 0 * lam +
      (momentsGM (W t) (u t ω)).G i 1 * lam ^ 2 + (momentsGM (W t) (u t ω)).G i 2 * s)) 0 := by
  have hc : ∀ t, (Fintype.card (n t) : ℝ) ≠ 0 := fun t => by exact_mod_cast (he.pos t).ne'
  obtain ⟨r, hr⟩ := he.sumsW
  have hA : ∀ t, Sums (1 - lam • W t) (1 + |lam| * r) := fun t => (hr t).filter lam
  have hB : ∀ t, Sums (W t * (1 - lam • W t)) (r * (1 + |lam| * r)) := fun t => (hr t).mul (hA t)
  have eA : ∀ t, (1 - lam • W t) * (1 - lam • W t)⁻¹ = 1 := fun t => mul_nonsing_inv _ (he.reg t)
  have eB : ∀ t, W t * (1 - lam • W t) * (1 - lam • W t)⁻¹ = W t := fun t => by rw [Matrix.mul_assoc, eA, Matrix.mul_one]
  have et : ∀ t, ∑ i, ((W t)ᵀ * W t) i i = ∑ i, ∑ j, W t i j ^ 2 := fun t => by
    rw [Finset.sum_comm]
    exact Finset.sum_congr rfl fun i _ => by rw [mul_apply]; exact Finset.sum_congr rfl fun j _ => (sq _).symm
  have k0 := hu _ _ _ _ hA hA
  have k1 := hu _ _ _ _ hB hB
  have k2 := hu _ _ _ _ hA hB
  simp only [eA, eB, transpose_one, Matrix.one_mul, one_apply_eq, Finset.sum_const, Finset.card_univ, nsmul_eq_mul, mul_one, et, he.diag, mul_zero, sub_zero] at k0 k1 k2
  fin_cases i
  · refine conv_congr k0 fun t ω => (qf_res _ _ (hc t) lam s 0).trans ?_
    have := hc t
    simp only [Matrix.cons_val_zero]
    field_simp
  · exact conv_congr k1 fun t ω => (qf_res _ _ (hc t) lam s 1).trans rfl
  · exact conv_congr k2 fun t ω => (qf_res _ _ (hc t) lam s 2).trans rfl

theorem qu_lam (he : ErrorModel P n W h y v e beta lam fun _ _ => s) {m : Fin 3 → Fin 3 → ℝ} {tau : ℝ} (hm : ErrLimits P n W v m tau)
    (hdet : (limitG m tau).det ≠ 0) (hneg : 0 < m 1 1) (hs : 0 ≤ s) (opt : Moments (Fin 3) (Fin 3) → ℝ) (hopt : Minimises opt)
    {u : ∀ t, Ω t → n t → ℝ} (hu : QuadLim P W u lam s) :
    ConvP P (fun t ω => opt (momentsGM (W t) (u t ω))) lam := by
  have hpr : ∀ t, IsProbabilityMeasure (P t) := fun t => (he.err t).prob
  have hc : ∀ t, (Fintype.card (n t) : ℝ) ≠ 0 := fun t => by exact_mod_cast (he.pos t).ne'
  have q := qu_qf he hm hu
  refine conv_opt opt hopt (fun t ω => momentsGM (W t) (u t ω)) (limitG m tau) hdet (by simpa [limitG] using hneg) ?_ lam s he.box hs
    (qu_res he hu)
  intro i j
  refine conv_congr ?_ fun t ω => qf_G (W t) _ (hc t) i j
  fin_cases i <;> fin_cases j
  · exact conv_smul 2 (q 0 1)
  · exact conv_neg (q 1 1)
  · exact conv_const _ _ tendsto_const_nhds
  · exact conv_smul 2 (q 1 2)
  · exact conv_neg (q 2 2)
  · exact conv_const _ _ hm.2
  · exact conv_plus (q 0 2) (q 1 1)
  · exact conv_neg (q 1 2)
  · exact conv_const _ _ tendsto_const_nhds

/-- The error variance from filtered residuals. -/
theorem qu_sig (he : ErrorModel P n W h y v e beta lam fun _ _ => s) {m : Fin 3 → Fin 3 → ℝ} {tau : ℝ} (hm : ErrLimits P n W v m tau) (lh : ∀ t, Ω t → ℝ)
    (hl : ConvP P lh lam) {u : ∀ t, Ω t → n t → ℝ} (hu : QuadLim P W u lam s) :
    ConvP P (fun t ω => sig2n (spFilter (W t) (lh t ω) (u t ω))) s := by
  have hpr : ∀ t, IsProbabilityMeasure (P t) := fun t => (he.err t).prob
  have hc : ∀ t, (Fintype.card (n t) : ℝ) ≠ 0 := fun t => by exact_mod_cast (he.pos t).ne'
  obtain ⟨r, hr⟩ := he.sumsW
  have hA : ∀ t, Sums (1 - lam • W t) (1 + |lam| * r) := fun t => (hr t).filter lam
  have eA : ∀ t, (1 - lam • W t) * (1 - lam • W t)⁻¹ = 1 := fun t => mul_nonsing_inv _ (he.reg t)
  have k0 := hu _ _ _ _ hA hA
  simp only [eA, transpose_one, Matrix.one_mul, one_apply_eq, Finset.sum_const, Finset.card_univ, nsmul_eq_mul, mul_one] at k0
  have z : ConvP P (fun t ω => lh t ω - lam) 0 := by
    have := conv_sub hl (conv_const (P := P) (fun _ => lam) lam tendsto_const_nhds)
    rwa [sub_self] at this
  have p : ConvP P (fun t ω => lh t ω + lam) (lam + lam) := conv_plus hl (conv_const _ _ tendsto_const_nhds)
  have k1 := conv_plus (conv_plus (conv_const (P := P) (fun _ => s) s tendsto_const_nhds) k0)
    (conv_mul z (conv_sub (conv_mul p (qu_qf he hm hu 1 1)) (conv_smul 2 (qu_qf he hm hu 0 1))))
  simp only [add_zero, zero_mul] at k1
  refine conv_congr k1 fun t ω => ?_
  have := hc t
  have f1 : ∀ l : ℝ, ∀ u : n t → ℝ, (1 - l • W t) *ᵥ u = u - l • (W t *ᵥ u) := fun l u => by rw [sub_mulVec, one_mulVec, smul_mulVec]
  have e1 : ∀ w : n t → ℝ, ∑ i, w i ^ 2 = w ⬝ᵥ w := fun w => Finset.sum_congr rfl fun i _ => sq _
  have c1 : ∀ u : n t → ℝ, (W t *ᵥ u) ⬝ᵥ u = u ⬝ᵥ (W t *ᵥ u) := fun u => dotProduct_comm _ _
  rw [sig2n, utu, e1, spFilter, f1]
  simp only [qf, Fin.val_zero, Fin.val_one, pow_zero, pow_one, one_mulVec, Fin.isValue, Fin.coe_ofNat_eq_mod, Nat.zero_mod, Nat.one_mod]
  simp only [sub_dotProduct (u t ω), dotProduct_sub (u t ω) (u t ω)]
  generalize u t ω = u
  simp only [sub_dotProduct, dotProduct_sub, smul_dotProduct, dotProduct_smul, smul_eq_mul, c1]
  field_simp
  ring

end quad

/-- 2SLS with random regressors, and its coefficients. -/
theorem tsls_fit (z : ∀ t, Ω t → Matrix (n t) k ℝ) (h : ∀ t, Ω t → Matrix (n t) l ℝ) (y u : ∀ t, Ω t → n t → ℝ)
    (th : k → ℝ) (hy : ∀ t ω, y t ω = z t ω *ᵥ th + u t ω)
    (hpos : ∀ t, 0 < Fintype.card (n t)) (t : ℕ) (ω : Ω t) (hω : ω ∉ bad z h t) :
    ∃ f, tslsZH (z t ω) (h t ω) (y t ω) = some f ∧ f.betas = th + dd (z t ω) (h t ω) (u t ω) ∧ f.u = u t ω - z t ω *ᵥ dd (z t ω) (h t ω) (u t ω) ∧
      (Fintype.card (n t) : ℝ) • f.varb = (vv (z t ω) (h t ω) * sc (Fintype.card (n t) : ℝ) (h t ω) (z t ω))⁻¹ := by
  have hc : (Fintype.card (n t) : ℝ) ≠ 0 := by exact_mod_cast (hpos t).ne'
  have hω' := not_not.1 hω
  obtain ⟨f, e1, e2, e3, -⟩ := tsls_all (z t ω) (h t ω) (u t ω) th _ hc hω'.1 hω'.2
  obtain ⟨g, g1, g2⟩ := tsls_err (z t ω) (h t ω) (u t ω) th _ hc hω'.1 hω'.2
  rw [e1] at g1
  have : f = g := Option.some.inj g1
  subst this
  refine ⟨f, by rw [hy]; exact e1, ?_, e2, e3⟩
  have : f.betas - th = dd (z t ω) (h t ω) (u t ω) := g2
  rw [← this]
  abel

theorem okb {α β : Type} (a : α) (f : α → Py β) : ((Except.ok a : Py α) >>= f) = f a := rfl

theorem endog_some {m : Type} [Fintype m] (opt : Moments (Fin 3) (Fin 3) → ℝ) (A : Matrix m m ℝ) (z : Matrix m k ℝ) (h : Matrix m l ℝ) (w : m → ℝ) (l0 : ℝ)
    (f1 f2 : TSLSFit m k l) (hb : Bool) (hg : hb = true → |l0| < 0.99) (h1 : tslsZH z h w = some f1) (hl : opt (momentsGM A f1.u) = l0) (h2 : tslsZH (spFilterM A l0 z) h (spFilter A l0 w) = some f2) :
    ∃ f, gmEndogError (guarded hb fun M => .ok (opt M)) A z h w = .ok f ∧ f.lam = l0 ∧ f.betas = f2.betas ∧ f.sig2 = sig2n f2.u ∧ f.vm = f.sig2 • f2.varb := by
  subst hl
  have e1 : tslsE z h w = .ok f1 := by rw [tslsE, h1]
  have e2 : tslsE (spFilterM A (opt (momentsGM A f1.u)) z) h (spFilter A (opt (momentsGM A f1.u)) w) = .ok f2 := by rw [tslsE, h2]
  have es : (f2.u ⬝ᵥ f2.u) / N m = sig2n f2.u := by
    rw [sig2n, utu]
    congr 1
    exact Finset.sum_congr rfl fun i _ => (sq _).symm
  refine ⟨⟨f2.betas, opt (momentsGM A f1.u), z *ᵥ f2.betas, w - z *ᵥ f2.betas,
    (w - z *ᵥ f2.betas) - (opt (momentsGM A f1.u) • A) *ᵥ (w - z *ᵥ f2.betas), (f2.u ⬝ᵥ f2.u) / N m, ((f2.u ⬝ᵥ f2.u) / N m) • f2.varb⟩, ?_, rfl, rfl, es, rfl⟩
  have eg : guarded hb (fun M => .ok (opt M)) (momentsGM A f1.u) = .ok (opt (momentsGM A f1.u)) := by
    show (if hb = true ∧ 99 / 100 ≤ |opt (momentsGM A f1.u)| then _ else _) = _
    rw [if_neg]
    rintro ⟨h3, h4⟩
    have := hg h3
    norm_num at this
    linarith
  rw [gmEndogError, e1]
  simp only [okb]
  rw [eg]
  simp only [okb]
  rw [e2]
  rfl

theorem endog_core (hm : EndogErrorModel P n W z h y v e theta lam s) {B : Matrix l l ℝ} {Q0 Q1 : Matrix l k ℝ} (hi : InstrLimits P n W z h B Q0 Q1)
    (hB : B.det ≠ 0) (hQ0 : (Q0ᵀ * B⁻¹ * Q0).det ≠ 0) (hQs : ((Q0 - lam • Q1)ᵀ * B⁻¹ * (Q0 - lam • Q1)).det ≠ 0)
    {m : Fin 3 → Fin 3 → ℝ} {tau : ℝ} (hl : ErrLimits P n W v m tau) (hdet : (limitG m tau).det ≠ 0) (hneg : 0 < m 1 1)
    (hs : 0 ≤ s) (opt : Moments (Fin 3) (Fin 3) → ℝ) (hopt : Minimises opt)
    (hb : Bool) (hbound : hb = true → |lam| < 0.99) :
    ∃ (bd : ∀ t, Set (Ω t)) (lh : ∀ t, Ω t → ℝ) (d : ∀ t, Ω t → k → ℝ) (S : ∀ t, Ω t → Matrix k k ℝ), Tendsto (fun t => P t (bd t)) atTop (𝓝 0) ∧
      ConvP P lh lam ∧ (∀ j, ConvP P (fun t ω => d t ω j) 0) ∧ (∀ i j, ConvP P (fun t ω => S t ω i j) (((Q0 - lam • Q1)ᵀ * B⁻¹ * (Q0 - lam • Q1))⁻¹ i j)) ∧
      ∀ t ω, ω ∉ bd t → ∃ f, gmEndogError (guarded hb fun M => .ok (opt M)) (W t) (z t ω) (h t) (y t ω) = .ok f ∧ f.lam = lh t ω ∧ f.betas = theta + d t ω ∧
        f.sig2 = sig2n (spFilter (W t) (lh t ω) (v t ω - z t ω *ᵥ d t ω)) ∧ (Fintype.card (n t) : ℝ) • f.vm = f.sig2 • S t ω := by
  have hpr : ∀ t, IsProbabilityMeasure (P t) := fun t => (hm.err t).prob
  have he := endog_model hm
  obtain ⟨r, hr⟩ := hm.sumsW
  have o1 : ∀ t, Sums (1 : Matrix (n t) (n t) ℝ) 1 := fun t => Sums.one
  have cB : ∀ i j, ConvP P (fun t (_ : Ω t) => (∑ a, h t a i * h t a j) / (Fintype.card (n t) : ℝ)) (B i j) := fun i j => conv_const _ _ (hi.1 i j)
  have ch : ∀ i, ConvP P (fun t ω => (∑ a, h t a i * v t ω a) / Fintype.card (n t)) 0 := fun i =>
    conv_congr (em_lin he _ _ _ _ o1 o1 i) fun t ω => by rw [Matrix.one_mul, one_mulVec]; rfl
  have cw : ∀ i, ConvP P (fun t ω => (∑ a, h t a i * (W t *ᵥ v t ω) a) / Fintype.card (n t)) 0 := fun i =>
    conv_congr (em_lin he _ _ _ _ o1 hr i) fun t ω => by rw [Matrix.one_mul]; rfl
  obtain ⟨b1, cd1, -, -, -⟩ := tsls_parts z (fun t (_ : Ω t) => h t) y v theta (endog_y hm) hm.pos Q0 B hB hQ0 hi.2.1 cB ch
  set d1 : ∀ t, Ω t → k → ℝ := fun t ω => dd (z t ω) (h t) (v t ω) with hd1
  set lh : ∀ t, Ω t → ℝ := fun t ω => opt (momentsGM (W t) (v t ω - z t ω *ᵥ d1 t ω)) with hlh
  have cl : ConvP P lh lam := qu_lam he hl hdet hneg hs opt hopt (quad_resid hm hl d1 cd1)
  have ys : ∀ t ω, spFilter (W t) (lh t ω) (y t ω) = spFilterM (W t) (lh t ω) (z t ω) *ᵥ theta + spFilter (W t) (lh t ω) (v t ω) := fun t ω => by
    rw [endog_y hm]
    simp only [spFilter, spFilterM, mulVec_add, sub_mulVec, smul_mulVec, smul_add, mulVec_mulVec]
    abel
  have cQ : ∀ i j, ConvP P (fun t ω => (∑ a, h t a i * spFilterM (W t) (lh t ω) (z t ω) a j) / Fintype.card (n t)) ((Q0 - lam • Q1) i j) := fun i j => by
    have := conv_sub (hi.2.1 i j) (conv_mul cl (hi.2.2 i j))
    refine conv_congr this fun t ω => ?_
    rw [mul_div_assoc', ← sub_div, Finset.mul_sum, ← Finset.sum_sub_distrib]
    congr 1
    refine Finset.sum_congr rfl fun a _ => ?_
    rw [spFilterM, Matrix.sub_apply, Matrix.smul_apply, smul_eq_mul, mul_apply]
    ring
  have cv : ∀ i, ConvP P (fun t ω => (∑ a, h t a i * spFilter (W t) (lh t ω) (v t ω) a) / Fintype.card (n t)) 0 := fun i => by
    have := conv_sub (ch i) (conv_mul cl (cw i))
    rw [mul_zero, sub_zero] at this
    refine conv_congr this fun t ω => ?_
    rw [mul_div_assoc', ← sub_div, Finset.mul_sum, ← Finset.sum_sub_distrib]
    congr 1
    refine Finset.sum_congr rfl fun a _ => ?_
    rw [spFilter, Pi.sub_apply, Pi.smul_apply, smul_eq_mul]
    ring
  obtain ⟨b2, cd2, -, -, cS⟩ := tsls_parts (fun t ω => spFilterM (W t) (lh t ω) (z t ω)) (fun t (_ : Ω t) => h t) _ (fun t ω => spFilter (W t) (lh t ω) (v t ω)) theta ys
    hm.pos (Q0 - lam • Q1) B hB hQs cQ cB cv
  have b3 : Tendsto (fun t => P t {ω | hb = true ∧ ¬ |lh t ω| < 0.99}) atTop (𝓝 0) := by
    by_cases hh : hb = true
    · refine tendsto_of_tendsto_of_tendsto_of_le_of_le tendsto_const_nhds (conv_abs cl (0.99 - |lam|) (sub_pos.2 (hbound hh))) (fun _ => zero_le)
        fun t => measure_mono fun ω hω => ?_
      simp only [Set.mem_ofPred_eq] at hω ⊢
      exact (sub_le_sub_right (not_lt.1 hω.2) _).trans (le_abs_self _)
    · have : ∀ t, {ω | hb = true ∧ ¬ |lh t ω| < 0.99} = (∅ : Set (Ω t)) := fun t => by
        ext ω; simp [hh]
      simp only [this, measure_empty]
      exact tendsto_const_nhds
  refine ⟨fun t => (bad z (fun t (_ : Ω t) => h t) t ∪ bad (fun t ω => spFilterM (W t) (lh t ω) (z t ω)) (fun t (_ : Ω t) => h t) t) ∪
    {ω | hb = true ∧ ¬ |lh t ω| < 0.99}, lh, _, _, union_zero (union_zero b1 b2) b3, cl, cd2, cS, ?_⟩
  intro t ω hω
  rw [Set.mem_union, Set.mem_union, not_or, not_or] at hω
  obtain ⟨hω, hω3⟩ := hω
  obtain ⟨f1, g1, -, g1u, -⟩ := tsls_fit z (fun t (_ : Ω t) => h t) y v theta (endog_y hm) hm.pos t ω hω.1
  obtain ⟨f2, g2, g2b, g2u, g2v⟩ := tsls_fit (fun t ω => spFilterM (W t) (lh t ω) (z t ω)) (fun t (_ : Ω t) => h t) _ (fun t ω => spFilter (W t) (lh t ω) (v t ω)) theta ys
    hm.pos t ω hω.2
  obtain ⟨f, k1, k2, k3, k4, k5⟩ := endog_some opt (W t) (z t ω) (h t) (y t ω) (lh t ω) f1 f2 hb (fun hh => not_not.1 fun hn => hω3 ⟨hh, hn⟩) g1 (by rw [g1u]) g2
  refine ⟨f, k1, k2, ?_, ?_, ?_⟩
  · rw [k3]; exact g2b
  · rw [k4, g2u]
    exact congrArg _ (spFilter_resid _ _ _ _ _)
  · rw [k5, smul_comm, g2v]

/-- **C189.** `GM_Endog_Error` is consistent: the coefficients, lambda and the error variance converge in probability to their true values, and `n` times the
reported variance matrix of the coefficients converges to the error variance times the inverse of `Q' B^{-1} Q`, where `Q = Q0 - lam Q1` is the limit of the
products of instruments and filtered regressors. The estimator exists with a probability that goes to one. The regressors may be correlated with the errors, as
a spatial lag of the dependent variable is. The optimiser is any that minimises the sum of squared moments over the admissible values; with `hard_bound` the
true lambda must be less than 0.99 in absolute value. -/
theorem C189_gmEndogError (hm : EndogErrorModel P n W z h y v e theta lam s) {B : Matrix l l ℝ} {Q0 Q1 : Matrix l k ℝ} (hi : InstrLimits P n W z h B Q0 Q1)
    (hB : B.det ≠ 0) (hQ0 : (Q0ᵀ * B⁻¹ * Q0).det ≠ 0) (hQs : ((Q0 - lam • Q1)ᵀ * B⁻¹ * (Q0 - lam • Q1)).det ≠ 0)
    {m : Fin 3 → Fin 3 → ℝ} {tau : ℝ} (hl : ErrLimits P n W v m tau)
    (hdet : (!![2 * m 0 1, -m 1 1, 1; 2 * m 1 2, -m 2 2, tau; m 0 2 + m 1 1, -m 1 2, 0] : Matrix (Fin 3) (Fin 3) ℝ).det ≠ 0) (hneg : 0 < m 1 1)
    (hs : 0 ≤ s) (opt : Moments (Fin 3) (Fin 3) → ℝ) (hopt : Minimises opt)
    (hb : Bool) (hbound : hb = true → |lam| < 0.99) :
    Consistent P (fun t ω => (gmEndogError (guarded hb fun M => .ok (opt M)) (W t) (z t ω) (h t) (y t ω)).toOption.map fun f => f.betas) theta ∧
    Consistent P (fun t ω => (gmEndogError (guarded hb fun M => .ok (opt M)) (W t) (z t ω) (h t) (y t ω)).toOption.map fun f (_ : Unit) => f.lam) (fun _ => lam) ∧
    Consistent P (fun t ω => (gmEndogError (guarded hb fun M => .ok (opt M)) (W t) (z t ω) (h t) (y t ω)).toOption.map fun f (_ : Unit) => f.sig2) (fun _ => s) ∧
    Consistent P (fun t ω => (gmEndogError (guarded hb fun M => .ok (opt M)) (W t) (z t ω) (h t) (y t ω)).toOption.map fun f (p : k × k) =>
      Fintype.card (n t) * f.vm p.1 p.2) (fun p => s * ((Q0 - lam • Q1)ᵀ * B⁻¹ * (Q0 - lam • Q1))⁻¹ p.1 p.2) := by
  obtain ⟨bd, lh, d, S, hbad, cl, cd, cS, hf⟩ := endog_core hm hi hB hQ0 hQs hl hdet hneg hs opt hopt hb hbound
  have csig := qu_sig (endog_model hm) hl lh cl (quad_resid hm hl d cd)
  generalize hR : ((Q0 - lam • Q1)ᵀ * B⁻¹ * (Q0 - lam • Q1))⁻¹ = R at cS ⊢
  refine ⟨?_, ?_, ?_, ?_⟩
  · refine consistent_except (fun t ω => theta + d t ω) bd hbad (fun t ω hω => ?_) _ fun j => ?_
    · obtain ⟨f, e1, -, e2, -⟩ := hf t ω hω
      rw [e1, Except.toOption, Option.map_some, e2]
    · exact conv_add (fun _ => theta j) (theta j) tendsto_const_nhds _ (cd j)
  · refine consistent_except (fun t ω _ => lh t ω) bd hbad (fun t ω hω => ?_) _ fun _ => cl
    obtain ⟨f, e1, e2, -⟩ := hf t ω hω
    rw [e1, Except.toOption, Option.map_some, e2]
  · refine consistent_except (fun t ω _ => sig2n (spFilter (W t) (lh t ω) (v t ω - z t ω *ᵥ d t ω))) bd hbad (fun t ω hω => ?_) _ fun _ => csig
    obtain ⟨f, e1, -, -, e2, -⟩ := hf t ω hω
    rw [e1, Except.toOption, Option.map_some, e2]
  · refine consistent_except (k := k × k) (fun t ω (p : k × k) => sig2n (spFilter (W t) (lh t ω) (v t ω - z t ω *ᵥ d t ω)) * S t ω p.1 p.2) bd hbad
      (fun t ω hω => ?_) _ fun p => ?_
    · obtain ⟨f, e1, -, -, e2, e3⟩ := hf t ω hω
      rw [e1, Except.toOption, Option.map_some]
      congr 1
      funext p
      have := congrFun (congrFun e3 p.1) p.2
      rw [e2] at this
      exact this
    · exact conv_mul csig (cS p.1 p.2)

end model
section combo
variable {kx : Type} [Fintype kx] [DecidableEq kx] {n : ℕ → Type} [∀ t, Fintype (n t)] [∀ t, DecidableEq (n t)]
  {W : ∀ t, Matrix (n t) (n t) ℝ} {x : ∀ t, Matrix (n t) kx ℝ} {y v e : ∀ t, Ω t → n t → ℝ} {a : ℝ} {b : kx → ℝ} {rho lam s : ℝ}

theorem combo_v (M : ComboModel P n W x y v e a b rho lam s) (t : ℕ) (ω : Ω t) : v t ω = (1 - lam • W t)⁻¹ *ᵥ e t ω := by
  have h1 : e t ω = (1 - lam • W t) *ᵥ v t ω := by
    rw [sub_mulVec, one_mulVec, smul_mulVec]
    funext i
    have := M.v_eq t ω i
    have e1 : (W t *ᵥ v t ω) i = ∑ j, W t i j * v t ω j := rfl
    rw [Pi.sub_apply, Pi.smul_apply, smul_eq_mul, e1]
    linarith
  rw [h1, mulVec_mulVec, nonsing_inv_mul _ (M.regErr t), one_mulVec]

theorem combo_reduced (M : ComboModel P n W x y v e a b rho lam s) (t : ℕ) (ω : Ω t) :
    y t ω = ((1 - rho • W t)⁻¹ *ᵥ fun i => a + ∑ j, x t i j * b j) + ((1 - rho • W t)⁻¹ * (1 - lam • W t)⁻¹) *ᵥ e t ω := by
  have : (1 - rho • W t) *ᵥ y t ω = (fun i => a + ∑ j, x t i j * b j) + v t ω := by
    rw [sub_mulVec, one_mulVec, smul_mulVec]
    funext i
    have := M.y_eq t ω i
    simp only [Pi.sub_apply, Pi.smul_apply, Pi.add_apply, smul_eq_mul]
    have e1 : (W t *ᵥ y t ω) i = ∑ i', W t i i' * y t ω i' := rfl
    rw [e1]; linarith
  rw [← mulVec_mulVec, ← combo_v M, ← mulVec_add, ← this, mulVec_mulVec, nonsing_inv_mul _ (M.regLag t), one_mulVec]

theorem combo_truth (M : ComboModel P n W x y v e a b rho lam s) (t : ℕ) (ω : Ω t) (i : n t) :
    y t ω i = ∑ j, lagZ (W t) (x t) (0 : Matrix (n t) Empty ℝ) (y t ω) i j * lagTruth a b rho j + v t ω i := by
  rw [M.y_eq t ω i]
  congr 1
  simp only [Fintype.sum_sum_type, lagZ, lagTruth, Sum.elim_inl, Sum.elim_inr, fromCols_apply_inl, fromCols_apply_inr, of_apply,
    Finset.univ_unique, Finset.sum_singleton, Finset.univ_eq_empty, Finset.sum_empty, one_mul, zero_add]
  rw [mul_comm rho]
  rfl

/-- Every regressor is a bounded vector plus a spatial lag of the errors. -/
theorem combo_cols (M : ComboModel P n W x y v e a b rho lam s) (j : (Unit ⊕ kx) ⊕ (Empty ⊕ Unit)) :
    ∃ (G : ∀ t, Matrix (n t) (n t) ℝ) (C r : ℝ),
      (∀ t i, |lagZ (W t) (x t) (0 : Matrix (n t) Empty ℝ) ((1 - rho • W t)⁻¹ *ᵥ fun i => a + ∑ j, x t i j * b j) i j| ≤ C) ∧ (∀ t, Sums (G t) r) ∧
      ∀ t ω o, lagZ (W t) (x t) (0 : Matrix (n t) Empty ℝ) (y t ω) o j =
        lagZ (W t) (x t) (0 : Matrix (n t) Empty ℝ) ((1 - rho • W t)⁻¹ *ᵥ fun i => a + ∑ j, x t i j * b j) o j + (G t *ᵥ e t ω) o := by
  obtain ⟨C, hC⟩ := M.bdd
  obtain ⟨rW, hW⟩ := M.sumsW
  obtain ⟨rR, hR⟩ := M.sumsLag
  obtain ⟨rE, hE⟩ := M.sumsErr
  have h0 : ∀ t, Sums (0 : Matrix (n t) (n t) ℝ) 0 := fun t => ⟨fun i => by simp, fun j => by simp⟩
  rcases j with (j | j) | (j | j)
  · exact ⟨fun _ => 0, 1, 0, fun _ _ => by show |(1 : ℝ)| ≤ 1; simp, h0, fun t ω o => by rw [zero_mulVec]; exact (add_zero _).symm⟩
  · exact ⟨fun _ => 0, C, 0, fun t i => hC t i j, h0, fun t ω o => by rw [zero_mulVec]; exact (add_zero _).symm⟩
  · exact j.elim
  · have hm : ∀ t i, |(fun i => a + ∑ j, x t i j * b j : n t → ℝ) i| ≤ |a| + ∑ j, C * |b j| := fun t i =>
      (abs_add_le _ _).trans (add_le_add le_rfl ((Finset.abs_sum_le_sum_abs _ _).trans (Finset.sum_le_sum fun j _ => by
        rw [abs_mul]; exact mul_le_mul_of_nonneg_right (hC t i j) (abs_nonneg _))))
    have hWR : ∀ t, Sums (W t * (1 - rho • W t)⁻¹) (rW * rR) := fun t => (hW t).mul (hR t)
    refine ⟨fun t => W t * ((1 - rho • W t)⁻¹ * (1 - lam • W t)⁻¹),
      rW * rR * (|a| + ∑ j, C * |b j|), rW * (rR * rE), fun t i => ?_, fun t => (hW t).mul ((hR t).mul (hE t)), fun t ω o => ?_⟩
    · rw [lagZ_wy, mulVec_mulVec]
      exact (hWR t).entry (Matrix.of fun i (_ : Unit) => a + ∑ j, x t i j * b j) _ (fun i _ => hm t i) i ()
    · rw [lagZ_wy, lagZ_wy]
      conv_lhs => rw [combo_reduced M t ω, mulVec_add, mulVec_mulVec (e t ω)]
      rfl

/-- Instruments are bounded. -/
theorem combo_H (M : ComboModel P n W x y v e a b rho lam s) (L : ℕ) (lagQ : Bool) :
    ∃ K, ∀ t i j, |lagH (W t) (x t) (0 : Matrix (n t) Empty ℝ) L lagQ i j| ≤ K := by
  have key : ∀ j : (Unit ⊕ kx) ⊕ (Empty ⊕ LagCol kx Empty lagQ × Fin L), ∃ K, ∀ t i, |lagH (W t) (x t) (0 : Matrix (n t) Empty ℝ) L lagQ i j| ≤ K := by
    intro j
    obtain ⟨C, hC⟩ := M.bdd
    obtain ⟨rW, hW⟩ := M.sumsW
    rcases j with (j | j) | (j | ⟨j, p⟩)
    · exact ⟨1, fun t i => by show |(1 : ℝ)| ≤ 1; simp⟩
    · exact ⟨C, fun t i => hC t i j⟩
    · exact j.elim
    · rcases j with j | j
      swap
      · exact j.1.elim
      · have hp : ∀ (q : ℕ) (t : ℕ), Sums (W t ^ q) (rW ^ q) := by
          intro q t
          induction q with
          | zero => rw [pow_zero, pow_zero]; exact Sums.one
          | succ q ih => rw [pow_succ, pow_succ]; exact ih.mul (hW t)
        refine ⟨rW ^ (p.1 + 1) * C, fun t i => ?_⟩
        have := (hp (p.1 + 1) t).entry (x t) C (hC t) i j
        exact this
  choose K hK using key
  refine ⟨∑ j, |K j|, fun t i j => (hK j t i).trans ((le_abs_self _).trans ?_)⟩
  exact Finset.single_le_sum (f := fun j => |K j|) (fun _ _ => abs_nonneg _) (Finset.mem_univ j)

theorem combo_pos (M : ComboModel P n W x y v e a b rho lam s) : 0 ≤ s := by
  obtain ⟨i⟩ := Fintype.card_pos_iff.1 (M.pos 0)
  have := (M.err 0).cov i i
  rw [if_pos rfl] at this
  rw [← this]
  exact integral_nonneg fun ω => mul_self_nonneg _

theorem combo_endog (M : ComboModel P n W x y v e a b rho lam s) (L : ℕ) (lagQ : Bool) :
    EndogErrorModel P n W (fun t ω => lagZ (W t) (x t) (0 : Matrix (n t) Empty ℝ) (y t ω)) (fun t => lagH (W t) (x t) (0 : Matrix (n t) Empty ℝ) L lagQ) y v e
      (lagTruth a b rho) lam s where
  y_eq := combo_truth M
  v_eq := M.v_eq
  err := M.err
  pairs := M.pairs
  size := M.size
  pos := M.pos
  reg := M.regErr
  diag := M.diag
  sumsW := M.sumsW
  sumsR := M.sumsErr
  box := M.box
  bddH := combo_H M L lagQ
  bddZ j := by
    obtain ⟨G, C, r, hC, hG, hj⟩ := combo_cols M j
    obtain ⟨V, hV⟩ := M.pairs
    have := prod_mbdd M.err (combo_pos M) (fun _ _ => le_rfl) (fun _ _ => combo_pos M) hV M.size M.pos _ _ (fun _ _ => 1) C C 1 hC hC (fun _ _ => by simp) G G r r hG hG
    simp only [one_mul] at this
    simp only [hj, sq]
    exact this

theorem combo_limits (M : ComboModel P n W x y v e a b rho lam s) (L : ℕ) (lagQ : Bool)
    (Q0 Q1 : Matrix ((Unit ⊕ kx) ⊕ (Empty ⊕ LagCol kx Empty lagQ × Fin L)) ((Unit ⊕ kx) ⊕ (Empty ⊕ Unit)) ℝ)
    (B : Matrix ((Unit ⊕ kx) ⊕ (Empty ⊕ LagCol kx Empty lagQ × Fin L)) ((Unit ⊕ kx) ⊕ (Empty ⊕ LagCol kx Empty lagQ × Fin L)) ℝ)
    (limB : ∀ i j, Tendsto (fun t => (∑ o, lagH (W t) (x t) (0 : Matrix (n t) Empty ℝ) L lagQ o i * lagH (W t) (x t) (0 : Matrix (n t) Empty ℝ) L lagQ o j) /
      Fintype.card (n t)) atTop (𝓝 (B i j)))
    (limQ0 : ∀ i j, Tendsto (fun t => (∑ o, lagH (W t) (x t) (0 : Matrix (n t) Empty ℝ) L lagQ o i *
      lagZ (W t) (x t) (0 : Matrix (n t) Empty ℝ) ((1 - rho • W t)⁻¹ *ᵥ fun i => a + ∑ j, x t i j * b j) o j) / Fintype.card (n t)) atTop (𝓝 (Q0 i j)))
    (limQ1 : ∀ i j, Tendsto (fun t => (∑ o, lagH (W t) (x t) (0 : Matrix (n t) Empty ℝ) L lagQ o i * ∑ o', W t o o' *
      lagZ (W t) (x t) (0 : Matrix (n t) Empty ℝ) ((1 - rho • W t)⁻¹ *ᵥ fun i => a + ∑ j, x t i j * b j) o' j) / Fintype.card (n t)) atTop (𝓝 (Q1 i j))) :
    InstrLimits P n W (fun t ω => lagZ (W t) (x t) (0 : Matrix (n t) Empty ℝ) (y t ω)) (fun t => lagH (W t) (x t) (0 : Matrix (n t) Empty ℝ) L lagQ) B Q0 Q1 := by
  obtain ⟨K, hK⟩ := combo_H M L lagQ
  obtain ⟨rW, hW⟩ := M.sumsW
  have hpr : ∀ t, IsProbabilityMeasure (P t) := fun t => (M.err t).prob
  refine ⟨limB, fun i j => ?_, fun i j => ?_⟩
  · obtain ⟨G, C, r, hC, hG, hj⟩ := combo_cols M j
    have := conv_add _ _ (limQ0 i j) _ (lin_zero M.err (combo_pos M) (fun _ _ => le_rfl) M.size M.pos _ K (fun t o => hK t o i) G r hG)
    refine conv_congr this fun t ω => ?_
    rw [← add_div, ← Finset.sum_add_distrib]
    congr 1
    exact Finset.sum_congr rfl fun o _ => by beta_reduce; rw [hj, mul_add]
  · obtain ⟨G, C, r, hC, hG, hj⟩ := combo_cols M j
    have := conv_add _ _ (limQ1 i j) _ (lin_zero M.err (combo_pos M) (fun _ _ => le_rfl) M.size M.pos _ K (fun t o => hK t o i) (fun t => W t * G t) _
      fun t => (hW t).mul (hG t))
    refine conv_congr this fun t ω => ?_
    rw [← add_div, ← Finset.sum_add_distrib]
    congr 1
    refine Finset.sum_congr rfl fun o _ => ?_
    rw [← mul_add]
    congr 1
    rw [← mulVec_mulVec]
    have e1 : (W t *ᵥ (G t *ᵥ e t ω)) o = ∑ o', W t o o' * (G t *ᵥ e t ω) o' := rfl
    rw [e1, ← Finset.sum_add_distrib]
    exact Finset.sum_congr rfl fun o' _ => by beta_reduce; rw [hj, mul_add]

/-- **C189** for the estimation of `GM_Combo`, a spatial lag model with spatially autoregressive errors (no other endogenous variables): the coefficients, that
of the spatial lag included, lambda and the error variance are consistent, and so is `n` times the reported variance matrix. The conditions are on the data that are
not random: the averages of products of the instruments with the expected regressors and their spatial lags converge. -/
theorem C189_gmCombo (M : ComboModel P n W x y v e a b rho lam s) (L : ℕ) (lagQ : Bool)
    (Q0 Q1 : Matrix ((Unit ⊕ kx) ⊕ (Empty ⊕ LagCol kx Empty lagQ × Fin L)) ((Unit ⊕ kx) ⊕ (Empty ⊕ Unit)) ℝ)
    (B : Matrix ((Unit ⊕ kx) ⊕ (Empty ⊕ LagCol kx Empty lagQ × Fin L)) ((Unit ⊕ kx) ⊕ (Empty ⊕ LagCol kx Empty lagQ × Fin L)) ℝ)
    (hB : B.det ≠ 0) (hQ0 : (Q0ᵀ * B⁻¹ * Q0).det ≠ 0) (hQs : ((Q0 - lam • Q1)ᵀ * B⁻¹ * (Q0 - lam • Q1)).det ≠ 0)
    (limB : ∀ i j, Tendsto (fun t => (∑ o, lagH (W t) (x t) (0 : Matrix (n t) Empty ℝ) L lagQ o i * lagH (W t) (x t) (0 : Matrix (n t) Empty ℝ) L lagQ o j) /
      Fintype.card (n t)) atTop (𝓝 (B i j)))
    (limQ0 : ∀ i j, Tendsto (fun t => (∑ o, lagH (W t) (x t) (0 : Matrix (n t) Empty ℝ) L lagQ o i *
      lagZ (W t) (x t) (0 : Matrix (n t) Empty ℝ) ((1 - rho • W t)⁻¹ *ᵥ fun i => a + ∑ j, x t i j * b j) o j) / Fintype.card (n t)) atTop (𝓝 (Q0 i j)))
    (limQ1 : ∀ i j, Tendsto (fun t => (∑ o, lagH (W t) (x t) (0 : Matrix (n t) Empty ℝ) L lagQ o i * ∑ o', W t o o' *
      lagZ (W t) (x t) (0 : Matrix (n t) Empty ℝ) ((1 - rho • W t)⁻¹ *ᵥ fun i => a + ∑ j, x t i j * b j) o' j) / Fintype.card (n t)) atTop (𝓝 (Q1 i j)))
    {m : Fin 3 → Fin 3 → ℝ} {tau : ℝ} (hl : ErrLimits P n W v m tau)
    (hdet : (!![2 * m 0 1, -m 1 1, 1; 2 * m 1 2, -m 2 2, tau; m 0 2 + m 1 1, -m 1 2, 0] : Matrix (Fin 3) (Fin 3) ℝ).det ≠ 0) (hneg : 0 < m 1 1)
    (opt : Moments (Fin 3) (Fin 3) → ℝ) (hopt : Minimises opt) (hb : Bool) (hbound : hb = true → |lam| < 0.99) :
    Consistent P (fun t ω => (gmEndogError (guarded hb fun M => .ok (opt M)) (W t) (lagZ (W t) (x t) (0 : Matrix (n t) Empty ℝ) (y t ω))
      (lagH (W t) (x t) (0 : Matrix (n t) Empty ℝ) L lagQ) (y t ω)).toOption.map fun f => f.betas) (Sum.elim (Sum.elim (fun _ => a) b) (Sum.elim Empty.elim fun _ => rho)) ∧
    Consistent P (fun t ω => (gmEndogError (guarded hb fun M => .ok (opt M)) (W t) (lagZ (W t) (x t) (0 : Matrix (n t) Empty ℝ) (y t ω))
      (lagH (W t) (x t) (0 : Matrix (n t) Empty ℝ) L lagQ) (y t ω)).toOption.map fun f (_ : Unit) => f.lam) (fun _ => lam) ∧
    Consistent P (fun t ω => (gmEndogError (guarded hb fun M => .ok (opt M)) (W t) (lagZ (W t) (x t) (0 : Matrix (n t) Empty ℝ) (y t ω))
      (lagH (W t) (x t) (0 : Matrix (n t) Empty ℝ) L lagQ) (y t ω)).toOption.map fun f (_ : Unit) => f.sig2) (fun _ => s) ∧
    Consistent P (fun t ω => (gmEndogError (guarded hb fun M => .ok (opt M)) (W t) (lagZ (W t) (x t) (0 : Matrix (n t) Empty ℝ) (y t ω))
      (lagH (W t) (x t) (0 : Matrix (n t) Empty ℝ) L lagQ) (y t ω)).toOption.map fun f
        (p : ((Unit ⊕ kx) ⊕ (Empty ⊕ Unit)) × ((Unit ⊕ kx) ⊕ (Empty ⊕ Unit))) => Fintype.card (n t) * f.vm p.1 p.2)
      (fun p => s * ((Q0 - lam • Q1)ᵀ * B⁻¹ * (Q0 - lam • Q1))⁻¹ p.1 p.2) :=
  C189_gmEndogError (combo_endog M L lagQ) (combo_limits M L lagQ Q0 Q1 B limB limQ0 limQ1) hB hQ0 hQs hl hdet hneg (combo_pos M) opt hopt hb hbound

end combo
end Spreg.Consist
