import Verif.Props.Consist
set_option linter.unusedSectionVars false
/-
C183: the variance estimators of OLS are consistent.
-/
namespace Spreg.Consist
open Spreg Spreg.Lin Spreg.Sampling Matrix MeasureTheory Filter Topology

variable {Ω : ℕ → Type} [∀ t, MeasurableSpace (Ω t)] {P : ∀ t, Measure (Ω t)}

section algebra

/-- Continuous functions of numbers that converge in probability. -/
theorem conv_map {ι : Type} [Fintype ι] (X : ∀ t, Ω t → ι → ℝ) (c : ι → ℝ) (h : ∀ i, ConvP P (fun t ω => X t ω i) (c i))
    (F : (ι → ℝ) → ℝ) (hF : ContinuousAt F c) : ConvP P (fun t ω => F (X t ω)) (F c) := by
  intro ε hε
  have := nhds_conv X c h {v | |F v - F c| < ε} (by
    filter_upwards [Metric.tendsto_nhds.1 hF.tendsto ε hε] with v hv
    rw [Real.dist_eq] at hv
    exact hv)
  refine this.congr fun t => ?_
  congr 1
  ext ω
  simp only [Set.mem_ofPred_eq, not_lt]

theorem conv_plus {X Y : ∀ t, Ω t → ℝ} {a b : ℝ} (hX : ConvP P X a) (hY : ConvP P Y b) : ConvP P (fun t ω => X t ω + Y t ω) (a + b) := by
  have := conv_map (P := P) (fun t ω => ![X t ω, Y t ω]) ![a, b] (fun i => by fin_cases i; exacts [hX, hY]) (fun v => v 0 + v 1)
    ((continuous_apply 0).add (continuous_apply 1)).continuousAt
  exact this

theorem conv_mul {X Y : ∀ t, Ω t → ℝ} {a b : ℝ} (hX : ConvP P X a) (hY : ConvP P Y b) : ConvP P (fun t ω => X t ω * Y t ω) (a * b) := by
  have := conv_map (P := P) (fun t ω => ![X t ω, Y t ω]) ![a, b] (fun i => by fin_cases i; exacts [hX, hY]) (fun v => v 0 * v 1)
    ((continuous_apply 0).mul (continuous_apply 1)).continuousAt
  exact this

theorem conv_sum {ι : Type} [Fintype ι] (X : ∀ t, Ω t → ι → ℝ) (c : ι → ℝ) (h : ∀ i, ConvP P (fun t ω => X t ω i) (c i)) :
    ConvP P (fun t ω => ∑ i, X t ω i) (∑ i, c i) :=
  conv_map X c h (fun v => ∑ i, v i) (continuous_finsetSum _ fun i _ => continuous_apply i).continuousAt

/-- Bounded numbers times a random number that vanishes. -/
theorem conv_bdd (a : ℕ → ℝ) (C : ℝ) (ha : ∀ t, |a t| ≤ C) {X : ∀ t, Ω t → ℝ} (hX : ConvP P X 0) : ConvP P (fun t ω => a t * X t ω) 0 := by
  intro ε hε
  have hC : 0 < C + 1 := by linarith [(abs_nonneg _).trans (ha 0)]
  refine tendsto_of_tendsto_of_tendsto_of_le_of_le tendsto_const_nhds (hX (ε / (C + 1)) (by positivity)) (fun _ => zero_le) fun t => measure_mono fun ω hω => ?_
  simp only [Set.mem_ofPred_eq, sub_zero, abs_mul] at hω ⊢
  rw [div_le_iff₀ hC, mul_comm]
  exact hω.trans (mul_le_mul_of_nonneg_right (by linarith [ha t]) (abs_nonneg _))

/-- Markov's inequality. -/
theorem conv_markov (X : ∀ t, Ω t → ℝ) (h0 : ∀ t ω, 0 ≤ X t ω) (hi : ∀ t, Integrable (X t) (P t)) (hm : Tendsto (fun t => ∫ ω, X t ω ∂P t) atTop (𝓝 0)) :
    ConvP P X 0 := by
  intro ε hε
  have h1 : Tendsto (fun t => ENNReal.ofReal ((∫ ω, X t ω ∂P t) / ε)) atTop (𝓝 0) := by
    have h2 : Tendsto (fun t => (∫ ω, X t ω ∂P t) / ε) atTop (𝓝 0) := by simpa using hm.div_const ε
    have := (ENNReal.continuous_ofReal.tendsto 0).comp h2
    rwa [ENNReal.ofReal_zero] at this
  refine tendsto_of_tendsto_of_tendsto_of_le_of_le tendsto_const_nhds h1 (fun _ => zero_le) fun t => ?_
  have hs : {ω | ε ≤ |X t ω - 0|} = {ω | ENNReal.ofReal ε ≤ ENNReal.ofReal (X t ω)} := by
    ext ω
    simp only [Set.mem_ofPred_eq, sub_zero, abs_of_nonneg (h0 t ω)]
    exact (ENNReal.ofReal_le_ofReal_iff (h0 t ω)).symm
  rw [hs, ENNReal.ofReal_div_of_pos hε, ofReal_integral_eq_lintegral_ofReal (hi t) (Eventually.of_forall (h0 t))]
  exact meas_ge_le_lintegral_div ((hi t).aestronglyMeasurable.aemeasurable.ennreal_ofReal) (by simpa using hε) ENNReal.ofReal_ne_top

/-- An estimator that never fails and whose coordinates converge is consistent. -/
theorem consistent_of {k : Type} [Fintype k] {est : ∀ t, Ω t → Option (k → ℝ)} (b : ∀ t, Ω t → k → ℝ) (he : ∀ t ω, est t ω = some (b t ω)) (th : k → ℝ)
    (h : ∀ j, ConvP P (fun t ω => b t ω j) (th j)) : Consistent P est th := by
  intro ε hε
  have := nhds_conv b th h {v | ∀ j, |v j - th j| < ε} (by
    have : ∀ᶠ v in 𝓝 th, ∀ j, |v j - th j| < ε := by
      rw [Filter.eventually_all]
      intro j
      have := Metric.tendsto_nhds.1 ((continuous_apply (A := fun _ : k => ℝ) j).tendsto th) ε hε
      filter_upwards [this] with v hv
      rw [Real.dist_eq] at hv
      exact hv
    exact this)
  refine this.congr fun t => ?_
  congr 1
  ext ω
  simp only [Set.mem_ofPred_eq, not_iff_not]
  rw [he]
  exact ⟨fun hv => ⟨_, rfl, hv⟩, fun ⟨_, h1, h2⟩ => by cases h1; exact h2⟩

/-- Averages of products of the errors with bounded numbers vanish. -/
theorem avg_bdd {n : ℕ → Type} [∀ t, Fintype (n t)] [∀ t, DecidableEq (n t)] {e : ∀ t, Ω t → n t → ℝ} {s2 : ∀ t, n t → ℝ} {S : ℝ}
    (h : ∀ t, Errors (P t) (e t) (s2 t)) (hS : ∀ t i, s2 t i ≤ S)
    (hn : Tendsto (fun t => (Fintype.card (n t) : ℝ)) atTop atTop) (hpos : ∀ t, 0 < Fintype.card (n t)) (a : ∀ t, n t → ℝ) (C : ℝ) (ha : ∀ t i, |a t i| ≤ C) :
    ConvP P (fun t ω => (∑ i, a t i * e t ω i) / Fintype.card (n t)) 0 := by
  refine avg_zero h (le_max_right S 0) (fun t i => (hS t i).trans (le_max_left S 0)) a (fun t => (Fintype.card (n t) : ℝ)) (fun _ => C ^ 2)
    (fun t => by exact_mod_cast hpos t) hn (C ^ 2) tendsto_const_nhds fun t => ?_
  calc ∑ i, a t i ^ 2 ≤ ∑ _i : n t, C ^ 2 := Finset.sum_le_sum fun i _ => by
        rw [← sq_abs (a t i)]; exact pow_le_pow_left₀ (abs_nonneg _) (ha t i) 2
    _ = _ := by rw [Finset.sum_const, Finset.card_univ, nsmul_eq_mul, mul_comm]

end algebra

section sig2
variable {k : Type} [Fintype k] [DecidableEq k] {n : ℕ → Type} [∀ t, Fintype (n t)] [∀ t, DecidableEq (n t)]

/-- The sum of squared residuals is that of the errors minus a quadratic form of small expectation. -/
theorem utu_split {m : Type} [Fintype m] [DecidableEq m] (x : Matrix m k ℝ) (hx : IsUnit (xᵀ * x).det) (beta : k → ℝ) (v : m → ℝ) :
    utu (olsWith x (x *ᵥ beta + v) (xᵀ * x)⁻¹).u = ∑ i, v i ^ 2 - v ⬝ᵥ ((x * (xᵀ * x)⁻¹ * xᵀ) *ᵥ v) := by
  have hl := (ols_linear x beta v _ (ols_of_isUnit x _ hx)).2.2
  have hM := (annihilator x hx).1
  have e1 : ∀ w : m → ℝ, ∑ i, w i ^ 2 = w ⬝ᵥ w := fun w => Finset.sum_congr rfl fun i _ => sq _
  rw [utu, hl, e1, e1, dotProduct_mulVec, ← mulVec_transpose, mulVec_mulVec, hM, dotProduct_comm, sub_mulVec, one_mulVec, dotProduct_sub]

/-- The quadratic form is not negative and its expectation is `s k`. -/
theorem hat_form {m O : Type} [Fintype m] [DecidableEq m] [MeasurableSpace O] {Q : Measure O} {e : O → m → ℝ} {s : ℝ} (h : Errors Q e fun _ => s)
    (x : Matrix m k ℝ) (hx : IsUnit (xᵀ * x).det) :
    (∀ ω, 0 ≤ e ω ⬝ᵥ ((x * (xᵀ * x)⁻¹ * xᵀ) *ᵥ e ω)) ∧ Integrable (fun ω => e ω ⬝ᵥ ((x * (xᵀ * x)⁻¹ * xᵀ) *ᵥ e ω)) Q ∧
    ∫ ω, e ω ⬝ᵥ ((x * (xᵀ * x)⁻¹ * xᵀ) *ᵥ e ω) ∂Q = s * Fintype.card k := by
  obtain ⟨hi, hm⟩ := bilin_mean h (x * (xᵀ * x)⁻¹ * xᵀ)
  have hP : (x * (xᵀ * x)⁻¹ * xᵀ)ᵀ * (x * (xᵀ * x)⁻¹ * xᵀ) = x * (xᵀ * x)⁻¹ * xᵀ := by
    simp only [transpose_mul, transpose_transpose, transpose_nonsing_inv, Matrix.mul_assoc]
    rw [← Matrix.mul_assoc xᵀ x, ← Matrix.mul_assoc (xᵀ * x)⁻¹ (xᵀ * x), nonsing_inv_mul _ hx, Matrix.one_mul]
  refine ⟨fun ω => ?_, hi, ?_⟩
  · rw [← hP, ← mulVec_mulVec, dotProduct_mulVec, vecMul_transpose]
    exact Finset.sum_nonneg fun i _ => mul_self_nonneg _
  · rw [hm, ← Finset.mul_sum]
    congr 1
    have := (annihilator x hx).2
    rw [trace_sub, trace_one] at this
    have e : ∑ i, (x * (xᵀ * x)⁻¹ * xᵀ) i i = (x * (xᵀ * x)⁻¹ * xᵀ).trace := rfl
    rw [e]; linarith

theorem conv_sig2n {e : ∀ t, Ω t → n t → ℝ} {s : ℝ} {v : ∀ t, n t → ℝ} {V : ℝ} (h : ∀ t, Errors (P t) (e t) fun _ => s)
    (h2 : ∀ t, Errors (P t) (fun ω i => e t ω i ^ 2 - s) (v t)) (hV : ∀ t i, v t i ≤ V)
    (hn : Tendsto (fun t => (Fintype.card (n t) : ℝ)) atTop atTop) (hpos : ∀ t, 0 < Fintype.card (n t))
    (x : ∀ t, Matrix (n t) k ℝ) (hx : ∀ t, IsUnit ((x t)ᵀ * x t).det) (beta : k → ℝ) :
    ConvP P (fun t ω => sig2n (olsWith (x t) (x t *ᵥ beta + e t ω) ((x t)ᵀ * x t)⁻¹).u) s := by
  have hpr : ∀ t, IsProbabilityMeasure (P t) := fun t => (h t).prob
  have hc : ∀ t, (0 : ℝ) < Fintype.card (n t) := fun t => by exact_mod_cast hpos t
  have c1 := avg_bdd h2 hV hn hpos (fun _ _ => 1) 1 (fun _ _ => by simp)
  have c2 : ConvP P (fun t ω => (e t ω ⬝ᵥ ((x t * ((x t)ᵀ * x t)⁻¹ * (x t)ᵀ) *ᵥ e t ω)) / Fintype.card (n t)) 0 := by
    refine conv_markov _ (fun t ω => div_nonneg ((hat_form (h t) (x t) (hx t)).1 ω) (hc t).le) (fun t => (hat_form (h t) (x t) (hx t)).2.1.div_const _) ?_
    simp only [integral_div, (hat_form (h _) (x _) (hx _)).2.2]
    exact tendsto_const_nhds.div_atTop hn
  have c3 := conv_plus (conv_plus c1 (conv_mul (conv_const (fun _ => (-1 : ℝ)) (-1) tendsto_const_nhds) c2)) (conv_const (fun _ => s) s tendsto_const_nhds)
  rw [show (0 : ℝ) + -1 * 0 + s = s by ring] at c3
  refine conv_congr c3 fun t ω => ?_
  rw [sig2n, utu_split _ (hx t)]
  have : ∑ i, (1 : ℝ) * (e t ω i ^ 2 - s) = ∑ i, e t ω i ^ 2 - s * Fintype.card (n t) := by
    simp only [one_mul, Finset.sum_sub_distrib, Finset.sum_const, Finset.card_univ, nsmul_eq_mul]
    ring
  rw [this]
  have := (hc t).ne'
  field_simp
  ring

theorem dof_ratio (hn : Tendsto (fun t => (Fintype.card (n t) : ℝ)) atTop atTop) (c : ℝ) :
    Tendsto (fun t => (Fintype.card (n t) : ℝ) / (Fintype.card (n t) - c)) atTop (𝓝 1) := by
  have h1 : Tendsto (fun t => (Fintype.card (n t) : ℝ) - c) atTop atTop := tendsto_atTop_add_const_right _ _ hn
  have h2 : Tendsto (fun t => 1 + c / ((Fintype.card (n t) : ℝ) - c)) atTop (𝓝 (1 + 0)) := (tendsto_const_nhds.div_atTop h1).const_add 1
  rw [add_zero] at h2
  refine h2.congr' ?_
  filter_upwards [h1.eventually_gt_atTop 0] with t ht
  field_simp
  ring

theorem conv_sig2nk {e : ∀ t, Ω t → n t → ℝ} {s : ℝ} {v : ∀ t, n t → ℝ} {V : ℝ} (h : ∀ t, Errors (P t) (e t) fun _ => s)
    (h2 : ∀ t, Errors (P t) (fun ω i => e t ω i ^ 2 - s) (v t)) (hV : ∀ t i, v t i ≤ V)
    (hn : Tendsto (fun t => (Fintype.card (n t) : ℝ)) atTop atTop) (hpos : ∀ t, 0 < Fintype.card (n t))
    (x : ∀ t, Matrix (n t) k ℝ) (hx : ∀ t, IsUnit ((x t)ᵀ * x t).det) (beta : k → ℝ) (c : ℕ) :
    ConvP P (fun t ω => sig2nk (olsWith (x t) (x t *ᵥ beta + e t ω) ((x t)ᵀ * x t)⁻¹).u c) s := by
  have hpr : ∀ t, IsProbabilityMeasure (P t) := fun t => (h t).prob
  have := conv_mul (conv_const (P := P) _ 1 (dof_ratio hn (c : ℝ))) (conv_sig2n h h2 hV hn hpos x hx beta)
  rw [one_mul] at this
  refine conv_congr this fun t ω => ?_
  have hc : (Fintype.card (n t) : ℝ) ≠ 0 := by exact_mod_cast (hpos t).ne'
  rw [sig2n, sig2nk, div_mul_div_comm, mul_comm ((Fintype.card (n t) : ℝ) - c), mul_div_mul_left _ _ hc]

/-- **C183.** The estimates of the error variance of OLS, with `n` and with `n - k`, are consistent, for any regressors, if the errors and their squares
are uncorrelated and have bounded variance. -/
theorem C183_sig2 {e : ∀ t, Ω t → n t → ℝ} {s : ℝ} {v : ∀ t, n t → ℝ} {V : ℝ} (h : ∀ t, Errors (P t) (e t) fun _ => s)
    (h2 : ∀ t, Errors (P t) (fun ω i => e t ω i ^ 2 - s) (v t)) (hV : ∀ t i, v t i ≤ V)
    (hn : Tendsto (fun t => (Fintype.card (n t) : ℝ)) atTop atTop) (hpos : ∀ t, 0 < Fintype.card (n t))
    (x : ∀ t, Matrix (n t) k ℝ) (hx : ∀ t, IsUnit ((x t)ᵀ * x t).det) (beta : k → ℝ) :
    Consistent P (fun t ω => (ols (x t) (x t *ᵥ beta + e t ω)).map fun f (_ : Unit) => sig2n f.u) (fun _ => s) ∧
    Consistent P (fun t ω => (ols (x t) (x t *ᵥ beta + e t ω)).map fun f (_ : Unit) => sig2nk f.u (Fintype.card k)) (fun _ => s) := by
  constructor
  · exact consistent_of _ (fun t ω => by rw [ols_of_isUnit _ _ (hx t)]; rfl) _ fun _ => conv_sig2n h h2 hV hn hpos x hx beta
  · exact consistent_of _ (fun t ω => by rw [ols_of_isUnit _ _ (hx t)]; rfl) _ fun _ => conv_sig2nk h h2 hV hn hpos x hx beta _
end sig2

section vm
variable {k : Type} [Fintype k] [DecidableEq k] {n : ℕ → Type} [∀ t, Fintype (n t)] [∀ t, DecidableEq (n t)]

/-- `n (x'x)^{-1}` converges. -/
theorem xtxi_lim (hpos : ∀ t, 0 < Fintype.card (n t)) (x : ∀ t, Matrix (n t) k ℝ) (hx : ∀ t, IsUnit ((x t)ᵀ * x t).det) (Q : Matrix k k ℝ)
    (hQ : Q.det ≠ 0) (lim : ∀ i j, Tendsto (fun t => (∑ o, x t o i * x t o j) / Fintype.card (n t)) atTop (𝓝 (Q i j))) (i j : k) :
    Tendsto (fun t => Fintype.card (n t) * ((x t)ᵀ * x t)⁻¹ i j) atTop (𝓝 (Q⁻¹ i j)) := by
  have h1 : Tendsto (fun t => (Fintype.card (n t) : ℝ)⁻¹ • ((x t)ᵀ * x t)) atTop (𝓝 Q) := by
    refine tendsto_pi_nhds.2 fun i => tendsto_pi_nhds.2 fun j => (lim i j).congr fun t => ?_
    rw [div_eq_inv_mul]
    rfl
  have h2 : Tendsto (fun t => ((Fintype.card (n t) : ℝ)⁻¹ • ((x t)ᵀ * x t))⁻¹) atTop (𝓝 Q⁻¹) :=
    (inv_contAt (f := fun M : Matrix k k ℝ => M) continuousAt_id hQ).tendsto.comp h1
  have h3 : Tendsto (fun t => (((Fintype.card (n t) : ℝ)⁻¹ • ((x t)ᵀ * x t))⁻¹ : Matrix k k ℝ) i j) atTop (𝓝 (Q⁻¹ i j)) :=
    ((continuous_id.matrix_elem i j).tendsto Q⁻¹).comp h2
  refine h3.congr fun t => ?_
  have hc : (Fintype.card (n t) : ℝ) ≠ 0 := by exact_mod_cast (hpos t).ne'
  have : (((Fintype.card (n t) : ℝ)⁻¹ • ((x t)ᵀ * x t))⁻¹ : Matrix k k ℝ) = (Fintype.card (n t) : ℝ) • ((x t)ᵀ * x t)⁻¹ := by
    refine inv_eq_right_inv ?_
    rw [smul_mul_smul_comm, inv_mul_cancel₀ hc, one_smul, mul_nonsing_inv _ (hx t)]
  rw [this]
  rfl

/-- **C183.** The variance matrix that OLS reports (without `robust`, `n - k`), multiplied by `n`, is consistent for `s` times the inverse of the limit
of `x'x / n`. -/
theorem C183_vm {e : ∀ t, Ω t → n t → ℝ} {s : ℝ} {v : ∀ t, n t → ℝ} {V : ℝ} (h : ∀ t, Errors (P t) (e t) fun _ => s)
    (h2 : ∀ t, Errors (P t) (fun ω i => e t ω i ^ 2 - s) (v t)) (hV : ∀ t i, v t i ≤ V)
    (hn : Tendsto (fun t => (Fintype.card (n t) : ℝ)) atTop atTop) (hpos : ∀ t, 0 < Fintype.card (n t))
    (x : ∀ t, Matrix (n t) k ℝ) (hx : ∀ t, IsUnit ((x t)ᵀ * x t).det) (beta : k → ℝ) (Q : Matrix k k ℝ) (hQ : Q.det ≠ 0)
    (lim : ∀ i j, Tendsto (fun t => (∑ o, x t o i * x t o j) / Fintype.card (n t)) atTop (𝓝 (Q i j))) :
    Consistent P (fun t ω => (ols (x t) (x t *ᵥ beta + e t ω)).map fun f (p : k × k) =>
      Fintype.card (n t) * vmClassic (sig2nk f.u (Fintype.card k)) f.xtxi p.1 p.2) (fun p => s * Q⁻¹ p.1 p.2) := by
  have hpr : ∀ t, IsProbabilityMeasure (P t) := fun t => (h t).prob
  refine consistent_of _ (fun t ω => by rw [ols_of_isUnit _ _ (hx t)]; rfl) _ fun p => ?_
  refine conv_congr (conv_mul (conv_sig2nk h h2 hV hn hpos x hx beta (Fintype.card k)) (conv_const _ _ (xtxi_lim hpos x hx Q hQ lim p.1 p.2))) fun t ω => ?_
  show (_ : ℝ) * (_ * ((x t)ᵀ * x t)⁻¹ p.1 p.2) = _
  exact mul_left_comm _ _ _

/-- Matrix products of arrays whose entries converge. -/
theorem conv_matmul {a b c : Type} [Fintype b] {X : ∀ t, Ω t → Matrix a b ℝ} {Y : ∀ t, Ω t → Matrix b c ℝ} {A : Matrix a b ℝ} {B : Matrix b c ℝ}
    (hX : ∀ i j, ConvP P (fun t ω => X t ω i j) (A i j)) (hY : ∀ i j, ConvP P (fun t ω => Y t ω i j) (B i j)) (i : a) (j : c) :
    ConvP P (fun t ω => (X t ω * Y t ω) i j) ((A * B) i j) := by
  have := conv_sum (P := P) (fun t ω l => X t ω i l * Y t ω l j) _ fun l => conv_mul (hX i l) (hY l j)
  exact this

/-- The squared residual. -/
theorem sq_resid (e : ℝ) (s : ℝ) (a : ℝ) (x d : k → ℝ) :
    a * (e - ∑ l, x l * d l) ^ 2 = a * s + a * (e ^ 2 - s) + (∑ l, -2 * d l * (a * x l * e)) + ∑ l, ∑ p, d l * d p * (a * x l * x p) := by
  have h1 : (∑ l, -2 * d l * (a * x l * e)) = -2 * a * e * ∑ l, x l * d l := by
    rw [Finset.mul_sum]; exact Finset.sum_congr rfl fun l _ => by ring
  have h2 : (∑ l, ∑ p, d l * d p * (a * x l * x p)) = a * (∑ l, x l * d l) ^ 2 := by
    rw [sq, Finset.sum_mul_sum, Finset.mul_sum]
    refine Finset.sum_congr rfl fun l _ => ?_
    rw [Finset.mul_sum]
    exact Finset.sum_congr rfl fun p _ => by ring
  rw [h1, h2]; ring

theorem resid_eq {m : Type} [Fintype m] (x : Matrix m k ℝ) (beta b : k → ℝ) (v : m → ℝ) (o : m) :
    (x *ᵥ beta + v - x *ᵥ b) o = v o - ∑ l, x o l * (b l - beta l) := by
  simp only [Pi.sub_apply, Pi.add_apply, mulVec, dotProduct, mul_sub, Finset.sum_sub_distrib]
  ring

theorem meat_eq {m : Type} [Fintype m] (x : Matrix m k ℝ) (e s2 u : m → ℝ) (d : k → ℝ) (hu : ∀ o, u o = e o - ∑ l, x o l * d l) (i j : k) (N : ℝ) :
    (∑ o, x o i * x o j * u o ^ 2) / N = (∑ o, x o i * x o j * s2 o) / N + (∑ o, x o i * x o j * (e o ^ 2 - s2 o)) / N +
      (∑ l, -2 * d l * ((∑ o, x o i * x o j * x o l * e o) / N)) +
      ∑ l, ∑ p, ((∑ o, x o i * x o j * x o l * x o p) / N) * (d l * d p) := by
  have h1 : ∀ o, x o i * x o j * u o ^ 2 = x o i * x o j * s2 o + x o i * x o j * (e o ^ 2 - s2 o) +
      (∑ l, -2 * d l * (x o i * x o j * x o l * e o)) + ∑ l, ∑ p, d l * d p * (x o i * x o j * x o l * x o p) := by
    intro o
    rw [hu o]; exact sq_resid (e o) (s2 o) (x o i * x o j) (x o) d
  simp only [h1]
  simp only [Finset.sum_add_distrib, add_div]
  congr 1
  · congr 1
    rw [Finset.sum_comm, Finset.sum_div]
    refine Finset.sum_congr rfl fun l _ => ?_
    rw [← Finset.mul_sum, mul_div_assoc]
  · rw [Finset.sum_comm, Finset.sum_div]
    refine Finset.sum_congr rfl fun l _ => ?_
    rw [Finset.sum_comm, Finset.sum_div]
    refine Finset.sum_congr rfl fun p _ => ?_
    rw [← Finset.mul_sum, mul_div_assoc, mul_comm]

/-- Averages of bounded products are bounded. -/
theorem avg_abs {m : Type} [Fintype m] (hm : 0 < Fintype.card m) (f : m → ℝ) (C : ℝ) (hf : ∀ i, |f i| ≤ C) : |(∑ i, f i) / Fintype.card m| ≤ C := by
  have hc : (0 : ℝ) < Fintype.card m := by exact_mod_cast hm
  rw [abs_div, abs_of_pos hc, div_le_iff₀ hc]
  calc |∑ i, f i| ≤ ∑ i, |f i| := Finset.abs_sum_le_sum_abs _ _
    _ ≤ ∑ _i : m, C := Finset.sum_le_sum fun i _ => hf i
    _ = _ := by rw [Finset.sum_const, Finset.card_univ, nsmul_eq_mul, mul_comm]

/-- The estimated coefficients converge. -/
theorem conv_beta {e : ∀ t, Ω t → n t → ℝ} {s2 : ∀ t, n t → ℝ} {S : ℝ} (h : ∀ t, Errors (P t) (e t) (s2 t)) (hS : ∀ t i, s2 t i ≤ S)
    (hn : Tendsto (fun t => (Fintype.card (n t) : ℝ)) atTop atTop) (hpos : ∀ t, 0 < Fintype.card (n t))
    (x : ∀ t, Matrix (n t) k ℝ) (C : ℝ) (hC : ∀ t i j, |x t i j| ≤ C) (hx : ∀ t, IsUnit ((x t)ᵀ * x t).det) (beta : k → ℝ) (Q : Matrix k k ℝ) (hQ : Q.det ≠ 0)
    (lim : ∀ i j, Tendsto (fun t => (∑ o, x t o i * x t o j) / Fintype.card (n t)) atTop (𝓝 (Q i j))) (j : k) :
    ConvP P (fun t ω => (olsWith (x t) (x t *ᵥ beta + e t ω) ((x t)ᵀ * x t)⁻¹).betas j - beta j) 0 := by
  have hpr : ∀ t, IsProbabilityMeasure (P t) := fun t => (h t).prob
  have h1 := conv_sum (P := P) (fun t ω l => (Fintype.card (n t) * ((x t)ᵀ * x t)⁻¹ j l) * ((∑ i, x t i l * e t ω i) / Fintype.card (n t))) _ fun l =>
    conv_mul (conv_const _ _ (xtxi_lim hpos x hx Q hQ lim j l)) (avg_bdd h hS hn hpos (fun t i => x t i l) C fun t i => hC t i l)
  simp only [mul_zero, Finset.sum_const_zero] at h1
  refine conv_congr h1 fun t ω => ?_
  have hc : (Fintype.card (n t) : ℝ) ≠ 0 := by exact_mod_cast (hpos t).ne'
  rw [(ols_linear (x t) beta (e t ω) _ (ols_of_isUnit _ _ (hx t))).2.1, Pi.add_apply, add_sub_cancel_left, ← mulVec_mulVec]
  show ∑ l, ((x t)ᵀ * x t)⁻¹ j l * (((x t)ᵀ *ᵥ e t ω) l) = _
  refine Finset.sum_congr rfl fun l _ => ?_
  rw [mul_div_assoc', mul_comm (Fintype.card (n t) : ℝ), mul_assoc, mul_div_assoc, mul_div_cancel_left₀ _ hc]
  rfl

/-- The middle of White's matrix. -/
theorem conv_meat {e : ∀ t, Ω t → n t → ℝ} {s2 v : ∀ t, n t → ℝ} {S V : ℝ} (h : ∀ t, Errors (P t) (e t) (s2 t)) (hS : ∀ t i, s2 t i ≤ S)
    (h2 : ∀ t, Errors (P t) (fun ω i => e t ω i ^ 2 - s2 t i) (v t)) (hV : ∀ t i, v t i ≤ V)
    (hn : Tendsto (fun t => (Fintype.card (n t) : ℝ)) atTop atTop) (hpos : ∀ t, 0 < Fintype.card (n t))
    (x : ∀ t, Matrix (n t) k ℝ) (C : ℝ) (hC : ∀ t i j, |x t i j| ≤ C) (hx : ∀ t, IsUnit ((x t)ᵀ * x t).det) (beta : k → ℝ) (Q O : Matrix k k ℝ) (hQ : Q.det ≠ 0)
    (lim : ∀ i j, Tendsto (fun t => (∑ o, x t o i * x t o j) / Fintype.card (n t)) atTop (𝓝 (Q i j)))
    (limO : ∀ i j, Tendsto (fun t => (∑ o, x t o i * x t o j * s2 t o) / Fintype.card (n t)) atTop (𝓝 (O i j))) (i j : k) :
    ConvP P (fun t ω => (∑ o, x t o i * x t o j * (olsWith (x t) (x t *ᵥ beta + e t ω) ((x t)ᵀ * x t)⁻¹).u o ^ 2) / Fintype.card (n t)) (O i j) := by
  have hpr : ∀ t, IsProbabilityMeasure (P t) := fun t => (h t).prob
  have hC0 : ∀ t (o : n t), 0 ≤ C := fun t o => (abs_nonneg _).trans (hC t o i)
  have b2 : ∀ t (o : n t) (a b : k), |x t o a * x t o b| ≤ C ^ 2 := fun t o a b => by
    rw [abs_mul, sq]; exact mul_le_mul (hC t o a) (hC t o b) (abs_nonneg _) (hC0 t o)
  have b3 : ∀ t (o : n t) (a b c : k), |x t o a * x t o b * x t o c| ≤ C ^ 3 := fun t o a b c => by
    rw [abs_mul, pow_succ]; exact mul_le_mul (b2 t o a b) (hC t o c) (abs_nonneg _) (by have := hC0 t o; positivity)
  have b4 : ∀ t (o : n t) (a b c d : k), |x t o a * x t o b * x t o c * x t o d| ≤ C ^ 4 := fun t o a b c d => by
    rw [abs_mul, pow_succ]; exact mul_le_mul (b3 t o a b c) (hC t o d) (abs_nonneg _) (by have := hC0 t o; positivity)
  have hd := conv_beta h hS hn hpos x C hC hx beta Q hQ lim
  have c1 := conv_const (P := P) _ _ (limO i j)
  have c2 := avg_bdd h2 hV hn hpos (fun t o => x t o i * x t o j) (C ^ 2) fun t o => b2 t o i j
  have c3 := conv_sum (P := P) (fun t ω l => -2 * ((olsWith (x t) (x t *ᵥ beta + e t ω) ((x t)ᵀ * x t)⁻¹).betas l - beta l) *
    ((∑ o, x t o i * x t o j * x t o l * e t ω o) / Fintype.card (n t))) _ fun l =>
    conv_mul (conv_mul (conv_const (fun _ => (-2 : ℝ)) (-2) tendsto_const_nhds) (hd l))
      (avg_bdd h hS hn hpos (fun t o => x t o i * x t o j * x t o l) (C ^ 3) fun t o => b3 t o i j l)
  have c4 := conv_sum (P := P) (fun t ω l => ∑ p, ((∑ o, x t o i * x t o j * x t o l * x t o p) / Fintype.card (n t)) *
    (((olsWith (x t) (x t *ᵥ beta + e t ω) ((x t)ᵀ * x t)⁻¹).betas l - beta l) * ((olsWith (x t) (x t *ᵥ beta + e t ω) ((x t)ᵀ * x t)⁻¹).betas p - beta p))) _ fun l =>
    conv_sum (P := P) (fun t ω p => ((∑ o, x t o i * x t o j * x t o l * x t o p) / Fintype.card (n t)) *
      (((olsWith (x t) (x t *ᵥ beta + e t ω) ((x t)ᵀ * x t)⁻¹).betas l - beta l) * ((olsWith (x t) (x t *ᵥ beta + e t ω) ((x t)ᵀ * x t)⁻¹).betas p - beta p)))
      (fun _ => 0) fun p => conv_bdd _ (C ^ 4) (fun t => avg_abs (hpos t) _ _ fun o => b4 t o i j l p) (by simpa using conv_mul (hd l) (hd p))
  have c := conv_plus (conv_plus (conv_plus c1 c2) c3) c4
  simp only [mul_zero, Finset.sum_const_zero, add_zero] at c
  refine conv_congr c fun t ω => ?_
  exact meat_eq (x t) (e t ω) (s2 t) (olsWith (x t) (x t *ᵥ beta + e t ω) ((x t)ᵀ * x t)⁻¹).u
    (fun l => (olsWith (x t) (x t *ᵥ beta + e t ω) ((x t)ᵀ * x t)⁻¹).betas l - beta l)
    (fun o => resid_eq (x t) beta (olsWith (x t) (x t *ᵥ beta + e t ω) ((x t)ᵀ * x t)⁻¹).betas (e t ω) o) i j (Fintype.card (n t))

/-- **C183.** White's variance matrix (`robust='white'`), multiplied by `n`, is consistent for the variance matrix of the coefficients under
heteroskedasticity of unknown form, with and without the correction for degrees of freedom, for bounded regressors. -/
theorem C183_white {e : ∀ t, Ω t → n t → ℝ} {s2 v : ∀ t, n t → ℝ} {S V : ℝ} (h : ∀ t, Errors (P t) (e t) (s2 t)) (hS : ∀ t i, s2 t i ≤ S)
    (h2 : ∀ t, Errors (P t) (fun ω i => e t ω i ^ 2 - s2 t i) (v t)) (hV : ∀ t i, v t i ≤ V)
    (hn : Tendsto (fun t => (Fintype.card (n t) : ℝ)) atTop atTop) (hpos : ∀ t, 0 < Fintype.card (n t))
    (x : ∀ t, Matrix (n t) k ℝ) (C : ℝ) (hC : ∀ t i j, |x t i j| ≤ C) (hx : ∀ t, IsUnit ((x t)ᵀ * x t).det) (beta : k → ℝ) (Q O : Matrix k k ℝ) (hQ : Q.det ≠ 0)
    (lim : ∀ i j, Tendsto (fun t => (∑ o, x t o i * x t o j) / Fintype.card (n t)) atTop (𝓝 (Q i j)))
    (limO : ∀ i j, Tendsto (fun t => (∑ o, x t o i * x t o j * s2 t o) / Fintype.card (n t)) atTop (𝓝 (O i j))) (dof : Option ℕ) :
    Consistent P (fun t ω => (ols (x t) (x t *ᵥ beta + e t ω)).map fun f (p : k × k) =>
      Fintype.card (n t) * sandwichOLS f.xtxi (psi0White (x t) f.u dof) p.1 p.2) (fun p => (Q⁻¹ * O * Q⁻¹) p.1 p.2) := by
  have hpr : ∀ t, IsProbabilityMeasure (P t) := fun t => (h t).prob
  refine consistent_of _ (fun t ω => by rw [ols_of_isUnit _ _ (hx t)]; rfl) _ fun p => ?_
  have hm : ∀ i j, ConvP P (fun t ω => (Matrix.of fun i j =>
      psi0White (x t) (olsWith (x t) (x t *ᵥ beta + e t ω) ((x t)ᵀ * x t)⁻¹).u dof i j / Fintype.card (n t) : Matrix k k ℝ) i j) (O i j) := by
    intro i j
    have hm := conv_meat h hS h2 hV hn hpos x C hC hx beta Q O hQ lim limO i j
    have e1 : ∀ t ω, ((broadcast (x t) (olsWith (x t) (x t *ᵥ beta + e t ω) ((x t)ᵀ * x t)⁻¹).u)ᵀ *
        broadcast (x t) (olsWith (x t) (x t *ᵥ beta + e t ω) ((x t)ᵀ * x t)⁻¹).u) i j =
        ∑ o, x t o i * x t o j * (olsWith (x t) (x t *ᵥ beta + e t ω) ((x t)ᵀ * x t)⁻¹).u o ^ 2 := by
      intro t ω
      rw [mul_apply]
      refine Finset.sum_congr rfl fun o _ => ?_
      show x t o i * _ * (x t o j * _) = _
      ring
    rcases dof with _ | kk
    · refine conv_congr hm fun t ω => ?_
      rw [← e1]; rfl
    · have hr := conv_mul (conv_const (P := P) _ _ (dof_ratio hn (kk : ℝ))) hm
      rw [one_mul] at hr
      refine conv_congr hr fun t ω => ?_
      rw [← e1, of_apply]
      show (1.0 * (Fintype.card (n t) : ℝ)) / ((Fintype.card (n t) : ℝ) - kk) * _ / _ = _
      rw [show (1.0 : ℝ) = 1 by norm_num, one_mul, mul_div_assoc]
  have hi : ∀ i j, ConvP P (fun t (_ : Ω t) => ((Fintype.card (n t) : ℝ) • ((x t)ᵀ * x t)⁻¹ : Matrix k k ℝ) i j) (Q⁻¹ i j) := fun i j =>
    conv_const _ _ (xtxi_lim hpos x hx Q hQ lim i j)
  have := conv_matmul (conv_matmul hi hm) hi p.1 p.2
  refine conv_congr this fun t ω => ?_
  have hc : (Fintype.card (n t) : ℝ) ≠ 0 := by exact_mod_cast (hpos t).ne'
  have e2 : (Matrix.of fun i j => psi0White (x t) (olsWith (x t) (x t *ᵥ beta + e t ω) ((x t)ᵀ * x t)⁻¹).u dof i j / Fintype.card (n t) : Matrix k k ℝ) =
      (Fintype.card (n t) : ℝ)⁻¹ • psi0White (x t) (olsWith (x t) (x t *ᵥ beta + e t ω) ((x t)ᵀ * x t)⁻¹).u dof := by
    ext i j
    rw [of_apply, div_eq_inv_mul]; rfl
  rw [e2, smul_mul_smul_comm, mul_inv_cancel₀ hc, one_smul, Matrix.mul_smul, Matrix.mul_assoc]
  rfl

end vm
end Spreg.Consist
