import Verif.Spec.Consistent
import Verif.Spec.Errors
import Verif.Model.LagRegimes
import Verif.Props.TSLS
import Verif.Props.Sampling
import Mathlib.Topology.Instances.Matrix
import Mathlib.MeasureTheory.Function.LpSeminorm.ChebyshevMarkov
import Mathlib.Probability.Moments.Variance
/-
C182: least squares and spatial two-stage least squares are consistent.
-/
set_option linter.unusedSectionVars false
namespace Spreg.Consist
open Spreg Spreg.Lin Spreg.LagReg Spreg.Sampling Matrix MeasureTheory Filter Topology

variable {Ω : ℕ → Type} [∀ t, MeasurableSpace (Ω t)] {P : ∀ t, Measure (Ω t)}

/-- If all coordinates converge in probability, the probability of leaving a neighbourhood of the limit vanishes. -/
theorem nhds_conv {ι : Type} [Fintype ι] (X : ∀ t, Ω t → ι → ℝ) (c : ι → ℝ) (h : ∀ i, ConvP P (fun t ω => X t ω i) (c i))
    (U : Set (ι → ℝ)) (hU : U ∈ 𝓝 c) : Tendsto (fun t => P t {ω | X t ω ∉ U}) atTop (𝓝 0) := by
  obtain ⟨ε, hε, hb⟩ := Metric.mem_nhds_iff.1 hU
  have hs : Tendsto (fun t => ∑ i, P t {ω | ε ≤ |X t ω i - c i|}) atTop (𝓝 0) := by
    have := tendsto_finsetSum (Finset.univ : Finset ι) fun i _ => h i ε hε
    simpa using this
  refine tendsto_of_tendsto_of_tendsto_of_le_of_le tendsto_const_nhds hs (fun _ => zero_le) fun t => ?_
  refine (measure_mono (t := ⋃ i, {ω | ε ≤ |X t ω i - c i|}) fun ω hω => ?_).trans (measure_iUnion_fintype_le _ _)
  by_contra hcon
  refine hω (hb ?_)
  rw [Metric.mem_ball, dist_pi_lt_iff hε]
  intro i
  rw [Real.dist_eq]
  by_contra hi
  exact hcon (Set.mem_iUnion.2 ⟨i, not_lt.1 hi⟩)

/-- Non-random numbers. -/
theorem conv_const [∀ t, IsProbabilityMeasure (P t)] (a : ℕ → ℝ) (c : ℝ) (h : Tendsto a atTop (𝓝 c)) : ConvP P (fun t _ => a t) c := by
  intro ε hε
  refine tendsto_const_nhds.congr' ?_
  filter_upwards [(Metric.tendsto_nhds.1 h) ε hε] with t ht
  rw [Real.dist_eq] at ht
  have : {ω : Ω t | ε ≤ |a t - c|} = ∅ := by
    ext ω; simp only [Set.mem_ofPred_eq, Set.mem_empty_iff_false, iff_false, not_le]; exact ht
  rw [this, measure_empty]

theorem conv_congr {X Y : ∀ t, Ω t → ℝ} {c : ℝ} (h : ConvP P X c) (he : ∀ t ω, Y t ω = X t ω) : ConvP P Y c := by
  have : Y = X := by funext t ω; exact he t ω
  rw [this]; exact h

/-- A non-random sequence plus a random one that vanishes. -/
theorem conv_add (a : ℕ → ℝ) (c : ℝ) (h : Tendsto a atTop (𝓝 c)) (X : ∀ t, Ω t → ℝ) (hX : ConvP P X 0) : ConvP P (fun t ω => a t + X t ω) c := by
  intro ε hε
  have hh := hX (ε / 2) (by linarith)
  refine tendsto_of_tendsto_of_tendsto_of_le_of_le' tendsto_const_nhds hh (Eventually.of_forall fun _ => zero_le) ?_
  filter_upwards [(Metric.tendsto_nhds.1 h) (ε / 2) (by linarith)] with t ht
  rw [Real.dist_eq] at ht
  refine measure_mono fun ω hω => ?_
  simp only [Set.mem_ofPred_eq] at hω ⊢
  have : |a t + X t ω - c| ≤ |a t - c| + |X t ω - 0| := by
    rw [show a t + X t ω - c = (a t - c) + (X t ω - 0) by ring]; exact abs_add_le _ _
  linarith

/-- Chebyshev's inequality for a linear function of the errors. -/
theorem cheb {n : Type} [Fintype n] [DecidableEq n] {O : Type} [MeasurableSpace O] {Q : Measure O} {e : O → n → ℝ} {s2 : n → ℝ} (h : Errors Q e s2)
    (a : n → ℝ) (ε : ℝ) (hε : 0 < ε) : Q {ω | ε ≤ |a ⬝ᵥ e ω|} ≤ ENNReal.ofReal ((∑ i, a i ^ 2 * s2 i) / ε ^ 2) := by
  have := h.prob
  have hA : ∀ ω, ((Matrix.of fun (_ : Unit) i => a i) *ᵥ e ω) () = a ⬝ᵥ e ω := fun ω => rfl
  have hsq : MemLp (fun ω => a ⬝ᵥ e ω) 2 Q := lin_sq h (Matrix.of fun (_ : Unit) i => a i) ()
  have hm : ∫ ω, a ⬝ᵥ e ω ∂Q = 0 := lin_mean h (Matrix.of fun (_ : Unit) i => a i) ()
  have hc := (lin_cov h (Matrix.of fun (_ : Unit) i => a i) (Matrix.of fun (_ : Unit) i => a i) () ()).2
  have hv : ProbabilityTheory.variance (fun ω => a ⬝ᵥ e ω) Q = ∑ i, a i ^ 2 * s2 i := by
    rw [ProbabilityTheory.variance_eq_sub hsq, hm]
    simp only [ne_eq, OfNat.ofNat_ne_zero, not_false_eq_true, zero_pow, sub_zero, Pi.pow_apply]
    have : ∫ ω, (a ⬝ᵥ e ω) ^ 2 ∂Q = ∫ ω, ((Matrix.of fun (_ : Unit) i => a i) *ᵥ e ω) () * ((Matrix.of fun (_ : Unit) i => a i) *ᵥ e ω) () ∂Q := by
      congr 1; funext ω; rw [hA, sq]
    rw [this, hc, mul_apply]
    simp only [mul_diagonal, transpose_apply, of_apply]
    exact Finset.sum_congr rfl fun i _ => by ring
  have := ProbabilityTheory.meas_ge_le_variance_div_sq hsq hε
  rw [hm, hv] at this
  simpa using this

/-- A random number with a bound on the probability of a deviation that vanishes. -/
theorem conv_zero_of_bound (X : ∀ t, Ω t → ℝ) (v : ℕ → ℝ) (hv : Tendsto v atTop (𝓝 0))
    (h : ∀ t, ∀ ε > 0, P t {ω | ε ≤ |X t ω|} ≤ ENNReal.ofReal (v t / ε ^ 2)) : ConvP P X 0 := by
  intro ε hε
  have h0 : Tendsto (fun t => ENNReal.ofReal (v t / ε ^ 2)) atTop (𝓝 0) := by
    have h1 : Tendsto (fun t => v t / ε ^ 2) atTop (𝓝 0) := by simpa using hv.div_const (ε ^ 2)
    have := (ENNReal.continuous_ofReal.tendsto 0).comp h1
    rwa [ENNReal.ofReal_zero] at this
  refine tendsto_of_tendsto_of_tendsto_of_le_of_le tendsto_const_nhds h0 (fun _ => zero_le) fun t => ?_
  simpa using h t ε hε

section tsls
variable {k l : Type} [Fintype k] [Fintype l] [DecidableEq k] [DecidableEq l]

/-- Coefficient error of 2SLS as a function of the cross products. -/
noncomputable def err (A : Matrix l k ℝ) (B : Matrix l l ℝ) (v : l → ℝ) : k → ℝ := ((Aᵀ * B⁻¹ * A)⁻¹ * (Aᵀ * B⁻¹)) *ᵥ v

theorem inv_contAt {X : Type} [TopologicalSpace X] {m : Type} [Fintype m] [DecidableEq m] {f : X → Matrix m m ℝ} {x : X} (hf : ContinuousAt f x)
    (h : (f x).det ≠ 0) : ContinuousAt (fun y => (f y)⁻¹) x := by
  have hd : ContinuousAt (fun y => (f y).det) x := (Continuous.matrix_det continuous_id).continuousAt.comp hf
  have ha : ContinuousAt (fun y => (f y).adjugate) x := (Continuous.matrix_adjugate continuous_id).continuousAt.comp hf
  have : (fun y => (f y)⁻¹) = fun y => ((f y).det)⁻¹ • (f y).adjugate := by
    funext y; rw [Matrix.inv_def, Ring.inverse_eq_inv']
  rw [this]
  exact (hd.inv₀ h).smul ha

/-- The coordinates of the cross products. -/
abbrev Coord (k l : Type) := (l × k) ⊕ (l × l) ⊕ l

def cA (c : Coord k l → ℝ) : Matrix l k ℝ := Matrix.of fun i j => c (.inl (i, j))
def cB (c : Coord k l → ℝ) : Matrix l l ℝ := Matrix.of fun i j => c (.inr (.inl (i, j)))
def cv (c : Coord k l → ℝ) : l → ℝ := fun i => c (.inr (.inr i))

theorem cA_cont : Continuous (cA : (Coord k l → ℝ) → Matrix l k ℝ) := continuous_matrix fun _ _ => continuous_apply _
theorem cB_cont : Continuous (cB : (Coord k l → ℝ) → Matrix l l ℝ) := continuous_matrix fun _ _ => continuous_apply _
theorem cv_cont : Continuous (cv : (Coord k l → ℝ) → l → ℝ) := continuous_pi fun _ => continuous_apply _

/-- Near the limit the estimator exists and the error is small. -/
theorem good_nhds (Q : Matrix l k ℝ) (B : Matrix l l ℝ) (hB : B.det ≠ 0) (hQ : (Qᵀ * B⁻¹ * Q).det ≠ 0) (ε : ℝ) (hε : 0 < ε) (c : Coord k l → ℝ)
    (h1 : cA c = Q) (h2 : cB c = B) (h3 : cv c = 0) :
    {d : Coord k l → ℝ | (cB d).det ≠ 0 ∧ ((cA d)ᵀ * (cB d)⁻¹ * cA d).det ≠ 0 ∧ ∀ j, |err (cA d) (cB d) (cv d) j| < ε} ∈ 𝓝 c := by
  have hdet : ∀ {m : Type} [Fintype m] [DecidableEq m], Continuous fun M : Matrix m m ℝ => M.det := fun {m} _ _ => Continuous.matrix_det continuous_id
  have cb : ContinuousAt (fun d => (cB d : Matrix l l ℝ)⁻¹) c := inv_contAt cB_cont.continuousAt (by rw [h2]; exact hB)
  have cab : ContinuousAt (fun d => (cA d)ᵀ * (cB d)⁻¹) c := by
    have := (continuous_fst.matrix_mul continuous_snd : Continuous fun p : Matrix k l ℝ × Matrix l l ℝ => p.1 * p.2).continuousAt.comp
      (ContinuousAt.prodMk (cA_cont.matrix_transpose.continuousAt (x := c)) cb)
    exact this
  have cm : ContinuousAt (fun d => (cA d)ᵀ * (cB d)⁻¹ * cA d) c :=
    (continuous_fst.matrix_mul continuous_snd : Continuous fun p : Matrix k l ℝ × Matrix l k ℝ => p.1 * p.2).continuousAt.comp
      (ContinuousAt.prodMk cab (cA_cont.continuousAt (x := c)))
  have hm0 : ((cA c)ᵀ * (cB c)⁻¹ * cA c).det ≠ 0 := by rw [h1, h2]; exact hQ
  have ci : ContinuousAt (fun d => ((cA d)ᵀ * (cB d)⁻¹ * cA d)⁻¹) c := inv_contAt cm hm0
  have cp : ContinuousAt (fun d => ((cA d)ᵀ * (cB d)⁻¹ * cA d)⁻¹ * ((cA d)ᵀ * (cB d)⁻¹)) c :=
    (continuous_fst.matrix_mul continuous_snd : Continuous fun p : Matrix k k ℝ × Matrix k l ℝ => p.1 * p.2).continuousAt.comp (ContinuousAt.prodMk ci cab)
  have ce : ContinuousAt (fun d => err (cA d) (cB d) (cv d)) c :=
    (continuous_fst.matrix_mulVec continuous_snd : Continuous fun p : Matrix k l ℝ × (l → ℝ) => p.1 *ᵥ p.2).continuousAt.comp
      (ContinuousAt.prodMk cp (cv_cont.continuousAt (x := c)))
  have he0 : err (cA c) (cB c) (cv c) = 0 := by rw [h3]; exact mulVec_zero _
  have e1 : ∀ᶠ d in 𝓝 c, (cB d : Matrix l l ℝ).det ≠ 0 :=
    ((hdet.continuousAt.comp (cB_cont.continuousAt (x := c))).eventually_ne (by simpa [h2] using hB))
  have e2 : ∀ᶠ d in 𝓝 c, ((cA d)ᵀ * (cB d)⁻¹ * cA d).det ≠ 0 := (hdet.continuousAt.comp cm).eventually_ne hm0
  have e3 : ∀ᶠ d in 𝓝 c, ∀ j, |err (cA d) (cB d) (cv d) j| < ε := by
    rw [Filter.eventually_all]
    intro j
    have := (continuous_apply j).continuousAt.comp ce
    have hh := Metric.tendsto_nhds.1 this.tendsto ε hε
    filter_upwards [hh] with d hd
    simp only [Function.comp, he0, Real.dist_eq, Pi.zero_apply, sub_zero] at hd
    exact hd
  filter_upwards [e1, e2, e3] with d a b c using ⟨a, b, c⟩

/-- 2SLS from scaled cross products: it exists and the coefficient error is `err`. -/
theorem tsls_err {n : Type} [Fintype n] (z : Matrix n k ℝ) (h : Matrix n l ℝ) (u : n → ℝ) (th : k → ℝ) (c : ℝ) (hc : c ≠ 0)
    (h1 : (c⁻¹ • (hᵀ * h)).det ≠ 0) (h2 : ((c⁻¹ • (hᵀ * z))ᵀ * (c⁻¹ • (hᵀ * h))⁻¹ * (c⁻¹ • (hᵀ * z))).det ≠ 0) :
    ∃ f, tslsZH z h (z *ᵥ th + u) = some f ∧ f.betas - th = err (c⁻¹ • (hᵀ * z)) (c⁻¹ • (hᵀ * h)) (c⁻¹ • (hᵀ *ᵥ u)) := by
  have hci : c⁻¹ ≠ 0 := inv_ne_zero hc
  have hu : IsUnit (hᵀ * h).det := by
    rw [isUnit_iff_ne_zero]
    intro h0
    apply h1
    rw [det_smul, h0, mul_zero]
  have hinv : (c⁻¹ • (hᵀ * h))⁻¹ = c • (hᵀ * h)⁻¹ := by
    refine inv_eq_right_inv ?_
    rw [smul_mul_smul_comm, inv_mul_cancel₀ hc, one_smul, mul_nonsing_inv _ hu]
  have hzt : (hᵀ * z)ᵀ = zᵀ * h := by rw [transpose_mul, transpose_transpose]
  have hM : (c⁻¹ • (hᵀ * z))ᵀ * (c⁻¹ • (hᵀ * h))⁻¹ = zᵀ * h * (hᵀ * h)⁻¹ := by
    rw [hinv, transpose_smul, hzt, Matrix.smul_mul, Matrix.mul_smul, smul_smul, inv_mul_cancel₀ hc, one_smul]
  have hzh : (zᵀ * h)ᵀ = hᵀ * z := by rw [transpose_mul, transpose_transpose]
  rw [hM, Matrix.mul_smul] at h2
  have hv : IsUnit (zᵀ * h * (hᵀ * h)⁻¹ * (zᵀ * h)ᵀ).det := by
    rw [isUnit_iff_ne_zero, hzh]
    intro h0
    apply h2
    rw [det_smul, h0, mul_zero]
  obtain ⟨f, hf⟩ := tslsZH_of_isUnit z h (z *ᵥ th + u) hu hv
  refine ⟨f, hf, ?_⟩
  obtain ⟨-, -, hz', -, hvb, hb, -, -⟩ := tslsZH_facts hf
  rw [hb, hvb, hz', hzh]
  rw [hzh] at hv
  unfold err
  rw [hM, Matrix.mul_smul]
  have hi : (c⁻¹ • (zᵀ * h * (hᵀ * h)⁻¹ * (hᵀ * z)))⁻¹ = c • (zᵀ * h * (hᵀ * h)⁻¹ * (hᵀ * z))⁻¹ := by
    refine inv_eq_right_inv ?_
    rw [smul_mul_smul_comm, inv_mul_cancel₀ hc, one_smul, mul_nonsing_inv _ hv]
  rw [hi, Matrix.smul_mul, smul_mulVec, mulVec_smul, smul_smul, mul_inv_cancel₀ hc, one_smul, mulVec_add, mulVec_add]
  have : ((zᵀ * h * (hᵀ * h)⁻¹ * (hᵀ * z))⁻¹ * (zᵀ * h * (hᵀ * h)⁻¹)) *ᵥ (hᵀ *ᵥ (z *ᵥ th)) = th := by
    rw [mulVec_mulVec, mulVec_mulVec, show (zᵀ * h * (hᵀ * h)⁻¹ * (hᵀ * z))⁻¹ * (zᵀ * h * (hᵀ * h)⁻¹) * hᵀ * z =
      (zᵀ * h * (hᵀ * h)⁻¹ * (hᵀ * z))⁻¹ * (zᵀ * h * (hᵀ * h)⁻¹ * (hᵀ * z)) by simp only [Matrix.mul_assoc], nonsing_inv_mul _ hv, one_mulVec]
  rw [this, add_sub_cancel_left]

/-- C182 for two-stage least squares with any regressors and instruments, random or not. If the cross products, divided by any numbers `c t` such as the
sample size, converge in probability to limits of full rank and the instruments are asymptotically uncorrelated with the errors, the coefficients are
consistent. -/
theorem C182_tsls {n : ℕ → Type} [∀ t, Fintype (n t)] (z : ∀ t, Ω t → Matrix (n t) k ℝ) (h : ∀ t, Ω t → Matrix (n t) l ℝ) (y u : ∀ t, Ω t → n t → ℝ)
    (th : k → ℝ) (hy : ∀ t ω, y t ω = z t ω *ᵥ th + u t ω) (c : ℕ → ℝ) (hc : ∀ t, c t ≠ 0) (Q : Matrix l k ℝ) (B : Matrix l l ℝ) (hB : B.det ≠ 0)
    (hQ : (Qᵀ * B⁻¹ * Q).det ≠ 0)
    (cA' : ∀ i j, ConvP P (fun t ω => (∑ a, h t ω a i * z t ω a j) / c t) (Q i j))
    (cB' : ∀ i j, ConvP P (fun t ω => (∑ a, h t ω a i * h t ω a j) / c t) (B i j))
    (cv' : ∀ i, ConvP P (fun t ω => (∑ a, h t ω a i * u t ω a) / c t) 0) :
    Consistent P (fun t ω => (tslsZH (z t ω) (h t ω) (y t ω)).map fun f => f.betas) th := by
  intro ε hε
  let X : ∀ t, Ω t → Coord k l → ℝ := fun t ω s => match s with
    | .inl (i, j) => ((c t)⁻¹ • ((h t ω)ᵀ * z t ω)) i j
    | .inr (.inl (i, j)) => ((c t)⁻¹ • ((h t ω)ᵀ * h t ω)) i j
    | .inr (.inr i) => ((c t)⁻¹ • ((h t ω)ᵀ *ᵥ u t ω)) i
  let L : Coord k l → ℝ := fun s => match s with
    | .inl (i, j) => Q i j
    | .inr (.inl (i, j)) => B i j
    | .inr (.inr _) => 0
  have hX : ∀ s, ConvP P (fun t ω => X t ω s) (L s) := by
    rintro (⟨i, j⟩ | ⟨i, j⟩ | i)
    · exact conv_congr (cA' i j) fun t ω => by
        show (c t)⁻¹ * ((h t ω)ᵀ * z t ω) i j = _
        rw [mul_apply, div_eq_inv_mul]; rfl
    · exact conv_congr (cB' i j) fun t ω => by
        show (c t)⁻¹ * ((h t ω)ᵀ * h t ω) i j = _
        rw [mul_apply, div_eq_inv_mul]; rfl
    · exact conv_congr (cv' i) fun t ω => by
        show (c t)⁻¹ * ((h t ω)ᵀ *ᵥ u t ω) i = _
        rw [div_eq_inv_mul]; rfl
  have hU := good_nhds Q B hB hQ ε hε L rfl rfl rfl
  refine tendsto_of_tendsto_of_tendsto_of_le_of_le tendsto_const_nhds (nhds_conv X L hX _ hU) (fun _ => zero_le) fun t => ?_
  refine measure_mono fun ω hω hin => hω ?_
  obtain ⟨g1, g2, g3⟩ := hin
  have eA : cA (X t ω) = (c t)⁻¹ • ((h t ω)ᵀ * z t ω) := rfl
  have eB : cB (X t ω) = (c t)⁻¹ • ((h t ω)ᵀ * h t ω) := rfl
  have ev : cv (X t ω) = (c t)⁻¹ • ((h t ω)ᵀ *ᵥ u t ω) := rfl
  rw [eB] at g1
  rw [eA, eB] at g2
  obtain ⟨f, hf, hb⟩ := tsls_err (z t ω) (h t ω) (u t ω) th (c t) (hc t) g1 g2
  refine ⟨f.betas, ?_, fun j => ?_⟩
  · show (tslsZH (z t ω) (h t ω) (y t ω)).map (fun f => f.betas) = _
    rw [hy, hf]; rfl
  have := g3 j
  rw [eA, eB, ev, ← hb] at this
  exact this

end tsls

section ols
variable {k : Type} [Fintype k] [DecidableEq k]

/-- C182 for OLS, any sample: the probability that a coefficient misses the truth by `ε` or more is at most its variance over `ε ^ 2`. -/
theorem C182_ols_bound {n : Type} [Fintype n] [DecidableEq n] {O : Type} [MeasurableSpace O] {Q : Measure O} {e : O → n → ℝ} {s : ℝ}
    (h : Errors Q e fun _ => s) (x : Matrix n k ℝ) (hx : IsUnit (xᵀ * x).det) (beta : k → ℝ) (j : k) (ε : ℝ) (hε : 0 < ε) :
    Q {ω | ¬ ∃ f, ols x (x *ᵥ beta + e ω) = some f ∧ |f.betas j - beta j| < ε} ≤ ENNReal.ofReal (s * (xᵀ * x)⁻¹ j j / ε ^ 2) := by
  have hA : ((xᵀ * x)⁻¹ * xᵀ) * ((xᵀ * x)⁻¹ * xᵀ)ᵀ = (xᵀ * x)⁻¹ := by
    have ht : ((xᵀ * x)⁻¹)ᵀ = (xᵀ * x)⁻¹ := by rw [transpose_nonsing_inv, transpose_mul, transpose_transpose]
    rw [transpose_mul, transpose_transpose, ht, Matrix.mul_assoc, ← Matrix.mul_assoc xᵀ x, mul_nonsing_inv _ hx, Matrix.mul_one]
  have hc := cheb h (((xᵀ * x)⁻¹ * xᵀ) j) ε hε
  have hs : ∑ i, ((xᵀ * x)⁻¹ * xᵀ) j i ^ 2 * s = s * (xᵀ * x)⁻¹ j j := by
    conv_rhs => rw [← hA]
    rw [← Finset.sum_mul, mul_comm, mul_apply]
    congr 1
    exact Finset.sum_congr rfl fun i _ => by rw [transpose_apply, sq]
  rw [hs] at hc
  refine (measure_mono fun ω hω => ?_).trans hc
  obtain ⟨f, hf⟩ : ∃ f, ols x (x *ᵥ beta + e ω) = some f := ⟨_, ols_of_isUnit x _ hx⟩
  have hl := ols_linear x beta (e ω) f hf
  by_contra hlt
  refine hω ⟨f, hf, ?_⟩
  simp only [Set.mem_ofPred_eq, not_le] at hlt
  have : f.betas j - beta j = ((xᵀ * x)⁻¹ * xᵀ) j ⬝ᵥ e ω := by
    rw [hl.2.1, Pi.add_apply, add_sub_cancel_left]; rfl
  rw [this]; exact hlt

/-- C182 for OLS: if the variances of the coefficients vanish as the sample grows, OLS is consistent. -/
theorem C182_ols {n : ℕ → Type} [∀ t, Fintype (n t)] [∀ t, DecidableEq (n t)] {e : ∀ t, Ω t → n t → ℝ} {s : ℝ} (h : ∀ t, Errors (P t) (e t) fun _ => s)
    (x : ∀ t, Matrix (n t) k ℝ) (hx : ∀ t, IsUnit ((x t)ᵀ * x t).det) (beta : k → ℝ)
    (hv : ∀ j, Tendsto (fun t => ((x t)ᵀ * x t)⁻¹ j j) atTop (𝓝 0)) :
    Consistent P (fun t ω => (ols (x t) (x t *ᵥ beta + e t ω)).map fun f => f.betas) beta := by
  intro ε hε
  have h0 : Tendsto (fun t => ∑ j, ENNReal.ofReal (s * ((x t)ᵀ * x t)⁻¹ j j / ε ^ 2)) atTop (𝓝 0) := by
    have : ∀ j : k, Tendsto (fun t => ENNReal.ofReal (s * ((x t)ᵀ * x t)⁻¹ j j / ε ^ 2)) atTop (𝓝 0) := by
      intro j
      have h1 : Tendsto (fun t => s * ((x t)ᵀ * x t)⁻¹ j j / ε ^ 2) atTop (𝓝 0) := by
        have := ((hv j).const_mul s).div_const (ε ^ 2)
        simpa using this
      have := (ENNReal.continuous_ofReal.tendsto 0).comp h1
      rwa [ENNReal.ofReal_zero] at this
    have := tendsto_finsetSum (Finset.univ : Finset k) fun j _ => this j
    simpa using this
  refine tendsto_of_tendsto_of_tendsto_of_le_of_le tendsto_const_nhds h0 (fun _ => zero_le) fun t => ?_
  refine (measure_mono (t := ⋃ j, {ω | ¬ ∃ f, ols (x t) (x t *ᵥ beta + e t ω) = some f ∧ |f.betas j - beta j| < ε}) fun ω hω => ?_).trans
    ((measure_iUnion_fintype_le _ _).trans (Finset.sum_le_sum fun j _ => C182_ols_bound (h t) (x t) (hx t) beta j ε hε))
  by_contra hcon
  refine hω ⟨(olsWith (x t) (x t *ᵥ beta + e t ω) ((x t)ᵀ * x t)⁻¹).betas, ?_, fun j => ?_⟩
  · show (ols (x t) (x t *ᵥ beta + e t ω)).map (fun f => f.betas) = _
    rw [ols_of_isUnit _ _ (hx t)]; rfl
  · by_contra hj
    refine hcon (Set.mem_iUnion.2 ⟨j, ?_⟩)
    rintro ⟨f, hf, hlt⟩
    rw [ols_of_isUnit _ _ (hx t)] at hf
    rw [← Option.some.inj hf] at hlt
    exact hj hlt
end ols

section lag
variable {kx : Type} [Fintype kx] [DecidableEq kx]

/-- Bounded row and column sums bound the length of `G' v`. -/
theorem schur {n : Type} [Fintype n] (G : Matrix n n ℝ) (r : ℝ) (hr : ∀ i, ∑ j, |G i j| ≤ r) (hc : ∀ j, ∑ i, |G i j| ≤ r) (v : n → ℝ) :
    ∑ b, (∑ a, v a * G a b) ^ 2 ≤ r ^ 2 * ∑ a, v a ^ 2 := by
  have h1 : ∀ b, (∑ a, v a * G a b) ^ 2 ≤ r * ∑ a, |G a b| * v a ^ 2 := by
    intro b
    have := Finset.sum_sq_le_sum_mul_sum_of_sq_le_mul Finset.univ (f := fun a => |G a b|) (g := fun a => |G a b| * v a ^ 2) (r := fun a => v a * G a b)
      (fun a _ => abs_nonneg _) (fun a _ => mul_nonneg (abs_nonneg _) (sq_nonneg _))
      (fun a _ => by rw [mul_pow, ← sq_abs (G a b)]; exact le_of_eq (by ring))
    refine this.trans (mul_le_mul_of_nonneg_right (hc b) (Finset.sum_nonneg fun a _ => mul_nonneg (abs_nonneg _) (sq_nonneg _)))
  have hr0 : ∀ i : n, 0 ≤ r := fun i => (Finset.sum_nonneg fun j _ => abs_nonneg _).trans (hr i)
  calc ∑ b, (∑ a, v a * G a b) ^ 2 ≤ ∑ b, r * ∑ a, |G a b| * v a ^ 2 := Finset.sum_le_sum fun b _ => h1 b
    _ = ∑ a, r * v a ^ 2 * ∑ b, |G a b| := by
        rw [← Finset.mul_sum, Finset.sum_comm, Finset.mul_sum]
        refine Finset.sum_congr rfl fun a _ => ?_
        rw [← Finset.sum_mul]; ring
    _ ≤ ∑ a, r * v a ^ 2 * r := Finset.sum_le_sum fun a _ => mul_le_mul_of_nonneg_left (hr a) (mul_nonneg (hr0 a) (sq_nonneg _))
    _ = r ^ 2 * ∑ a, v a ^ 2 := by rw [Finset.mul_sum]; exact Finset.sum_congr rfl fun a _ => by ring

/-- Averages of products of the errors with numbers of bounded size vanish. -/
theorem avg_zero {n : ℕ → Type} [∀ t, Fintype (n t)] [∀ t, DecidableEq (n t)] {e : ∀ t, Ω t → n t → ℝ} {s2 : ∀ t, n t → ℝ} {S : ℝ}
    (h : ∀ t, Errors (P t) (e t) (s2 t)) (hS0 : 0 ≤ S) (hS : ∀ t i, s2 t i ≤ S) (a : ∀ t, n t → ℝ) (c q : ℕ → ℝ) (hc : ∀ t, 0 < c t) (hcinf : Tendsto c atTop atTop)
    (b : ℝ) (hq : Tendsto q atTop (𝓝 b)) (ha : ∀ t, ∑ i, a t i ^ 2 ≤ q t * c t) : ConvP P (fun t ω => (∑ i, a t i * e t ω i) / c t) 0 := by
  have hv : Tendsto (fun t => S * q t / c t) atTop (𝓝 0) := (hq.const_mul S).div_atTop hcinf
  refine conv_zero_of_bound _ _ hv fun t ε hε => ?_
  have := cheb (h t) (a t) (ε * c t) (mul_pos hε (hc t))
  have hset : {ω | ε ≤ |(∑ i, a t i * e t ω i) / c t|} = {ω | ε * c t ≤ |a t ⬝ᵥ e t ω|} := by
    ext ω
    simp only [Set.mem_ofPred_eq, abs_div, abs_of_pos (hc t), le_div_iff₀ (hc t)]
    rfl
  rw [hset]
  refine this.trans (ENNReal.ofReal_le_ofReal ?_)
  have h1 : ∑ i, a t i ^ 2 * s2 t i ≤ S * (q t * c t) :=
    calc ∑ i, a t i ^ 2 * s2 t i ≤ ∑ i, a t i ^ 2 * S := Finset.sum_le_sum fun i _ => mul_le_mul_of_nonneg_left (hS t i) (sq_nonneg _)
      _ = S * ∑ i, a t i ^ 2 := by rw [← Finset.sum_mul, mul_comm]
      _ ≤ _ := mul_le_mul_of_nonneg_left (ha t) hS0
  have hct := hc t
  rw [div_div, div_le_div_iff₀ (by positivity) (by positivity)]
  calc (∑ i, a t i ^ 2 * s2 t i) * (c t * ε ^ 2) ≤ S * (q t * c t) * (c t * ε ^ 2) := mul_le_mul_of_nonneg_right h1 (by positivity)
    _ = S * q t * (ε * c t) ^ 2 := by ring

/-- Averages of products of fixed instruments with a spatial lag of the errors vanish. -/
theorem lag_core {n : ℕ → Type} [∀ t, Fintype (n t)] [∀ t, DecidableEq (n t)] {e : ∀ t, Ω t → n t → ℝ} {s2 : ∀ t, n t → ℝ} {S : ℝ} (hS0 : 0 ≤ S)
    (h : ∀ t, Errors (P t) (e t) (s2 t)) (hS : ∀ t i, s2 t i ≤ S) (G : ∀ t, Matrix (n t) (n t) ℝ) (r : ℝ)
    (hrow : ∀ t i, ∑ j, |G t i j| ≤ r) (hcol : ∀ t j, ∑ i, |G t i j| ≤ r)
    (hn : Tendsto (fun t => (Fintype.card (n t) : ℝ)) atTop atTop) (hc : ∀ t, (0 : ℝ) < Fintype.card (n t))
    (v z : ∀ t, n t → ℝ) (b q : ℝ) (limB : Tendsto (fun t => (∑ o, v t o * v t o) / Fintype.card (n t)) atTop (𝓝 b))
    (limQ : Tendsto (fun t => (∑ o, v t o * z t o) / Fintype.card (n t)) atTop (𝓝 q)) :
    ConvP P (fun t ω => (∑ o, v t o * (z t o + ∑ p, G t o p * e t ω p)) / Fintype.card (n t)) q := by
  have h1 := avg_zero h hS0 hS (fun t o => ∑ p, v t p * G t p o) (fun t => (Fintype.card (n t) : ℝ))
    (fun t => r ^ 2 * ((∑ o, v t o * v t o) / Fintype.card (n t))) hc hn _ (limB.const_mul (r ^ 2)) (fun t => by
      refine (schur _ r (hrow t) (hcol t) _).trans (le_of_eq ?_)
      rw [mul_assoc, div_mul_cancel₀ _ (hc t).ne']
      simp only [sq])
  refine conv_congr (conv_add _ _ limQ _ h1) fun t ω => ?_
  rw [← add_div]
  congr 1
  simp only [mul_add, Finset.sum_add_distrib]
  congr 1
  simp only [Finset.mul_sum, Finset.sum_mul]
  rw [Finset.sum_comm]
  exact Finset.sum_congr rfl fun _ _ => Finset.sum_congr rfl fun _ _ => by ring

/-- Averages of products of fixed instruments with the errors vanish. -/
theorem err_core {n : ℕ → Type} [∀ t, Fintype (n t)] [∀ t, DecidableEq (n t)] {e : ∀ t, Ω t → n t → ℝ} {s2 : ∀ t, n t → ℝ} {S : ℝ} (hS0 : 0 ≤ S)
    (h : ∀ t, Errors (P t) (e t) (s2 t)) (hS : ∀ t i, s2 t i ≤ S)
    (hn : Tendsto (fun t => (Fintype.card (n t) : ℝ)) atTop atTop) (hc : ∀ t, (0 : ℝ) < Fintype.card (n t))
    (v : ∀ t, n t → ℝ) (b : ℝ) (limB : Tendsto (fun t => (∑ o, v t o * v t o) / Fintype.card (n t)) atTop (𝓝 b)) :
    ConvP P (fun t ω => (∑ o, v t o * e t ω o) / Fintype.card (n t)) 0 :=
  avg_zero h hS0 hS v (fun t => (Fintype.card (n t) : ℝ)) (fun t => (∑ o, v t o * v t o) / Fintype.card (n t)) hc hn b limB (fun t => by
    rw [div_mul_cancel₀ _ (hc t).ne']
    exact le_of_eq (Finset.sum_congr rfl fun o _ => sq _))

/-- True coefficients of a spatial lag model, in the order of the regressors: constant, `x`, no further endogenous variables, `W y`. -/
def lagTruth (a : ℝ) (b : kx → ℝ) (rho : ℝ) : (Unit ⊕ kx) ⊕ (Empty ⊕ Unit) → ℝ :=
  Sum.elim (Sum.elim (fun _ => a) b) (Sum.elim Empty.elim fun _ => rho)

theorem lagZ_wy {n ke : Type} [Fintype n] [Fintype ke] [DecidableEq n] (W : Matrix n n ℝ) (x : Matrix n kx ℝ) (yend : Matrix n ke ℝ) (y : n → ℝ) (o : n)
    (j : Unit) : lagZ W x yend y o (.inr (.inr j)) = (W *ᵥ y) o := rfl

theorem lagZ_x {n ke : Type} [Fintype n] [Fintype ke] [DecidableEq n] (W : Matrix n n ℝ) (x : Matrix n kx ℝ) (yend : Matrix n ke ℝ) (y y' : n → ℝ) (o : n)
    (j : Unit ⊕ kx) : lagZ W x yend y o (.inl j) = lagZ W x yend y' o (.inl j) := rfl

theorem wy_split {n : Type} [Fintype n] [DecidableEq n] (W A : Matrix n n ℝ) (m e y : n → ℝ) (hy : y = A *ᵥ m + A *ᵥ e) (o : n) :
    (W *ᵥ y) o = (W *ᵥ (A *ᵥ m)) o + ∑ p, (W * A) o p * e p := by
  rw [hy, mulVec_add, Pi.add_apply, mulVec_mulVec e]
  rfl

/-- The same for any instruments. -/
theorem lag_general {n : ℕ → Type} [∀ t, Fintype (n t)] [∀ t, DecidableEq (n t)] {e : ∀ t, Ω t → n t → ℝ} {s2 : ∀ t, n t → ℝ} {S : ℝ} (hS0 : 0 ≤ S)
    (h : ∀ t, Errors (P t) (e t) (s2 t)) (hS : ∀ t i, s2 t i ≤ S) (W : ∀ t, Matrix (n t) (n t) ℝ) (x : ∀ t, Matrix (n t) kx ℝ)
    (a : ℝ) (b : kx → ℝ) (rho : ℝ) (y : ∀ t, Ω t → n t → ℝ)
    (hy : ∀ t ω i, y t ω i = a + ∑ j, x t i j * b j + rho * ∑ i', W t i i' * y t ω i' + e t ω i)
    (hreg : ∀ t, IsUnit (1 - rho • W t).det) (r : ℝ)
    (hrow : ∀ t i, ∑ j, |(W t * (1 - rho • W t)⁻¹) i j| ≤ r) (hcol : ∀ t j, ∑ i, |(W t * (1 - rho • W t)⁻¹) i j| ≤ r)
    (hn : Tendsto (fun t => (Fintype.card (n t) : ℝ)) atTop atTop) (hpos : ∀ t, 0 < Fintype.card (n t))
    {l : Type} [Fintype l] [DecidableEq l] (H : ∀ t, Matrix (n t) l ℝ) (Q : Matrix l ((Unit ⊕ kx) ⊕ (Empty ⊕ Unit)) ℝ) (B : Matrix l l ℝ)
    (hB : B.det ≠ 0) (hQ : (Qᵀ * B⁻¹ * Q).det ≠ 0)
    (limB : ∀ i j, Tendsto (fun t => (∑ o, H t o i * H t o j) / Fintype.card (n t)) atTop (𝓝 (B i j)))
    (limQ : ∀ i j, Tendsto (fun t => (∑ o, H t o i *
      lagZ (W t) (x t) (0 : Matrix (n t) Empty ℝ) ((1 - rho • W t)⁻¹ *ᵥ fun i => a + ∑ j, x t i j * b j) o j) / Fintype.card (n t)) atTop (𝓝 (Q i j))) :
    Consistent P (fun t ω => (tslsZH (lagZ (W t) (x t) (0 : Matrix (n t) Empty ℝ) (y t ω)) (H t) (y t ω)).map fun f => f.betas)
      (lagTruth a b rho) := by
  have hpr : ∀ t, IsProbabilityMeasure (P t) := fun t => (h t).prob
  have hc : ∀ t, (0 : ℝ) < Fintype.card (n t) := fun t => by exact_mod_cast hpos t
  have hyv : ∀ t ω, y t ω = ((1 - rho • W t)⁻¹ *ᵥ fun i => a + ∑ j, x t i j * b j) + (1 - rho • W t)⁻¹ *ᵥ e t ω := by
    intro t ω
    have : (1 - rho • W t) *ᵥ y t ω = (fun i => a + ∑ j, x t i j * b j) + e t ω := by
      rw [sub_mulVec, one_mulVec, smul_mulVec]
      funext i
      have := hy t ω i
      simp only [Pi.sub_apply, Pi.smul_apply, Pi.add_apply, smul_eq_mul]
      have e1 : (W t *ᵥ y t ω) i = ∑ i', W t i i' * y t ω i' := rfl
      rw [e1]; linarith
    rw [← mulVec_add, ← this, mulVec_mulVec, nonsing_inv_mul _ (hreg t), one_mulVec]
  refine C182_tsls (fun t ω => lagZ (W t) (x t) (0 : Matrix (n t) Empty ℝ) (y t ω)) (fun t _ => H t) y e
    (lagTruth a b rho) ?_ (fun t => (Fintype.card (n t) : ℝ)) (fun t => (hc t).ne') Q B hB hQ ?_ ?_ ?_
  · intro t ω
    funext i
    rw [hy t ω i, Pi.add_apply]
    congr 1
    show _ = ∑ j, lagZ (W t) (x t) (0 : Matrix (n t) Empty ℝ) (y t ω) i j * lagTruth a b rho j
    simp only [Fintype.sum_sum_type, lagZ, lagTruth, Sum.elim_inl, Sum.elim_inr, fromCols_apply_inl, fromCols_apply_inr, of_apply,
      Finset.univ_unique, Finset.sum_singleton, Finset.univ_eq_empty, Finset.sum_empty, one_mul, zero_add]
    rw [mul_comm rho]
    rfl
  · rintro i (j | j | j)
    · refine conv_congr (conv_const _ _ (limQ i (.inl j))) fun t ω => ?_
      congr 1
    · exact j.elim
    · have := lag_core hS0 h hS (fun t => W t * (1 - rho • W t)⁻¹) r hrow hcol hn hc (fun t o => H t o i)
        (fun t o => lagZ (W t) (x t) (0 : Matrix (n t) Empty ℝ) ((1 - rho • W t)⁻¹ *ᵥ fun i => a + ∑ j, x t i j * b j) o (.inr (.inr j)))
        _ _ (limB i i) (limQ i (.inr (.inr j)))
      refine conv_congr this fun t ω => ?_
      congr 1
      refine Finset.sum_congr rfl fun o _ => ?_
      rw [lagZ_wy, lagZ_wy, wy_split (W t) _ _ _ _ (hyv t ω) o]
  · exact fun i j => conv_const _ _ (limB i j)
  · exact fun i => err_core hS0 h hS hn hc (fun t o => H t o i) _ (limB i i)

/-- C182 for `GM_Lag` (no other endogenous variables): spatial two-stage least squares is consistent under the conditions of Kelejian and Prucha. The data
satisfy `y = a + x b + rho W y + e` with uncorrelated errors of bounded variance; `I - rho W` is regular and `G = W (I - rho W)^{-1}` has bounded row and
column sums; the averages of products of instruments with instruments and with expected regressors converge to limits of full rank. -/
theorem C182_lag {n : ℕ → Type} [∀ t, Fintype (n t)] [∀ t, DecidableEq (n t)] {e : ∀ t, Ω t → n t → ℝ} {s2 : ∀ t, n t → ℝ} {S : ℝ} (hS0 : 0 ≤ S)
    (h : ∀ t, Errors (P t) (e t) (s2 t)) (hS : ∀ t i, s2 t i ≤ S) (W : ∀ t, Matrix (n t) (n t) ℝ) (x : ∀ t, Matrix (n t) kx ℝ)
    (a : ℝ) (b : kx → ℝ) (rho : ℝ) (y : ∀ t, Ω t → n t → ℝ)
    (hy : ∀ t ω i, y t ω i = a + ∑ j, x t i j * b j + rho * ∑ i', W t i i' * y t ω i' + e t ω i)
    (hreg : ∀ t, IsUnit (1 - rho • W t).det) (r : ℝ)
    (hrow : ∀ t i, ∑ j, |(W t * (1 - rho • W t)⁻¹) i j| ≤ r) (hcol : ∀ t j, ∑ i, |(W t * (1 - rho • W t)⁻¹) i j| ≤ r)
    (hn : Tendsto (fun t => (Fintype.card (n t) : ℝ)) atTop atTop) (hpos : ∀ t, 0 < Fintype.card (n t))
    (L : ℕ) (lagQ : Bool) (Q : Matrix ((Unit ⊕ kx) ⊕ (Empty ⊕ LagCol kx Empty lagQ × Fin L)) ((Unit ⊕ kx) ⊕ (Empty ⊕ Unit)) ℝ)
    (B : Matrix ((Unit ⊕ kx) ⊕ (Empty ⊕ LagCol kx Empty lagQ × Fin L)) ((Unit ⊕ kx) ⊕ (Empty ⊕ LagCol kx Empty lagQ × Fin L)) ℝ)
    (hB : B.det ≠ 0) (hQ : (Qᵀ * B⁻¹ * Q).det ≠ 0)
    (limB : ∀ i j, Tendsto (fun t => (∑ o, lagH (W t) (x t) (0 : Matrix (n t) Empty ℝ) L lagQ o i * lagH (W t) (x t) (0 : Matrix (n t) Empty ℝ) L lagQ o j) /
      Fintype.card (n t)) atTop (𝓝 (B i j)))
    (limQ : ∀ i j, Tendsto (fun t => (∑ o, lagH (W t) (x t) (0 : Matrix (n t) Empty ℝ) L lagQ o i *
      lagZ (W t) (x t) (0 : Matrix (n t) Empty ℝ) ((1 - rho • W t)⁻¹ *ᵥ fun i => a + ∑ j, x t i j * b j) o j) / Fintype.card (n t)) atTop (𝓝 (Q i j))) :
    Consistent P (fun t ω => (gmLag (W t) (x t) (0 : Matrix (n t) Empty ℝ) (0 : Matrix (n t) Empty ℝ) (y t ω) L lagQ).map fun f => f.betas)
      (lagTruth a b rho) :=
  lag_general hS0 h hS W x a b rho y hy hreg r hrow hcol hn hpos (fun t => lagH (W t) (x t) (0 : Matrix (n t) Empty ℝ) L lagQ) Q B hB hQ limB limQ

end lag

end Spreg.Consist
