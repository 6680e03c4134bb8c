import Verif.Model.Probit
import Mathlib.Analysis.Calculus.MeanValue
import Mathlib.Analysis.Calculus.Deriv.MeanValue
import Mathlib.MeasureTheory.Integral.IntegralEqImproper
import Mathlib.MeasureTheory.Measure.Lebesgue.Integral
import Mathlib.Analysis.SpecialFunctions.Log.Deriv
import Mathlib.Tactic
/-
The standard normal distribution function: derivative, bounds, symmetry, range, and concavity of its logarithm.
-/
namespace Spreg.Probit
open MeasureTheory Set Filter Topology

theorem phi_pos (z : ℝ) : 0 < phi z := by
  unfold phi
  have : 0 < Real.sqrt (2 * Real.pi) := Real.sqrt_pos.2 (by positivity)
  positivity

theorem phi_neg (z : ℝ) : phi (-z) = phi z := by unfold phi; rw [neg_sq]

theorem phi_eq (z : ℝ) : phi z = (Real.sqrt (2 * Real.pi))⁻¹ * Real.exp (-(1 / 2) * z ^ 2) := by
  unfold phi; congr 2; ring

theorem phi_integrable : Integrable phi := by
  have : phi = fun z => (Real.sqrt (2 * Real.pi))⁻¹ * Real.exp (-(1 / 2) * z ^ 2) := funext phi_eq
  rw [this]
  exact (integrable_exp_neg_mul_sq (by norm_num)).const_mul _

theorem phi_integral : ∫ z, phi z = 1 := by
  have : phi = fun z => (Real.sqrt (2 * Real.pi))⁻¹ * Real.exp (-(1 / 2) * z ^ 2) := funext phi_eq
  rw [this, integral_const_mul, integral_gaussian]
  have h : Real.pi / (1 / 2) = 2 * Real.pi := by ring
  rw [h]
  exact inv_mul_cancel₀ (Real.sqrt_pos.2 (by positivity)).ne'

theorem phi_hasDeriv (z : ℝ) : HasDerivAt phi (-z * phi z) z := by
  have h1 : HasDerivAt (fun z : ℝ => -z ^ 2 / 2) (-z) z := by
    have := ((hasDerivAt_pow 2 z).neg).div_const 2
    refine this.congr_deriv ?_
    simp; ring
  have := (h1.exp).const_mul (Real.sqrt (2 * Real.pi))⁻¹
  refine HasDerivAt.congr_deriv (f := phi) this ?_
  unfold phi; ring

theorem phi_continuous : Continuous phi :=
  continuous_iff_continuousAt.2 fun z => (phi_hasDeriv z).continuousAt

theorem Phi_hasDeriv (z : ℝ) : HasDerivAt Phi (phi z) z := by
  have h : Phi = fun z => Phi 0 + ∫ t in (0 : ℝ)..z, phi t := by
    funext z
    have := intervalIntegral.integral_Iic_sub_Iic (a := 0) (b := z) phi_integrable.integrableOn
      phi_integrable.integrableOn
    unfold Phi
    rw [← this]; ring
  rw [h]
  apply HasDerivAt.const_add
  exact intervalIntegral.integral_hasDerivAt_right (phi_continuous.intervalIntegrable _ _)
    (phi_continuous.stronglyMeasurableAtFilter _ _) phi_continuous.continuousAt

theorem Phi_strictMono : StrictMono Phi :=
  strictMono_of_hasDerivAt_pos Phi_hasDeriv phi_pos

theorem Phi_continuous : Continuous Phi :=
  continuous_iff_continuousAt.2 fun z => (Phi_hasDeriv z).continuousAt

theorem Phi_pos (z : ℝ) : 0 < Phi z := by
  have h0 : 0 ≤ Phi (z - 1) := setIntegral_nonneg measurableSet_Iic fun t _ => (phi_pos t).le
  exact lt_of_le_of_lt h0 (Phi_strictMono (by linarith))

theorem Phi_neg (z : ℝ) : Phi (-z) = 1 - Phi z := by
  have h1 : ∫ x in Iic (-z), phi (-x) = ∫ x in Ioi (- -z), phi x := integral_comp_neg_Iic (-z) phi
  simp only [phi_neg, neg_neg] at h1
  have h2 := intervalIntegral.integral_Iic_add_Ioi (b := z) (phi_integrable.integrableOn (s := Iic z))
    (phi_integrable.integrableOn (s := Ioi z))
  rw [phi_integral] at h2
  unfold Phi
  rw [h1]; linarith

theorem Phi_lt_one (z : ℝ) : Phi z < 1 := by
  have := Phi_pos (-z); rw [Phi_neg] at this; linarith

theorem Phi_zero : Phi 0 = 1 / 2 := by
  have := Phi_neg 0; rw [neg_zero] at this; linarith

theorem phi_tendsto_atBot : Tendsto phi atBot (𝓝 0) := by
  have h2 : Tendsto (fun z : ℝ => -z ^ 2 / 2) atBot atBot := by
    have h3 : Tendsto (fun z : ℝ => z ^ 2) atBot atTop := by
      have := tendsto_pow_atTop (α := ℝ) (n := 2) (by norm_num)
      have h4 : (fun z : ℝ => z ^ 2) = (fun z => z ^ 2) ∘ fun z => -z := by funext z; simp
      rw [h4]
      exact this.comp tendsto_neg_atBot_atTop
    have h5 : (fun z : ℝ => -z ^ 2 / 2) = fun z => -(z ^ 2 / 2) := by funext z; ring
    rw [h5]
    exact tendsto_neg_atTop_atBot.comp (h3.atTop_div_const (by norm_num))
  have := (Real.tendsto_exp_atBot.comp h2).const_mul (Real.sqrt (2 * Real.pi))⁻¹
  rw [mul_zero] at this
  exact this

/-- First moment of the lower tail. -/
theorem tail_moment (z : ℝ) : ∫ t in Iic z, -t * phi t = phi z := by
  have hi : Integrable fun t => -t * phi t := by
    have := (integrable_mul_exp_neg_mul_sq (b := 1 / 2) (by norm_num)).const_mul (-(Real.sqrt (2 * Real.pi))⁻¹)
    refine this.congr (Eventually.of_forall fun t => ?_)
    simp only
    rw [phi_eq]; ring
  have := integral_Iic_of_hasDerivAt_of_tendsto' (a := z) (f := phi) (f' := fun t => -t * phi t) (m := 0)
    (fun t _ => phi_hasDeriv t) hi.integrableOn phi_tendsto_atBot
  rw [this, sub_zero]

/-- The bound behind the concavity of the log-likelihood: `phi(z) + z Phi(z) > 0`. -/
theorem mills (z : ℝ) : 0 < phi z + z * Phi z := by
  have hge : ∀ z, 0 ≤ phi z + z * Phi z := by
    intro z
    have hi : Integrable fun t => -t * phi t := by
      have := (integrable_mul_exp_neg_mul_sq (b := 1 / 2) (by norm_num)).const_mul (-(Real.sqrt (2 * Real.pi))⁻¹)
      refine this.congr (Eventually.of_forall fun t => ?_)
      simp only
      rw [phi_eq]; ring
    have h1 : ∫ t in Iic z, -z * phi t ≤ ∫ t in Iic z, -t * phi t := by
      apply setIntegral_mono_on (phi_integrable.integrableOn.const_mul _) hi.integrableOn measurableSet_Iic
      intro t ht
      have ht' : t ≤ z := ht
      have := (phi_pos t).le
      nlinarith
    rw [tail_moment, integral_const_mul] at h1
    unfold Phi
    linarith
  have hd : ∀ z, HasDerivAt (fun z => phi z + z * Phi z) (Phi z) z := by
    intro z
    have := (phi_hasDeriv z).add ((hasDerivAt_id z).mul (Phi_hasDeriv z))
    refine this.congr_deriv ?_
    simp
  have hm : StrictMono fun z => phi z + z * Phi z := strictMono_of_hasDerivAt_pos hd Phi_pos
  have h2 : phi (z - 1) + (z - 1) * Phi (z - 1) < phi z + z * Phi z := hm (by linarith)
  exact lt_of_le_of_lt (hge (z - 1)) h2

theorem Phi_tendsto_atBot : Tendsto Phi atBot (𝓝 0) := by
  apply tendsto_of_tendsto_of_tendsto_of_le_of_le' tendsto_const_nhds phi_tendsto_atBot
  · exact Eventually.of_forall fun z => (Phi_pos z).le
  · filter_upwards [eventually_le_atBot (-1 : ℝ)] with z hz
    have h1 := mills z
    have h2 := Phi_pos z
    nlinarith

/-- Every probability strictly between 0 and 1 is attained. -/
theorem Phi_surj {p : ℝ} (h0 : 0 < p) (h1 : p < 1) : ∃ z, Phi z = p := by
  obtain ⟨a, ha⟩ := (Phi_tendsto_atBot.eventually (gt_mem_nhds h0)).exists
  obtain ⟨b, hb⟩ := (Phi_tendsto_atBot.eventually (gt_mem_nhds (show (0 : ℝ) < 1 - p by linarith))).exists
  have hb' : p < Phi (-b) := by rw [Phi_neg]; linarith
  have hab : a ≤ -b := by
    by_contra h
    have := Phi_strictMono (lt_of_not_ge h)
    linarith
  obtain ⟨z, -, hz⟩ := intermediate_value_Icc hab Phi_continuous.continuousOn ⟨ha.le, hb'.le⟩
  exact ⟨z, hz⟩

/-- The inverse Mills ratio. -/
noncomputable def mr (z : ℝ) : ℝ := phi z / Phi z

theorem mr_pos (z : ℝ) : 0 < mr z := div_pos (phi_pos z) (Phi_pos z)

theorem logPhi_hasDeriv (z : ℝ) : HasDerivAt (fun z => Real.log (Phi z)) (mr z) z :=
  (Phi_hasDeriv z).log (Phi_pos z).ne'

theorem mr_hasDeriv (z : ℝ) : HasDerivAt mr (-(mr z * (mr z + z))) z := by
  have := (phi_hasDeriv z).div (Phi_hasDeriv z) (Phi_pos z).ne'
  refine HasDerivAt.congr_deriv (f := mr) this ?_
  have := (Phi_pos z).ne'
  unfold mr
  field_simp
  ring

theorem mr_weight_pos (z : ℝ) : 0 < mr z * (mr z + z) := by
  refine mul_pos (mr_pos z) ?_
  have h := div_pos (mills z) (Phi_pos z)
  have := (Phi_pos z).ne'
  have e : (phi z + z * Phi z) / Phi z = mr z + z := by unfold mr; field_simp
  rw [e] at h; exact h

theorem mr_strictAnti : StrictAnti mr :=
  strictAnti_of_hasDerivAt_neg mr_hasDeriv fun z => neg_neg_of_pos (mr_weight_pos z)

/-- Tangent inequality for `log Phi`, strict away from the point of contact. -/
theorem logPhi_tangent (a b : ℝ) (hab : a ≠ b) :
    Real.log (Phi b) < Real.log (Phi a) + mr a * (b - a) := by
  have hc : Continuous fun z => Real.log (Phi z) :=
    continuous_iff_continuousAt.2 fun z => (logPhi_hasDeriv z).continuousAt
  rcases lt_or_gt_of_ne hab with h | h
  · obtain ⟨c, hc1, hc2⟩ := exists_hasDerivAt_eq_slope (fun z => Real.log (Phi z)) mr h hc.continuousOn
      fun z _ => logPhi_hasDeriv z
    have h1 := mr_strictAnti hc1.1
    rw [hc2, div_lt_iff₀ (by linarith)] at h1
    linarith
  · obtain ⟨c, hc1, hc2⟩ := exists_hasDerivAt_eq_slope (fun z => Real.log (Phi z)) mr h hc.continuousOn
      fun z _ => logPhi_hasDeriv z
    have h1 := mr_strictAnti hc1.2
    rw [hc2, lt_div_iff₀ (by linarith)] at h1
    linarith

end Spreg.Probit
