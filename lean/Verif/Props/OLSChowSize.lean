import Verif.Props.OLSChow
import Verif.Props.Normal
import Mathlib.Analysis.Convex.Integral
import Mathlib.Analysis.Convex.Deriv
/-
The chi-squared p-values of the Chow tests of `OLS_Regimes` are too small in finite samples (C179).
-/
set_option linter.unusedSectionVars false
namespace Spreg.OLSChow
open Matrix MeasureTheory ProbabilityTheory Spreg Spreg.Lin Spreg.Exact Spreg.Sampling Spreg.RegimesMat Spreg.Chow Spreg.Regimes Spreg.Probit

theorem gauss_Iic (z : ℝ) : (gaussianReal 0 1).real (Set.Iic z) = Phi z := by
  rw [measureReal_def, gaussianReal_apply_eq_integral _ one_ne_zero, ENNReal.toReal_ofReal (integral_nonneg fun t => gaussianPDFReal_nonneg _ _ _)]
  unfold Phi
  congr 1
  funext t
  rw [phi_eq, gaussianPDFReal]
  simp only [NNReal.coe_one, mul_one, sub_zero]
  congr 2
  ring

theorem chi_one (w : ℝ) (hw : 0 ≤ w) : pChi 1 w = 2 * (1 - Phi (Real.sqrt w)) := by
  have hm : Measurable fun z : Fin 1 → ℝ => ∑ i, z i ^ 2 := by fun_prop
  have hset : (fun z : Fin 1 → ℝ => ∑ i, z i ^ 2) ⁻¹' Set.Ioi w = Function.eval 0 ⁻¹' (Set.Ioi (Real.sqrt w) ∪ Set.Iio (-Real.sqrt w)) := by
    ext z
    simp only [Set.mem_preimage, Fin.sum_univ_one, Set.mem_Ioi, Set.mem_union, Set.mem_Iio, Function.eval]
    rw [← Real.sqrt_lt_sqrt_iff hw, Real.sqrt_sq_eq_abs, lt_abs, lt_neg]
  have hI : (gaussianReal 0 1).real (Set.Iio (-Real.sqrt w)) = Phi (-Real.sqrt w) := by
    rw [← gauss_Iic]
    have := nullSingletonClass_gaussianReal (μ := 0) (one_ne_zero : (1 : NNReal) ≠ 0)
    exact measureReal_congr Iio_ae_eq_Iic
  unfold pChi chiSqLaw stdNormals
  rw [map_measureReal_apply hm measurableSet_Ioi, hset,
    ← map_measureReal_apply (measurable_pi_apply 0 : Measurable (Function.eval (0 : Fin 1))) (measurableSet_Ioi.union measurableSet_Iio),
    (measurePreserving_eval _ 0).map_eq, measureReal_union _ measurableSet_Iio, hI, ← Set.compl_Iic, probReal_compl_eq_one_sub measurableSet_Iic,
    gauss_Iic, Phi_neg]
  · ring
  · rw [Set.disjoint_left]
    intro t h1 h2
    simp only [Set.mem_Ioi, Set.mem_Iio] at h1 h2
    have := Real.sqrt_nonneg w
    linarith

theorem chi_one_neg (w : ℝ) (hw : w < 0) : pChi 1 w = 1 := by
  have hm : Measurable fun z : Fin 1 → ℝ => ∑ i, z i ^ 2 := by fun_prop
  unfold pChi chiSqLaw stdNormals
  rw [map_measureReal_apply hm measurableSet_Ioi]
  rw [show (fun z : Fin 1 → ℝ => ∑ i, z i ^ 2) ⁻¹' Set.Ioi w = Set.univ from Set.eq_univ_of_forall fun z => by
    simp only [Set.mem_preimage, Set.mem_Ioi]
    exact hw.trans_le (Finset.sum_nonneg fun i _ => sq_nonneg _), probReal_univ]

/-- The tail of the chi-squared distribution with one degree of freedom. -/
noncomputable def tail (w : ℝ) : ℝ := 2 * (1 - Phi (Real.sqrt w))

theorem tail_cont : Continuous tail := by
  unfold tail; have := Phi_continuous; fun_prop

theorem tail_hasDeriv (w : ℝ) (hw : 0 < w) : HasDerivAt tail (-(phi (Real.sqrt w) / Real.sqrt w)) w := by
  have h := ((Phi_hasDeriv (Real.sqrt w)).comp w (Real.hasDerivAt_sqrt hw.ne')).const_sub 1 |>.const_mul 2
  have hs := Real.sqrt_pos.2 hw
  refine h.congr_deriv ?_
  field_simp

theorem tail_convex : StrictConvexOn ℝ (Set.Ici 0) tail := by
  refine StrictMonoOn.strictConvexOn_of_deriv (convex_Ici 0) tail_cont.continuousOn ?_
  rw [interior_Ici]
  intro a ha b hb hab
  have ha : 0 < a := ha
  have hb : 0 < b := hb
  rw [(tail_hasDeriv a ha).deriv, (tail_hasDeriv b hb).deriv, neg_lt_neg_iff]
  have h1 : Real.sqrt a < Real.sqrt b := Real.sqrt_lt_sqrt ha.le hab
  have h2 : phi (Real.sqrt b) < phi (Real.sqrt a) := by
    rw [phi_eq, phi_eq]
    refine mul_lt_mul_of_pos_left (Real.exp_lt_exp.2 ?_) (by positivity)
    rw [Real.sq_sqrt ha.le, Real.sq_sqrt hb.le]; linarith
  have := Real.sqrt_pos.2 ha
  exact (div_lt_div_of_pos_right h2 (Real.sqrt_pos.2 hb)).trans (div_lt_div_of_pos_left (phi_pos _) this h1)

theorem tail_anti : StrictAntiOn tail (Set.Ici 0) := by
  intro a ha b hb hab
  unfold tail
  have := Phi_strictMono (Real.sqrt_lt_sqrt ha hab)
  linarith

theorem tail_bound (w : ℝ) : 0 ≤ tail w ∧ tail w ≤ 1 := by
  unfold tail
  have h1 := Phi_lt_one (Real.sqrt w)
  have h2 := Phi_strictMono.monotone (Real.sqrt_nonneg w)
  rw [Phi_zero] at h2
  constructor <;> linarith

/-- The rejection region. -/
theorem region (a : ℝ) (h0 : 0 < a) (h1 : a < 1) : ∃ c, 0 < c ∧ tail c = a ∧ {w | pChi 1 w ≤ a} = Set.Ici c := by
  obtain ⟨z, hz⟩ := Phi_surj (p := 1 - a / 2) (by linarith) (by linarith)
  have hz0 : 0 < z := by
    rw [← Phi_strictMono.lt_iff_lt, Phi_zero, hz]; linarith
  have hc : tail (z ^ 2) = a := by unfold tail; rw [Real.sqrt_sq hz0.le, hz]; ring
  refine ⟨z ^ 2, by positivity, hc, ?_⟩
  ext w
  simp only [Set.mem_ofPred_eq, Set.mem_Ici]
  rcases lt_or_ge w 0 with hw | hw
  · rw [chi_one_neg w hw]
    constructor
    · intro h; linarith
    · intro h; nlinarith [sq_nonneg z]
  · rw [chi_one w hw]
    change tail w ≤ a ↔ _
    rw [← hc, tail_anti.le_iff_ge hw (show z ^ 2 ∈ Set.Ici (0 : ℝ) from sq_nonneg z)]

/-- Mean of squares of standard normals. -/
noncomputable def ms (d : ℕ) (z : Fin d → ℝ) : ℝ := (∑ i, z i ^ 2) / d

theorem ms_mean (d : ℕ) (hd : 0 < d) : Integrable (ms d) (stdNormals (Fin d)) ∧ ∫ z, ms d z ∂(stdNormals (Fin d)) = 1 := by
  have hi : ∀ i : Fin d, Integrable (fun z : Fin d → ℝ => z i ^ 2) (stdNormals (Fin d)) ∧ ∫ z : Fin d → ℝ, z i ^ 2 ∂(stdNormals (Fin d)) = 1 := by
    intro i
    have hmp : MeasurePreserving (Function.eval i) (stdNormals (Fin d)) (gaussianReal 0 1) := measurePreserving_eval _ i
    have h2 : Integrable (fun t : ℝ => t ^ 2) (gaussianReal 0 1) := (memLp_id_gaussianReal 2).integrable_sq
    refine ⟨hmp.integrable_comp_of_integrable h2, ?_⟩
    have := variance_fun_id_gaussianReal (μ := 0) (v := 1)
    rw [variance_eq_integral measurable_id'.aemeasurable] at this
    simp only [integral_id_gaussianReal, sub_zero] at this
    rw [← hmp.map_eq, integral_map hmp.measurable.aemeasurable (by fun_prop)] at this
    simpa using this
  have hd' : (d : ℝ) ≠ 0 := by exact_mod_cast hd.ne'
  unfold ms
  refine ⟨(integrable_finsetSum _ fun i _ => (hi i).1).div_const _, ?_⟩
  rw [integral_div, integral_finsetSum _ fun i _ => (hi i).1, Finset.sum_congr rfl fun i _ => (hi i).2]
  simp [hd']

theorem ms_not_one (d : ℕ) (hd : 0 < d) (c : ℝ) : stdNormals (Fin d) {z | ms d z = c} = 0 := by
  have hd' : (d : ℝ) ≠ 0 := by exact_mod_cast hd.ne'
  refine null_of_lines _ (measurableSet_eq_fun (by unfold ms; fun_prop) measurable_const) ⟨0, hd⟩ fun z => ?_
  set i0 : Fin d := ⟨0, hd⟩
  set r := ∑ i ∈ Finset.univ.erase i0, z i ^ 2 with hr
  have hsub : {t | Function.update z i0 t ∈ {z | ms d z = c}} ⊆ {t | t ^ 2 = c * d - r} := by
    intro t ht
    simp only [Set.mem_ofPred_eq, ms] at ht ⊢
    rw [div_eq_iff hd', ← Finset.add_sum_erase _ _ (Finset.mem_univ i0)] at ht
    rw [Finset.sum_congr rfl (g := fun i => z i ^ 2) (fun i hi => by rw [Function.update_of_ne (Finset.ne_of_mem_erase hi)])] at ht
    rw [Function.update_self] at ht
    linarith
  refine Set.Countable.mono hsub ?_
  refine Set.Countable.mono (s₂ := {Real.sqrt (c * d - r), -Real.sqrt (c * d - r)}) ?_ (Set.Finite.countable (by simp))
  intro t ht
  have ht : t ^ 2 = c * d - r := ht
  rw [← ht, Real.sqrt_sq_eq_abs]
  rcases abs_choice t with h | h <;> simp [h]

/-- Fisher's distribution with one degree of freedom in the numerator as a mixture. -/
theorem fisher_one (d : ℕ) (hd : 0 < d) (c : ℝ) (hc : 0 < c) :
    fisherLaw 1 d (Set.Ici c) = ENNReal.ofReal (∫ z, tail (c * ms d z) ∂(stdNormals (Fin d))) := by
  have hms : Measurable (ms d) := by unfold ms; fun_prop
  have hmp := measurePreserving_sumPiEquivProdPi (X := fun _ : Fin 1 ⊕ Fin d => ℝ) fun _ => gaussianReal 0 1
  have hS : MeasurableSet {p : (Fin 1 → ℝ) × (Fin d → ℝ) | c ≤ (∑ i, p.1 i ^ 2) / ms d p.2} :=
    measurableSet_le measurable_const (by fun_prop)
  have e : fisherLaw 1 d (Set.Ici c) = ((stdNormals (Fin 1)).prod (stdNormals (Fin d))) {p | c ≤ (∑ i, p.1 i ^ 2) / ms d p.2} := by
    unfold fisherLaw
    rw [Measure.map_apply (fisher_meas 1 d) measurableSet_Ici]
    unfold stdNormals
    rw [← hmp.measure_preimage hS.nullMeasurableSet]
    congr 1
    ext z
    simp [MeasurableEquiv.sumPiEquivProdPi, ms]
  rw [e, Measure.prod_apply_symm hS, ofReal_integral_eq_lintegral_ofReal]
  · refine lintegral_congr_ae ?_
    have hne : ∀ᵐ z ∂(stdNormals (Fin d)), ms d z ≠ 0 := by
      rw [ae_iff]; simpa using ms_not_one d hd 0
    filter_upwards [hne] with z hz
    have hpos : 0 < ms d z := lt_of_le_of_ne (by unfold ms; positivity) (Ne.symm hz)
    have hset : (fun x : Fin 1 → ℝ => (x, z)) ⁻¹' {p | c ≤ (∑ i, p.1 i ^ 2) / ms d p.2} =
        (fun x : Fin 1 → ℝ => ∑ i, x i ^ 2) ⁻¹' Set.Ici (c * ms d z) := by
      ext x
      simp only [Set.mem_preimage, Set.mem_ofPred_eq, Set.mem_Ici]
      rw [le_div_iff₀ hpos]
    have hm : Measurable fun z : Fin 1 → ℝ => ∑ i, z i ^ 2 := by fun_prop
    have h0 : chiSqLaw 1 {c * ms d z} = 0 := by
      unfold chiSqLaw
      rw [Measure.map_apply hm (measurableSet_singleton _)]
      have := ms_not_one 1 one_pos (c * ms d z)
      simp only [ms, Nat.cast_one, div_one] at this
      exact this
    rw [hset, ← Measure.map_apply hm measurableSet_Ici]
    change chiSqLaw 1 _ = _
    have hp : IsProbabilityMeasure (chiSqLaw 1) := by unfold chiSqLaw stdNormals; exact Measure.isProbabilityMeasure_map hm.aemeasurable
    have hu : chiSqLaw 1 (Set.Ici (c * ms d z)) = chiSqLaw 1 (Set.Ioi (c * ms d z)) := by
      refine le_antisymm ?_ (measure_mono Set.Ioi_subset_Ici_self)
      rw [← Set.Ioi_union_left]
      exact (measure_union_le _ _).trans (by rw [h0, add_zero])
    rw [hu, ← ofReal_measureReal]
    change ENNReal.ofReal (pChi 1 _) = _
    rw [chi_one _ (by positivity)]
    rfl
  · refine Integrable.of_bound (C := 1) ?_ (Filter.Eventually.of_forall fun z => ?_)
    · exact (tail_cont.measurable.comp (hms.const_mul c)).aestronglyMeasurable
    · rw [Real.norm_eq_abs, abs_of_nonneg (tail_bound _).1]; exact (tail_bound _).2
  · exact Filter.Eventually.of_forall fun z => (tail_bound _).1

/-- The p-value of the chi-squared distribution is too small for a statistic with Fisher's distribution. -/
theorem too_small (d : ℕ) (hd : 0 < d) (a : ℝ) (h0 : 0 < a) (h1 : a < 1) : ENNReal.ofReal a < fisherLaw 1 d {w | pChi 1 w ≤ a} := by
  obtain ⟨c, hc, hca, hset⟩ := region a h0 h1
  have hms : Measurable (ms d) := by unfold ms; fun_prop
  have hp : IsProbabilityMeasure (stdNormals (Fin d)) := by unfold stdNormals; infer_instance
  rw [hset, fisher_one d hd c hc, ENNReal.ofReal_lt_ofReal_iff_of_nonneg h0.le]
  have hconv : StrictConvexOn ℝ (Set.Ici 0) fun v => tail (c * v) := by
    refine ⟨convex_Ici 0, fun u hu v hv huv p q hp hq hpq => ?_⟩
    have hu : 0 ≤ u := hu
    have hv : 0 ≤ v := hv
    have := tail_convex.2 (show c * u ∈ Set.Ici (0 : ℝ) from mul_nonneg hc.le hu) (show c * v ∈ Set.Ici (0 : ℝ) from mul_nonneg hc.le hv)
      (fun h => huv (mul_left_cancel₀ hc.ne' h)) hp hq hpq
    simp only [smul_eq_mul] at this ⊢
    rwa [show c * (p * u + q * v) = p * (c * u) + q * (c * v) by ring]
  have hcont : Continuous fun v => tail (c * v) := by have := tail_cont; fun_prop
  have hint : Integrable ((fun v => tail (c * v)) ∘ ms d) (stdNormals (Fin d)) := by
    refine Integrable.of_bound (C := 1) ?_ (Filter.Eventually.of_forall fun z => ?_)
    · exact (tail_cont.measurable.comp (hms.const_mul c)).aestronglyMeasurable
    · rw [Function.comp, Real.norm_eq_abs, abs_of_nonneg (tail_bound _).1]; exact (tail_bound _).2
  rcases hconv.ae_eq_const_or_map_average_lt hcont.continuousOn isClosed_Ici
    (Filter.Eventually.of_forall fun z => show 0 ≤ ms d z by unfold ms; positivity) (ms_mean d hd).1 hint with h | h
  · exfalso
    have h2 := ms_not_one d hd (⨍ z, ms d z ∂(stdNormals (Fin d)))
    have h3 : stdNormals (Fin d) {z | ms d z = ⨍ z, ms d z ∂(stdNormals (Fin d))} = 1 := by
      have := prob_compl_eq_zero_iff (μ := stdNormals (Fin d)) (measurableSet_eq_fun hms (measurable_const (a := ⨍ z, ms d z ∂(stdNormals (Fin d)))))
      exact this.1 h
    rw [h2] at h3
    exact zero_ne_one h3
  · rw [average_eq_integral, average_eq_integral, (ms_mean d hd).2, mul_one, hca] at h
    exact h

variable {n : Type} [Fintype n] [DecidableEq n]

/-- **C179 (size).** Two regimes and a variable whose coefficient is the same in both: at every level `a` the reported p-value (chi-squared with
one degree of freedom) falls below `a` with probability strictly above `a`, for every design and error variance. -/
theorem C179_size_violated {kr kf nv : ℕ} (h0 : 0 < kr) (hnv : kr * 2 + kf = nv) (s : ℝ) (hs : 0 < s) (x : Matrix n (Fin nv) ℝ)
    (hu : IsUnit (xᵀ * x).det) (hk : nv < Fintype.card n) (beta : Fin nv → ℝ) (v : ℕ) (hv : v < kr) (hb : Stable beta kr 2 v)
    (a : ℝ) (ha : 0 < a) (ha1 : a < 1) :
    ENNReal.ofReal a < (Measure.pi fun _ : n => gaussianReal 0 s.toNNReal) {e | pChi 1 (single (olsChow kr kf 2 x (x *ᵥ beta + e)) v) ≤ a} := by
  have h := C179_single h0 le_rfl hnv s hs x hu hk beta v hv hb
  have hp : IsProbabilityMeasure (fisherLaw (2 - 1) (Fintype.card n - nv)) := by
    unfold fisherLaw stdNormals; exact Measure.isProbabilityMeasure_map (fisher_meas _ _).aemeasurable
  obtain ⟨c, -, -, hset⟩ := region a ha ha1
  have := of_law _ _ _ h {w | pChi 1 w ≤ a} (by rw [hset]; exact measurableSet_Ici)
  simp only [Nat.add_one_sub_one, Nat.cast_one, div_one] at this
  change _ < _
  refine lt_of_lt_of_eq (too_small (Fintype.card n - nv) (by omega) a ha ha1) this.symm

/-- Two regimes with two observations each and a constant for each. -/
def x22 : Matrix (Fin 4) (Fin 2) ℝ := !![1, 0; 1, 0; 0, 1; 0, 1]

/-- The hypotheses are met: two regimes with the same mean. The Chow test of the constant is computed with probability one, its statistic has Fisher's
distribution with 1 and 2 degrees of freedom, and at five percent it rejects with probability above 1/20. -/
theorem C179_example (s : ℝ) (hs : 0 < s) (m : ℝ) :
    (∀ᵐ e ∂(Measure.pi fun _ : Fin 4 => gaussianReal 0 s.toNNReal), ∃ res, olsChow 1 0 2 x22 ((fun _ => m) + e) = .ok res ∧ res.regi.length = 1) ∧
    (Measure.pi fun _ : Fin 4 => gaussianReal 0 s.toNNReal).map (fun e => single (olsChow 1 0 2 x22 ((fun _ => m) + e)) 0 / (1 : ℕ)) = fisherLaw 1 2 ∧
    ENNReal.ofReal (1 / 20) < (Measure.pi fun _ : Fin 4 => gaussianReal 0 s.toNNReal)
      {e | pChi 1 (single (olsChow 1 0 2 x22 ((fun _ => m) + e)) 0) ≤ 1 / 20} := by
  have hu : IsUnit (x22ᵀ * x22).det := by
    rw [show x22ᵀ * x22 = !![2, 0; 0, 2] by
      ext i j; fin_cases i <;> fin_cases j <;> simp [x22, mul_apply, Fin.sum_univ_four] <;> norm_num, det_fin_two_of]
    norm_num
  have hm : (fun _ : Fin 4 => m) = x22 *ᵥ ![m, m] := by
    funext i; fin_cases i <;> simp [x22, mulVec, dotProduct, Fin.sum_univ_two]
  have hb : Stable (![m, m] : Fin 2 → ℝ) 1 2 0 := by
    intro g _ g' _ p q _ _
    fin_cases p <;> fin_cases q <;> rfl
  have hk : 2 < Fintype.card (Fin 4) := by rw [Fintype.card_fin]; norm_num
  have hnv : 1 * 2 + 0 = 2 := rfl
  rw [hm]
  have h1 := C179_computed (kr := 1) (kf := 0) (nr := 2) (nv := 2) one_pos le_rfl hnv s hs x22 hu hk ![m, m]
  have h2 := C179_single (kr := 1) (kf := 0) (nr := 2) (nv := 2) one_pos le_rfl hnv s hs x22 hu hk ![m, m] 0 one_pos hb
  have h3 := C179_size_violated (kr := 1) (kf := 0) (nv := 2) one_pos hnv s hs x22 hu hk ![m, m] 0 one_pos hb (1 / 20) (by norm_num) (by norm_num)
  refine ⟨h1, ?_, h3⟩
  rw [Fintype.card_fin] at h2
  exact h2

end Spreg.OLSChow
