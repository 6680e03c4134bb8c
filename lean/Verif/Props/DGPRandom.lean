import Verif.Model.DGPRandom
import Mathlib.MeasureTheory.Integral.Gamma
import Mathlib.Probability.Moments.Covariance
namespace Spreg.DGPRandom
open Matrix MeasureTheory ProbabilityTheory Spreg

/-- The distribution `P` of a number has mean `m` and variance `v`. -/
structure HasMoments (P : Measure ℝ) (m v : ℝ) : Prop where
  prob : IsProbabilityMeasure P
  sq : MemLp id 2 P
  mean : ∫ x, x ∂P = m
  var : Var[id; P] = v

theorem normal_moments (loc scale : ℝ) : HasMoments (npNormal loc scale) loc (scale ^ 2) where
  prob := instIsProbabilityMeasureGaussianReal _ _
  sq := memLp_id_gaussianReal 2
  mean := integral_id_gaussianReal
  var := variance_id_gaussianReal.trans (Real.coe_toNNReal _ (sq_nonneg _))

theorem dirac_moments (a : ℝ) : HasMoments (Measure.dirac a) a 0 where
  prob := inferInstance
  sq := (memLp_const a).ae_eq (by rw [Filter.EventuallyEq, ae_dirac_eq]; rfl)
  mean := integral_dirac _ _
  var := by simp [variance_dirac]

theorem moments_of_integrals {P : Measure ℝ} [IsProbabilityMeasure P] {m s : ℝ} (h2 : Integrable (fun x => x ^ 2) P)
    (hm : ∫ x, x ∂P = m) (hs : ∫ x, x ^ 2 ∂P = s) : HasMoments P m (s - m ^ 2) where
  prob := inferInstance
  sq := (memLp_two_iff_integrable_sq measurable_id.aestronglyMeasurable).2 h2
  mean := hm
  var := by
    rw [variance_eq_sub ((memLp_two_iff_integrable_sq measurable_id.aestronglyMeasurable).2 h2)]
    simp only [id, Pi.pow_apply]
    rw [hm, hs]

theorem uniform_moments (h : ℝ) (hh : 0 ≤ h) : HasMoments (npUniform 0 h) (h / 2) (h ^ 2 / 12) := by
  rw [npUniform]
  split
  · rename_i h0
    rw [← h0]
    simpa using dirac_moments 0
  · rename_i h0
    have hp : 0 < h := lt_of_le_of_ne hh h0
    have hP : IsProbabilityMeasure ((ENNReal.ofReal (h - 0))⁻¹ • volume.restrict (Set.Ico (0:ℝ) h)) := by
      constructor
      rw [Measure.smul_apply, Measure.restrict_apply MeasurableSet.univ, Set.univ_inter, Real.volume_Ico, smul_eq_mul]
      exact ENNReal.inv_mul_cancel (by simpa using hp) ENNReal.ofReal_ne_top
    have hi : ∀ k : ℕ, ∫ x in Set.Ico (0:ℝ) h, x ^ k = h ^ (k + 1) / (k + 1) := by
      intro k
      rw [integral_Ico_eq_integral_Ioo, ← integral_Ioc_eq_integral_Ioo, ← intervalIntegral.integral_of_le hh, integral_pow]
      simp
    have hc : ∀ k : ℕ, ∫ x, x ^ k ∂((ENNReal.ofReal (h - 0))⁻¹ • volume.restrict (Set.Ico (0:ℝ) h)) = h ^ k / (k + 1) := by
      intro k
      rw [integral_smul_measure, hi]
      rw [sub_zero, ENNReal.toReal_inv, ENNReal.toReal_ofReal hh, smul_eq_mul]
      field_simp
      ring
    have := moments_of_integrals (P := (ENNReal.ofReal (h - 0))⁻¹ • volume.restrict (Set.Ico (0:ℝ) h)) (m := h / 2) (s := h ^ 2 / 3) ?_ ?_ ?_
    · convert this using 1
      ring
    · refine Integrable.smul_measure ?_ (ENNReal.inv_ne_top.2 (by simpa using hp))
      refine (ContinuousOn.integrableOn_Icc (continuous_pow 2).continuousOn).mono_set Set.Ico_subset_Icc_self
    · have := hc 1
      simp only [pow_one] at this
      rw [this]; norm_num
    · rw [hc 2]; norm_num

theorem laplace_integrals (b : ℝ) (hb : 0 < b) :
    (∫ t : ℝ, Real.exp (-|t| / b)) = 2 * b ∧ (∫ t : ℝ, Real.exp (-|t| / b) * t ^ 2) = 4 * b ^ 3 := by
  have h0 : ∫ t in Set.Ioi (0:ℝ), Real.exp (-t / b) = b := by
    have := Real.integral_rpow_mul_exp_neg_mul_Ioi (a := 1) (r := 1 / b) one_pos (by positivity)
    simp only [sub_self, Real.rpow_zero, one_mul, Real.Gamma_one, Real.rpow_one, mul_one, one_div_one_div] at this
    refine Eq.trans ?_ this
    refine setIntegral_congr_fun measurableSet_Ioi fun t _ => ?_
    show Real.exp (-t / b) = Real.exp (-(1 / b * t))
    congr 1; ring
  have h2 : ∫ t in Set.Ioi (0:ℝ), Real.exp (-t / b) * t ^ 2 = 2 * b ^ 3 := by
    have := Real.integral_rpow_mul_exp_neg_mul_Ioi (a := 3) (r := 1 / b) (by norm_num) (by positivity)
    rw [one_div_one_div, show (3:ℝ) = ((2 : ℕ) : ℝ) + 1 by norm_num, Real.Gamma_nat_eq_factorial] at this
    have e : (b : ℝ) ^ (((2 : ℕ) : ℝ) + 1) = b ^ 3 := by
      rw [show ((2 : ℕ) : ℝ) + 1 = ((3 : ℕ) : ℝ) by norm_num, Real.rpow_natCast]
    rw [e] at this
    have h6 : ((Nat.factorial 2 : ℕ) : ℝ) = 2 := by norm_num [Nat.factorial]
    rw [h6, mul_comm] at this
    rw [← this]
    refine setIntegral_congr_fun measurableSet_Ioi fun t _ => ?_
    show Real.exp (-t / b) * t ^ 2 = t ^ (((2 : ℕ) : ℝ) + 1 - 1) * Real.exp (-(1 / b * t))
    rw [show ((2 : ℕ) : ℝ) + 1 - 1 = ((2 : ℕ) : ℝ) by ring, Real.rpow_natCast, mul_comm]
    congr 2; ring
  constructor
  · rw [integral_comp_abs (f := fun t => Real.exp (-t / b)), h0]
  · have : (fun t : ℝ => Real.exp (-|t| / b) * t ^ 2) = fun t => (fun s => Real.exp (-s / b) * s ^ 2) |t| := by
      funext t; simp only [sq_abs]
    rw [this, integral_comp_abs (f := fun t => Real.exp (-t / b) * t ^ 2), h2]; ring

theorem laplace_moments (loc b : ℝ) (hb : 0 ≤ b) : HasMoments (npLaplace loc b) loc (2 * b ^ 2) := by
  rw [npLaplace]
  split
  · rename_i h0
    rw [h0]
    simpa using dirac_moments loc
  · rename_i h0
    have hp : 0 < b := lt_of_le_of_ne hb (Ne.symm h0)
    obtain ⟨i0, i2⟩ := laplace_integrals b hp
    have n0 : Integrable (fun t : ℝ => Real.exp (-|t| / b)) := by
      by_contra h
      rw [integral_undef h] at i0
      linarith
    have n2 : Integrable (fun t : ℝ => Real.exp (-|t| / b) * t ^ 2) := by
      by_contra h
      rw [integral_undef h] at i2
      have : 0 < b ^ 3 := by positivity
      linarith
    set g : ℝ → ℝ := fun x => Real.exp (-|x - loc| / b) / (2 * b) with hg
    have gm : Measurable g := by fun_prop
    have g0 : ∀ x, 0 ≤ g x := fun x => by positivity
    have gi : Integrable g := (n0.comp_sub_right loc).div_const _
    have gI : ∫ x, g x = 1 := by
      rw [hg, integral_div, integral_sub_right_eq_self (fun t => Real.exp (-|t| / b)), i0]
      exact div_self (by positivity)
    have hP : IsProbabilityMeasure (volume.withDensity fun x => ENNReal.ofReal (g x)) := by
      constructor
      rw [withDensity_apply _ MeasurableSet.univ, Measure.restrict_univ, ← ofReal_integral_eq_lintegral_ofReal gi
        (Filter.Eventually.of_forall g0), gI, ENNReal.ofReal_one]
    have int : ∀ f : ℝ → ℝ, ∫ x, f x ∂(volume.withDensity fun x => ENNReal.ofReal (g x)) = ∫ x, g x * f x := by
      intro f
      rw [integral_withDensity_eq_integral_toReal_smul (by fun_prop) (Filter.Eventually.of_forall fun _ => ENNReal.ofReal_lt_top)]
      refine integral_congr_ae (Filter.Eventually.of_forall fun x => ?_)
      simp only [ENNReal.toReal_ofReal (g0 x), smul_eq_mul]
    have itg : ∀ f : ℝ → ℝ, Integrable (fun x => g x * f x) → Integrable f (volume.withDensity fun x => ENNReal.ofReal (g x)) := by
      intro f hf
      rw [integrable_withDensity_iff_integrable_smul' (by fun_prop) (Filter.Eventually.of_forall fun _ => ENNReal.ofReal_lt_top)]
      refine hf.congr (Filter.Eventually.of_forall fun x => ?_)
      simp only [ENNReal.toReal_ofReal (g0 x), smul_eq_mul]
    have c2 : Integrable (fun x => (x - loc) ^ 2) (volume.withDensity fun x => ENNReal.ofReal (g x)) := by
      refine itg _ (((n2.comp_sub_right loc).div_const (2 * b)).congr (Filter.Eventually.of_forall fun x => ?_))
      simp only [hg]; ring
    have m2 : MemLp (fun x => x - loc) 2 (volume.withDensity fun x => ENNReal.ofReal (g x)) :=
      (memLp_two_iff_integrable_sq (by fun_prop)).2 c2
    have mid : MemLp id 2 (volume.withDensity fun x => ENNReal.ofReal (g x)) := by
      have := m2.add (memLp_const loc)
      refine this.ae_eq (Filter.Eventually.of_forall fun x => ?_)
      simp
    have mean : ∫ x, x ∂(volume.withDensity fun x => ENNReal.ofReal (g x)) = loc := by
      have z : ∫ x, (x - loc) ∂(volume.withDensity fun x => ENNReal.ofReal (g x)) = 0 := by
        rw [int]
        have : (fun x => g x * (x - loc)) = fun x => (fun t => Real.exp (-|t| / b) / (2 * b) * t) (x - loc) := rfl
        rw [this, integral_sub_right_eq_self (fun t => Real.exp (-|t| / b) / (2 * b) * t)]
        have := integral_neg_eq_self (fun t => Real.exp (-|t| / b) / (2 * b) * t) volume
        simp only [abs_neg, mul_neg, integral_neg] at this
        linarith
      rw [integral_sub (f := fun x : ℝ => x) (mid.integrable (by norm_num)) (integrable_const _)] at z
      simp at z
      linarith
    refine ⟨hP, mid, mean, ?_⟩
    rw [variance_eq_integral mid.aemeasurable]
    simp only [id]
    rw [mean, int]
    have : (fun x => g x * (x - loc) ^ 2) = fun x => (fun t => Real.exp (-|t| / b) * t ^ 2 / (2 * b)) (x - loc) := by
      funext x; simp only [hg]; ring
    rw [this, integral_sub_right_eq_self (fun t => Real.exp (-|t| / b) * t ^ 2 / (2 * b)), integral_div, i2]
    field_simp
    ring

/-- Mean of the lognormal. -/
theorem lognormal_mean (m s : ℝ) : ∫ x, x ∂(npLognormal m s) = Real.exp (m + s ^ 2 / 2) := by
  rw [npLognormal, integral_map Real.measurable_exp.aemeasurable (by fun_prop)]
  have := congrFun (mgf_id_gaussianReal (μ := m) (v := (s ^ 2).toNNReal)) 1
  simp only [mgf, id, one_mul, mul_one, one_pow, Real.coe_toNNReal _ (sq_nonneg s)] at this
  exact this

/-- `P` is the distribution of independent numbers with the given means and variances. -/
structure Sample {ι : Type} [Fintype ι] [DecidableEq ι] (P : Measure (ι → ℝ)) (m v : ι → ℝ) : Prop where
  prob : IsProbabilityMeasure P
  sq : ∀ i, MemLp (fun u => u i) 2 P
  mean : ∀ i, ∫ u, u i ∂P = m i
  cov : ∀ i j, cov[fun u => u i, fun u => u j; P] = if i = j then v i else 0
  indep : iIndepFun (fun i u => u i) P

theorem pi_sample {ι : Type} [Fintype ι] [DecidableEq ι] {P : ι → Measure ℝ} {m v : ι → ℝ} (h : ∀ i, HasMoments (P i) (m i) (v i)) :
    Sample (Measure.pi P) m v := by
  have := fun i => (h i).prob
  have hi : iIndepFun (fun i (u : ι → ℝ) => u i) (Measure.pi P) :=
    iIndepFun_pi (μ := P) (X := fun _ => id) fun i => aemeasurable_id
  have hs : ∀ i, MemLp (fun u : ι → ℝ => u i) 2 (Measure.pi P) :=
    fun i => (h i).sq.comp_measurePreserving (measurePreserving_eval P i)
  refine ⟨inferInstance, hs, fun i => ?_, fun i j => ?_, hi⟩
  · rw [← (h i).mean]
    exact integral_comp_eval (μ := P) (f := id) (h i).sq.aestronglyMeasurable
  · split
    · rename_i e
      subst e
      rw [covariance_self (hs i).aemeasurable, ← (h i).var]
      have e := (measurePreserving_eval P i).map_eq
      have e2 := variance_map (X := id) (Y := fun u : ι → ℝ => u i) (μ := Measure.pi P) (by fun_prop)
        (measurable_pi_apply i).aemeasurable
      rw [show (Measure.pi P).map (fun u => u i) = P i from e] at e2
      exact e2.symm
    · rename_i e
      exact (hi.indepFun e).covariance_eq_zero (hs i) (hs j)

/-- **C165.** `make_error` with the normal or the Laplace distribution: independent errors with the requested mean and variance; a
negative variance raises ValueError. -/
theorem C165_error (n : ℕ) (mu varu : ℝ) (method : String) (hm : method = "normal" ∨ method = "laplace") :
    (0 ≤ varu → ∃ P, makeError n mu varu method = .ok (some P) ∧ Sample P (fun _ => mu) (fun _ => varu)) ∧
    (varu < 0 → makeError n mu varu method = .error .valueError) := by
  have hs : ∀ v : ℝ, 0 ≤ v → msqrt v = .ok (Real.sqrt v) := fun v hv => if_neg (not_lt.2 hv)
  have hs' : ∀ v : ℝ, v < 0 → msqrt v = .error .valueError := fun v hv => if_pos hv
  refine ⟨fun hv => ?_, fun hv => ?_⟩
  · rcases hm with rfl | rfl
    · refine ⟨Measure.pi fun _ => npNormal mu (Real.sqrt varu), ?_, ?_⟩
      · simp only [makeError, errorLaw, if_true, hs varu hv, bind, Except.bind]
        rfl
      · refine pi_sample fun i => ?_
        have := normal_moments mu (Real.sqrt varu)
        rwa [Real.sq_sqrt hv] at this
    · refine ⟨Measure.pi fun _ => npLaplace mu (Real.sqrt (varu / 2)), ?_, ?_⟩
      · simp only [makeError, errorLaw, if_neg (show ¬ ("laplace" = "normal") by decide), if_true, hs (varu / 2) (by linarith), bind, Except.bind]
        rfl
      · refine pi_sample fun i => ?_
        have := laplace_moments mu (Real.sqrt (varu / 2)) (Real.sqrt_nonneg _)
        rwa [Real.sq_sqrt (by linarith), mul_div_cancel₀ _ (two_ne_zero)] at this
  · rcases hm with rfl | rfl
    · simp only [makeError, errorLaw, if_true, hs' varu hv, bind, Except.bind]
    · simp only [makeError, errorLaw, if_neg (show ¬ ("laplace" = "normal") by decide), if_true, hs' (varu / 2) (by linarith), bind, Except.bind]

/-- **C165 is violated by the lognormal distribution**: whatever mean is requested, another, larger one is obtained. -/
theorem C165_lognormal_violated (n : ℕ) (mu varu : ℝ) (hv : 0 ≤ varu) :
    ∃ P, makeError n mu varu "lognormal" = .ok (some P) ∧ ∀ i, ∫ u, u i ∂P = Real.exp (mu + varu / 2) ∧ mu < ∫ u, u i ∂P := by
  refine ⟨Measure.pi fun _ => npLognormal mu (Real.sqrt varu), ?_, fun i => ?_⟩
  · have hs : msqrt varu = .ok (Real.sqrt varu) := if_neg (not_lt.2 hv)
    simp only [makeError, errorLaw, if_neg (show ¬ ("lognormal" = "normal") by decide), if_neg (show ¬ ("lognormal" = "laplace") by decide),
      if_neg (show ¬ ("lognormal" = "cauchy") by decide), if_true, hs, bind, Except.bind]
    rfl
  · have : IsProbabilityMeasure (npLognormal mu (Real.sqrt varu)) := by
      have := (normal_moments mu (Real.sqrt varu)).prob
      exact Measure.isProbabilityMeasure_map Real.measurable_exp.aemeasurable
    have e : ∫ u, u i ∂(Measure.pi fun _ : Fin n => npLognormal mu (Real.sqrt varu)) = Real.exp (mu + varu / 2) := by
      have h1 := integral_comp_eval (μ := fun _ : Fin n => npLognormal mu (Real.sqrt varu)) (i := i) (f := id)
        measurable_id.aestronglyMeasurable
      have h2 := lognormal_mean mu (Real.sqrt varu)
      rw [Real.sq_sqrt hv] at h2
      exact h1.trans h2
    refine ⟨e, ?_⟩
    rw [e]
    have := Real.add_one_le_exp (mu + varu / 2)
    linarith

/-- A random array of `n` rows: `m j` and `v j` are mean and variance of the entries of column `j`, and different entries are
uncorrelated. -/
structure SampleX {n k : ℕ} (P : Measure (Fin n → Fin k → ℝ)) (m v : Fin k → ℝ) : Prop where
  mean : ∀ i j, ∫ x, x i j ∂P = m j
  cov : ∀ i j i' j', cov[fun x => x i j, fun x => x i' j'; P] = if i = i' ∧ j = j' then v j else 0

theorem pi_pi_sample {n k : ℕ} {P : Fin k → Measure ℝ} {m v : Fin k → ℝ} (h : ∀ j, HasMoments (P j) (m j) (v j)) :
    SampleX (Measure.pi fun _ : Fin n => Measure.pi P) m v := by
  have hr := pi_sample h
  have := hr.prob
  have hs : ∀ i j, MemLp (fun x : Fin n → Fin k → ℝ => x i j) 2 (Measure.pi fun _ : Fin n => Measure.pi P) :=
    fun i j => (hr.sq j).comp_measurePreserving (measurePreserving_eval (fun _ : Fin n => Measure.pi P) i)
  refine ⟨fun i j => ?_, fun i j i' j' => ?_⟩
  · rw [← hr.mean j]
    exact integral_comp_eval (μ := fun _ : Fin n => Measure.pi P) (i := i) (f := fun u => u j) (hr.sq j).aestronglyMeasurable
  · by_cases e : i = i'
    · subst e
      have e := (measurePreserving_eval (fun _ : Fin n => Measure.pi P) i).map_eq
      have e2 := covariance_map_fun (X := fun u : Fin k → ℝ => u j) (Y := fun u => u j') (Z := fun x : Fin n → Fin k → ℝ => x i)
        (μ := Measure.pi fun _ : Fin n => Measure.pi P) (measurable_pi_apply j).aestronglyMeasurable
        (measurable_pi_apply j').aestronglyMeasurable (measurable_pi_apply i).aemeasurable
      rw [show (Measure.pi fun _ : Fin n => Measure.pi P).map (fun x => x i) = Measure.pi P from e, hr.cov] at e2
      rw [← e2]
      simp only [true_and]
    · rw [if_neg fun h => e h.1]
      have hi : iIndepFun (fun i (x : Fin n → Fin k → ℝ) => x i) (Measure.pi fun _ : Fin n => Measure.pi P) :=
        iIndepFun_pi (μ := fun _ : Fin n => Measure.pi P) (X := fun _ => id) fun i => aemeasurable_id
      exact ((hi.indepFun e).comp (measurable_pi_apply j) (measurable_pi_apply j')).covariance_eq_zero (hs i j) (hs i' j')

/-- The law of one column when the variance is not negative. -/
theorem makeX_ok (n : ℕ) (mu varu : List ℝ) (method : String) (hl : mu.length = varu.length) (law : ℝ → ℝ → Measure ℝ)
    (hc : ∀ a b, 0 ≤ b → colLaw a b method = .ok (law a b)) (hv : ∀ b ∈ varu, 0 ≤ b) :
    makeX n mu varu method = .ok (some (Measure.pi fun _ => Measure.pi fun j : Fin mu.length =>
      law (mu.getD j 0) (varu.getD j 0))) := by
  have hm : ∀ l : List (ℝ × ℝ), (∀ c ∈ l, 0 ≤ c.2) → l.mapM (fun c => colLaw c.1 c.2 method) = .ok (l.map fun c => law c.1 c.2) := by
    intro l
    induction l with
    | nil => intro _; rfl
    | cons c r ih =>
      intro h
      rw [List.mapM_cons, hc _ _ (h c List.mem_cons_self), ih fun d hd => h d (List.mem_cons_of_mem _ hd)]
      rfl
  have hz : ∀ c ∈ mu.zip varu, 0 ≤ c.2 := fun c h => hv _ (List.of_mem_zip h).2
  rw [makeX, if_pos hl, hm _ hz]
  refine congrArg (fun P : Fin mu.length → Measure ℝ => Except.ok (some (Measure.pi fun _ : Fin n => Measure.pi P))) (funext fun j => ?_)
  have h1 : j.1 < mu.length := j.2
  have h2 : j.1 < varu.length := hl ▸ j.2
  simp [List.getD_eq_getElem?_getD, h1, h2]

/-- **C165.** `make_x` with the normal distribution. -/
theorem C165_x_normal (n : ℕ) (mu varu : List ℝ) (hl : mu.length = varu.length) (hv : ∀ b ∈ varu, 0 ≤ b) :
    ∃ P, makeX n mu varu "normal" = .ok (some P) ∧ SampleX P (fun j => mu.getD j 0) (fun j => varu.getD j 0) := by
  refine ⟨_, makeX_ok n mu varu "normal" hl (fun a b => npNormal a (Real.sqrt b)) (fun a b hb => ?_) hv, pi_pi_sample fun j => ?_⟩
  · rw [colLaw, if_neg (by decide), msqrt, if_neg (not_lt.2 hb)]
    rfl
  · have h2 : j.1 < varu.length := hl ▸ j.2
    have hb : 0 ≤ varu.getD j 0 := by
      rw [List.getD_eq_getElem?_getD, List.getElem?_eq_getElem h2]
      exact hv _ (List.getElem_mem _)
    have := normal_moments (mu.getD j 0) (Real.sqrt (varu.getD j 0))
    rwa [Real.sq_sqrt hb] at this

/-- **C165, partial.** `make_x` with the uniform distribution: the variances are the requested ones, the means are the square roots of
three times the variances. -/
theorem C165_x_uniform_partial (n : ℕ) (mu varu : List ℝ) (hl : mu.length = varu.length) (hv : ∀ b ∈ varu, 0 ≤ b) :
    ∃ P, makeX n mu varu "uniform" = .ok (some P) ∧
      SampleX P (fun j => Real.sqrt (3 * varu.getD j 0)) (fun j => varu.getD j 0) := by
  refine ⟨_, makeX_ok n mu varu "uniform" hl (fun a b => npUniform 0 (Real.sqrt (12 * b))) (fun a b hb => ?_) hv,
    pi_pi_sample fun j => ?_⟩
  · rw [colLaw, if_pos rfl, msqrt, if_neg (not_lt.2 (by linarith))]
    rfl
  · have h2 : j.1 < varu.length := hl ▸ j.2
    have hb : 0 ≤ varu.getD j 0 := by
      rw [List.getD_eq_getElem?_getD, List.getElem?_eq_getElem h2]
      exact hv _ (List.getElem_mem _)
    have := uniform_moments (Real.sqrt (12 * varu.getD j 0)) (Real.sqrt_nonneg _)
    rw [Real.sq_sqrt (by linarith)] at this
    have e : Real.sqrt (12 * varu.getD j 0) / 2 = Real.sqrt (3 * varu.getD j 0) := by
      rw [show 12 * varu.getD j 0 = 2 ^ 2 * (3 * varu.getD j 0) by ring, Real.sqrt_mul (by norm_num), Real.sqrt_sq (by norm_num)]
      ring
    rw [e, mul_div_cancel_left₀ _ (by norm_num : (12 : ℝ) ≠ 0)] at this
    exact this

/-- **C165 is violated by the default of `make_x`**: for a positive variance the mean is not the requested one unless it happens to be
the square root of three times the variance; the documented call with `mu=[0,1]`, `varu=[1,4]` gives two other means. -/
theorem C165_x_violated : ∃ P, makeX 5 [0, 1] [1, 4] "uniform" = .ok (some P) ∧
    (∀ i, ∫ x, x i 0 ∂P ≠ 0) ∧ (∀ i, ∫ x, x i 1 ∂P ≠ 1) := by
  obtain ⟨P, hP, hs⟩ := C165_x_uniform_partial 5 [0, 1] [1, 4] rfl (by simp)
  refine ⟨P, hP, fun i h => ?_, fun i h => ?_⟩
  · rw [hs.mean i 0] at h
    have : Real.sqrt (3 * 1) = 0 := h
    rw [Real.sqrt_eq_zero'] at this
    linarith
  · rw [hs.mean i 1] at h
    have : Real.sqrt (3 * 4) = 1 := h
    rw [Real.sqrt_eq_one] at this
    linarith

/-- **C165.** `make_x` with the bivariate normal distribution: means, variances and correlation are the requested ones. -/
theorem C165_x_biv (n : ℕ) (m0 m1 v0 v1 cor : ℝ) (h0 : 0 ≤ v0) (h1 : 0 ≤ v1) (hc : |cor| ≤ 1) :
    ∃ P, makeXBiv n [m0, m1] [v0, v1] cor = .ok (some P) ∧
      (∀ i, ∫ x, x i 0 ∂P = m0 ∧ ∫ x, x i 1 ∂P = m1) ∧
      (∀ i, Var[fun x => x i 0; P] = v0 ∧ Var[fun x => x i 1; P] = v1) ∧
      (∀ i, cov[fun x => x i 0, fun x => x i 1; P] = cor * (Real.sqrt v0 * Real.sqrt v1)) := by
  have hs : msqrt (v0 * v1) = .ok (Real.sqrt (v0 * v1)) := if_neg (not_lt.2 (mul_nonneg h0 h1))
  set s := Real.sqrt (v0 * v1) with hsd
  set S : Matrix (Fin 2) (Fin 2) ℝ := !![v0, cor * s; cor * s, v1] with hS
  have hss : s ^ 2 = v0 * v1 := Real.sq_sqrt (mul_nonneg h0 h1)
  have hpsd : S.PosSemidef := by
    refine PosSemidef.of_dotProduct_mulVec_nonneg ?_ fun x => ?_
    · rw [hS]
      ext a b
      fin_cases a <;> fin_cases b <;> simp [conjTranspose_apply]
    · have h2 : (star x ⬝ᵥ S *ᵥ x) = v0 * x 0 ^ 2 + 2 * (cor * s) * (x 0 * x 1) + v1 * x 1 ^ 2 := by
        simp [hS, dotProduct, mulVec, Fin.sum_univ_two]
        ring
      rw [h2]
      have hc2 : cor ^ 2 ≤ 1 := (sq_le_one_iff_abs_le_one cor).2 hc
      have e1 : v0 * (v0 * x 0 ^ 2 + 2 * (cor * s) * (x 0 * x 1) + v1 * x 1 ^ 2) =
          (v0 * x 0 + cor * s * x 1) ^ 2 + (1 - cor ^ 2) * s ^ 2 * x 1 ^ 2 + (v0 * v1 - s ^ 2) * x 1 ^ 2 := by ring
      rw [hss] at e1
      rcases h0.eq_or_lt with h | h
      · have hz : s = 0 := by rw [hsd, ← h]; simp
        rw [← h, hz]
        have := mul_nonneg h1 (sq_nonneg (x 1))
        linarith
      · refine nonneg_of_mul_nonneg_right (a := v0) ?_ h
        rw [e1]
        have := mul_nonneg (mul_nonneg (sub_nonneg.2 hc2) (mul_nonneg h0 h1)) (sq_nonneg (x 1))
        have := sq_nonneg (v0 * x 0 + cor * s * x 1)
        linarith
  set G := multivariateGaussian (WithLp.toLp 2 ![m0, m1]) S with hG
  have hmp : ∀ i, (Measure.pi fun _ : Fin n => G).map (fun x => x i) = G := fun i =>
    (measurePreserving_eval (fun _ : Fin n => G) i).map_eq
  have hint : Integrable (fun x : EuclideanSpace ℝ (Fin 2) => x) G := IsGaussian.integrable_id
  have hmean : ∀ j, ∫ x : EuclideanSpace ℝ (Fin 2), x j ∂G = ![m0, m1] j := by
    intro j
    have h := ContinuousLinearMap.integral_comp_comm (EuclideanSpace.proj j : EuclideanSpace ℝ (Fin 2) →L[ℝ] ℝ) hint
    rw [hG, integral_id_multivariateGaussian] at h
    exact h
  have hmean' : ∀ i j, ∫ x, x i j ∂(Measure.pi fun _ : Fin n => G) = ![m0, m1] j := by
    intro i j
    rw [← hmean j]
    exact integral_comp_eval (μ := fun _ : Fin n => G) (i := i) (f := fun u : EuclideanSpace ℝ (Fin 2) => u j) (by fun_prop)
  have hcov : ∀ i j j', cov[fun x => x i j, fun x => x i j'; Measure.pi fun _ : Fin n => G] = S j j' := by
    intro i j j'
    have e2 := covariance_map_fun (X := fun u : EuclideanSpace ℝ (Fin 2) => u j) (Y := fun u => u j')
      (Z := fun x : Fin n → EuclideanSpace ℝ (Fin 2) => x i)
      (μ := Measure.pi fun _ : Fin n => G) (by fun_prop) (by fun_prop) (measurable_pi_apply i).aemeasurable
    rw [hmp, hG, covariance_eval_multivariateGaussian hpsd] at e2
    exact e2.symm
  have hvar : ∀ i j, Var[fun x => x i j; Measure.pi fun _ : Fin n => G] = S j j := by
    intro i j
    rw [← hcov i j j, covariance_self]
    exact Measurable.aemeasurable (by fun_prop)
  refine ⟨Measure.pi fun _ => G, ?_, fun i => ⟨hmean' i 0, hmean' i 1⟩, fun i => ⟨hvar i 0, hvar i 1⟩, fun i => ?_⟩
  · simp only [makeXBiv, biCov, hs, bind, Except.bind]
    rfl
  · rw [hcov i 0 1, hS, ← Real.sqrt_mul h0]
    rfl

end Spreg.DGPRandom
