import Verif.Props.Exact
import Verif.Model.PValues
import Mathlib.MeasureTheory.Integral.Marginal
import Mathlib.Probability.CDF
/-
The p-values of OLS's t and F tests are uniform under normal errors and the null hypothesis (C174, continued).
-/
set_option linter.unusedSectionVars false
namespace Spreg.Exact
open Matrix Spreg.Diag MeasureTheory ProbabilityTheory Spreg Spreg.Lin Spreg.LM Spreg.Sampling

/-- The tail probability of a law without atoms, taken at a draw from it, is uniform. -/
theorem tail_uniform (μ : Measure ℝ) [IsProbabilityMeasure μ] [NullSingletonClass μ] (a : ℝ) (h0 : 0 < a) (h1 : a < 1) :
    μ {x | μ.real (Set.Ioi x) ≤ a} = ENNReal.ofReal a := by
  have hcont : Continuous (cdf μ) := by
    rw [continuous_iff_continuousAt]
    intro x
    rw [(monotone_cdf μ).continuousAt_iff_leftLim_eq_rightLim, StieltjesFunction.rightLim_eq]
    have hx : (cdf μ).measure {x} = 0 := by rw [measure_cdf]; exact measure_singleton x
    rw [StieltjesFunction.measure_singleton, ENNReal.ofReal_eq_zero] at hx
    have := (monotone_cdf μ).leftLim_le (le_refl x)
    linarith
  have htail : ∀ x, μ.real (Set.Ioi x) = 1 - cdf μ x := by
    intro x
    rw [cdf_eq_real, ← Set.compl_Iic, probReal_compl_eq_one_sub measurableSet_Iic]
  set S := {x | 1 - a ≤ cdf μ x} with hS
  have hSe : {x | μ.real (Set.Ioi x) ≤ a} = S := by
    ext x; simp only [Set.mem_ofPred_eq, hS, htail]; constructor <;> intro h <;> linarith
  rw [hSe]
  have hcl : IsClosed S := isClosed_le continuous_const hcont
  obtain ⟨d, hd⟩ : ∃ d, cdf μ d = 1 - a := by
    have hl := (tendsto_cdf_atBot μ).eventually (gt_mem_nhds (show (0 : ℝ) < 1 - a by linarith))
    have hr := (tendsto_cdf_atTop μ).eventually (lt_mem_nhds (show 1 - a < (1 : ℝ) by linarith))
    obtain ⟨p, hp⟩ := hl.exists
    obtain ⟨q, hq⟩ := hr.exists
    obtain ⟨d, hd⟩ := mem_range_of_exists_le_of_exists_ge hcont ⟨p, hp.le⟩ ⟨q, hq.le⟩
    exact ⟨d, hd⟩
  have hbd : BddBelow S := by
    have hl := (tendsto_cdf_atBot μ).eventually (gt_mem_nhds (show (0 : ℝ) < 1 - a by linarith))
    obtain ⟨p, hp⟩ := hl.exists
    refine ⟨p, fun x hx => ?_⟩
    by_contra h
    have := monotone_cdf μ (le_of_lt (not_le.1 h))
    have hx' : 1 - a ≤ cdf μ x := hx
    linarith
  have hne : S.Nonempty := ⟨d, hd.ge⟩
  have hmem := hcl.csInf_mem hne hbd
  set c := sInf S with hc
  have hSc : S = Set.Ici c := by
    ext x
    constructor
    · intro hx; exact csInf_le hbd hx
    · intro hx; exact le_trans hmem (monotone_cdf μ hx)
  have hcd : cdf μ c = 1 - a :=
    le_antisymm (hd ▸ monotone_cdf μ (csInf_le hbd hd.ge)) hmem
  rw [hSc, ← measure_congr Ioi_ae_eq_Ici, ← ofReal_measureReal, htail, hcd, sub_sub_cancel]

/-- A set every line of which parallel to one axis is countable has probability zero. -/
theorem null_of_lines {κ : Type} [Fintype κ] [DecidableEq κ] (A : Set (κ → ℝ)) (hA : MeasurableSet A) (i : κ)
    (h : ∀ z : κ → ℝ, {t | Function.update z i t ∈ A}.Countable) : stdNormals κ A = 0 := by
  unfold stdNormals
  rw [← lintegral_indicator_one hA]
  rw [show (0 : ENNReal) = ∫⁻ _ : κ → ℝ, 0 ∂(Measure.pi fun _ : κ => gaussianReal 0 1) by simp]
  refine lintegral_eq_of_lmarginal_eq {i} (measurable_one.indicator hA) measurable_const ?_
  rw [lmarginal_singleton, lmarginal_singleton]
  funext z
  have : (fun t => A.indicator (1 : (κ → ℝ) → ENNReal) (Function.update z i t)) = {t | Function.update z i t ∈ A}.indicator 1 := by
    funext t; simp [Set.indicator]
  have := nullSingletonClass_gaussianReal (μ := 0) (one_ne_zero : (1 : NNReal) ≠ 0)
  rw [‹(fun t => A.indicator (1 : (κ → ℝ) → ENNReal) (Function.update z i t)) = _›, lintegral_indicator_one (h z).measurableSet, (h z).measure_zero]
  simp

theorem coord_ne {κ : Type} [Fintype κ] [DecidableEq κ] (i : κ) : ∀ᵐ z ∂(stdNormals κ), z i ≠ 0 := by
  rw [ae_iff]
  simp only [not_not]
  refine null_of_lines _ (measurableSet_eq_fun (measurable_pi_apply i) measurable_const) i fun z => ?_
  refine (Set.countable_singleton (0 : ℝ)).mono fun t ht => ?_
  simpa using ht

instance (κ : Type) [Fintype κ] : IsProbabilityMeasure (stdNormals κ) := by unfold stdNormals; infer_instance

instance (d : ℕ) : IsProbabilityMeasure (studentLaw d) := Measure.isProbabilityMeasure_map (student_meas d).aemeasurable
instance (d1 d2 : ℕ) : IsProbabilityMeasure (fisherLaw d1 d2) := Measure.isProbabilityMeasure_map (fisher_meas d1 d2).aemeasurable

theorem student_atoms (d : ℕ) (hd : 0 < d) : NullSingletonClass (studentLaw d) := by
  refine ⟨fun c => ?_⟩
  unfold studentLaw
  rw [Measure.map_apply (student_meas d) (measurableSet_singleton c)]
  set A := {z : Option (Fin d) → ℝ | z (some ⟨0, hd⟩) ≠ 0 ∧ z none / Real.sqrt ((∑ i, z (some i) ^ 2) / d) = c} with hA
  have hAm : MeasurableSet A := by
    refine MeasurableSet.inter ?_ ((student_meas d) (measurableSet_singleton c))
    exact (measurableSet_eq_fun (measurable_pi_apply _) measurable_const).compl
  refine measure_mono_null_ae ?_ (null_of_lines A hAm none fun z => ?_)
  · filter_upwards [coord_ne (κ := Option (Fin d)) (some ⟨0, hd⟩)] with z hz hzc
    exact ⟨hz, hzc⟩
  · refine (Set.countable_singleton (c * Real.sqrt ((∑ i, z (some i) ^ 2) / d))).mono fun t ht => ?_
    obtain ⟨h1, h2⟩ := ht
    simp only [Function.update_self, ne_eq, reduceCtorEq, not_false_eq_true, Function.update_of_ne] at h1 h2
    have hpos : 0 < Real.sqrt ((∑ i, z (some i) ^ 2) / d) := by
      refine Real.sqrt_pos.2 (div_pos ?_ (by exact_mod_cast hd))
      exact Finset.sum_pos' (fun i _ => sq_nonneg _) ⟨⟨0, hd⟩, Finset.mem_univ _, by positivity⟩
    rw [div_eq_iff hpos.ne'] at h2
    exact h2

theorem fisher_atoms (d1 d2 : ℕ) (h1 : 0 < d1) (h2 : 0 < d2) : NullSingletonClass (fisherLaw d1 d2) := by
  refine ⟨fun c => ?_⟩
  unfold fisherLaw
  rw [Measure.map_apply (fisher_meas d1 d2) (measurableSet_singleton c)]
  set A := {z : Fin d1 ⊕ Fin d2 → ℝ | z (.inr ⟨0, h2⟩) ≠ 0 ∧ ((∑ i, z (.inl i) ^ 2) / d1) / ((∑ i, z (.inr i) ^ 2) / d2) = c} with hA
  have hAm : MeasurableSet A := by
    refine MeasurableSet.inter ?_ ((fisher_meas d1 d2) (measurableSet_singleton c))
    exact (measurableSet_eq_fun (measurable_pi_apply _) measurable_const).compl
  refine measure_mono_null_ae ?_ (null_of_lines A hAm (.inl ⟨0, h1⟩) fun z => ?_)
  · filter_upwards [coord_ne (κ := Fin d1 ⊕ Fin d2) (.inr ⟨0, h2⟩)] with z hz hzc
    exact ⟨hz, hzc⟩
  · set r := c * ((∑ i, z (.inr i) ^ 2) / d2) * d1 - ∑ i ∈ Finset.univ.erase (⟨0, h1⟩ : Fin d1), z (.inl i) ^ 2 with hr
    refine (((Set.countable_singleton (Real.sqrt r)).union (Set.countable_singleton (-Real.sqrt r)))).mono fun t ht => ?_
    obtain ⟨g1, g2⟩ := ht
    simp only [ne_eq, reduceCtorEq, not_false_eq_true, Function.update_of_ne] at g1 g2
    have hpos : 0 < (∑ i, z (.inr i) ^ 2) / (d2 : ℝ) := by
      refine (div_pos ?_ (by exact_mod_cast h2))
      exact Finset.sum_pos' (fun i _ => sq_nonneg _) ⟨⟨0, h2⟩, Finset.mem_univ _, by positivity⟩
    have hd1 : (0 : ℝ) < d1 := by exact_mod_cast h1
    rw [div_eq_iff hpos.ne', div_eq_iff hd1.ne', ← Finset.add_sum_erase _ _ (Finset.mem_univ (⟨0, h1⟩ : Fin d1)), Function.update_self] at g2
    have he : ∑ i ∈ Finset.univ.erase (⟨0, h1⟩ : Fin d1), Function.update z (.inl ⟨0, h1⟩) t (.inl i) ^ 2
        = ∑ i ∈ Finset.univ.erase (⟨0, h1⟩ : Fin d1), z (.inl i) ^ 2 := by
      refine Finset.sum_congr rfl fun i hi => ?_
      rw [Function.update_of_ne]
      intro h; exact (Finset.ne_of_mem_erase hi) (Sum.inl.inj h)
    rw [he] at g2
    have ht2 : t ^ 2 = r := by rw [hr]; linarith
    have hr0 : 0 ≤ r := ht2 ▸ sq_nonneg t
    have := Real.sq_sqrt hr0
    rcases sq_eq_sq_iff_eq_or_eq_neg.1 (ht2.trans this.symm) with h | h
    · left; exact h
    · right; exact h

theorem student_symm (d : ℕ) : (studentLaw d).map (fun t => -t) = studentLaw d := by
  have hp : MeasurePreserving (fun (z : Option (Fin d) → ℝ) i => (if i = none then (fun t : ℝ => -t) else id) (z i))
      (stdNormals (Option (Fin d))) (stdNormals (Option (Fin d))) := by
    refine measurePreserving_pi _ _ fun i => ?_
    by_cases h : i = none
    · rw [if_pos h]
      exact ⟨measurable_neg, by rw [gaussianReal_map_neg, neg_zero]⟩
    · rw [if_neg h]; exact MeasurePreserving.id _
  unfold studentLaw
  rw [Measure.map_map measurable_neg (student_meas d)]
  conv_rhs => rw [← hp.map_eq, Measure.map_map (student_meas d) hp.measurable]
  congr 1
  funext z
  simp [neg_div]

theorem pT_uniform (d : ℕ) (hd : 0 < d) (a : ℝ) (h0 : 0 < a) (h1 : a < 1) : studentLaw d {t | pT d t ≤ a} = ENNReal.ofReal a := by
  have := student_atoms d hd
  have hm : Measurable fun t : ℝ => |t| := measurable_id.abs
  set ν := (studentLaw d).map fun t => |t| with hν
  have : IsProbabilityMeasure ν := Measure.isProbabilityMeasure_map hm.aemeasurable
  have : NullSingletonClass ν := by
    refine ⟨fun c => ?_⟩
    rw [hν, Measure.map_apply hm (measurableSet_singleton c)]
    refine Set.Countable.measure_zero ?_ _
    refine (((Set.countable_singleton c).union (Set.countable_singleton (-c)))).mono fun t ht => ?_
    have ht' : |t| = c := ht
    rcases eq_or_eq_neg_of_abs_eq ht' with h | h
    · left; exact h
    · right; exact h
  have htail : ∀ t : ℝ, ν.real (Set.Ioi |t|) = pT d t := by
    intro t
    have hs : (fun t : ℝ => |t|) ⁻¹' Set.Ioi |t| = Set.Ioi |t| ∪ Set.Iio (-|t|) := by
      ext s
      simp only [Set.mem_preimage, Set.mem_Ioi, Set.mem_union, Set.mem_Iio, lt_abs]
      constructor <;> rintro (h | h)
      · exact Or.inl h
      · right; linarith
      · exact Or.inl h
      · right; linarith
    have hneg : (studentLaw d).real (Set.Iio (-|t|)) = (studentLaw d).real (Set.Ioi |t|) := by
      conv_lhs => rw [← student_symm d]
      rw [measureReal_def, Measure.map_apply measurable_neg measurableSet_Iio, measureReal_def]
      congr 2
      ext s; simp
    have hdis : Disjoint (Set.Ioi |t|) (Set.Iio (-|t|)) := by
      rw [Set.disjoint_left]
      intro s h1 h2
      have h1' : |t| < s := h1
      have h2' : s < -|t| := h2
      have := abs_nonneg t
      linarith
    rw [measureReal_def, hν, Measure.map_apply hm measurableSet_Ioi, hs, ← measureReal_def, measureReal_union hdis measurableSet_Iio, hneg, pT]
    ring
  have hset : {t | pT d t ≤ a} = (fun t : ℝ => |t|) ⁻¹' {s | ν.real (Set.Ioi s) ≤ a} := by
    ext t; simp only [Set.mem_ofPred_eq, Set.mem_preimage, htail]
  have hmeas : MeasurableSet {s | ν.real (Set.Ioi s) ≤ a} := by
    refine measurableSet_le (Antitone.measurable fun p q hpq => ?_) measurable_const
    exact measureReal_mono (Set.Ioi_subset_Ioi hpq)
  rw [hset, ← Measure.map_apply hm hmeas, ← hν, tail_uniform ν a h0 h1]

theorem pF_uniform (d1 d2 : ℕ) (hd1 : 0 < d1) (hd2 : 0 < d2) (a : ℝ) (h0 : 0 < a) (h1 : a < 1) :
    fisherLaw d1 d2 {f | pF d1 d2 f ≤ a} = ENNReal.ofReal a := by
  have := fisher_atoms d1 d2 hd1 hd2
  exact tail_uniform _ a h0 h1

variable {n k : Type} [Fintype n] [Fintype k] [DecidableEq n] [DecidableEq k]

/-- The law of a function whose pushforward is a probability measure: its events have the probabilities of that law. -/
theorem of_law {Ω : Type} [MeasurableSpace Ω] (P : Measure Ω) (F : Ω → ℝ) (μ : Measure ℝ) [IsProbabilityMeasure μ] (h : P.map F = μ) (S : Set ℝ)
    (hS : MeasurableSet S) : P {e | F e ∈ S} = μ S := by
  have hm : AEMeasurable F P := by
    by_contra hn
    rw [Measure.map_of_not_aemeasurable hn] at h
    have := measure_univ (μ := μ)
    rw [← h] at this
    simp at this
  rw [← h, Measure.map_apply_of_aemeasurable hm hS]
  rfl

theorem tail_meas (μ : Measure ℝ) [IsProbabilityMeasure μ] (a : ℝ) : MeasurableSet {x | μ.real (Set.Ioi x) ≤ a} := by
  refine measurableSet_le (Antitone.measurable fun p q hpq => ?_) measurable_const
  exact measureReal_mono (Set.Ioi_subset_Ioi hpq)

theorem pT_meas (d : ℕ) (a : ℝ) : MeasurableSet {t | pT d t ≤ a} := by
  have h := ((measurable_id (α := ℝ)).abs) (tail_meas (studentLaw d) (a / 2))
  convert h using 1
  ext t
  simp only [Set.mem_ofPred_eq, Set.mem_preimage, pT]
  constructor <;> intro g
  · simp only [id]; linarith
  · simp only [id] at g; linarith

/-- **C174 (size of the t test).** If the errors are independent normal draws with equal variance and the coefficient is truly zero, the reported
p-value of its t statistic falls below `a` with probability exactly `a`. -/
theorem C174_size_t (s : ℝ) (hs : 0 < s) (x : Matrix n k ℝ) (hk : Fintype.card k < Fintype.card n) (beta : k → ℝ) (f : (n → ℝ) → OLSFit n k)
    (hf : ∀ e, ols x (x *ᵥ beta + e) = some (f e)) (j : k) (hj : beta j = 0) (a : ℝ) (h0 : 0 < a) (h1 : a < 1) :
    (Measure.pi fun _ : n => gaussianReal 0 s.toNNReal)
      {e | pT (Fintype.card n - Fintype.card k)
        (Diag.tStat (vmClassic (sig2nk (f e).u (Fintype.card k)) (f e).xtxi) (f e).betas j) ≤ a} = ENNReal.ofReal a := by
  have h := C174_t s hs x hk beta f hf j
  simp only [hj, sub_zero] at h
  rw [← pT_uniform (Fintype.card n - Fintype.card k) (by omega) a h0 h1, ← of_law _ _ _ h _ (pT_meas _ _)]
  rfl

/-- **C174 (size of the F test).** If `y` is a constant plus independent normal draws with equal variance, the p-value of the F statistic falls below
`a` with probability exactly `a`. -/
theorem C174_size_f {K : ℕ} (s : ℝ) (hs : 0 < s) (x : Matrix n (Fin K) ℝ) (hK : 1 < K) (hk : K < Fintype.card n) (hc : Diag.SpansConst x) (m : ℝ)
    (r : (n → ℝ) → Reg n (Fin K)) (hr : ∀ e, reg x ((fun _ => m) + e) = some (r e)) (a : ℝ) (h0 : 0 < a) (h1 : a < 1) :
    (Measure.pi fun _ : n => gaussianReal 0 s.toNNReal)
      {e | ∃ (F : ℝ) (d1 d2 : ℕ), Diag.fTest (r e) 0 = some (F, (d1 : ℤ), (d2 : ℤ)) ∧ pF d1 d2 F ≤ a} = ENNReal.ofReal a := by
  obtain ⟨F, d1, d2, hF, e1, e2, hl⟩ := C174_f s hs x hK hk hc m r hr
  rw [← pF_uniform d1 d2 (by omega) (by omega) a h0 h1, ← of_law _ _ _ hl {f | pF d1 d2 f ≤ a} (tail_meas _ _)]
  congr 1
  ext e
  simp only [Set.mem_ofPred_eq, hF]
  constructor
  · rintro ⟨F', c1, c2, h, hp⟩
    simp only [Option.some.injEq, Prod.mk.injEq, Nat.cast_inj] at h
    obtain ⟨rfl, rfl, rfl⟩ := h
    exact hp
  · intro hp
    exact ⟨_, _, _, rfl, hp⟩

/-- **C174 (size of the F test on the last coefficients).** As above for `f_stat(reg, df)` when the last `df` coefficients are zero. -/
theorem C174_size_last {K : ℕ} (s : ℝ) (hs : 0 < s) (x : Matrix n (Fin K) ℝ) (hk : K < Fintype.card n) (df : ℕ) (hdf : 0 < df) (hdK : df ≤ K)
    (beta : Fin K → ℝ) (hb : ∀ j : Fin K, K - df ≤ j.1 → beta j = 0)
    (r : (n → ℝ) → Reg n (Fin K)) (hr : ∀ e, reg x (x *ᵥ beta + e) = some (r e)) (a : ℝ) (h0 : 0 < a) (h1 : a < 1) :
    (Measure.pi fun _ : n => gaussianReal 0 s.toNNReal)
      {e | ∃ (F : ℝ) (d1 d2 : ℕ), Diag.fTest (r e) df = some (F, (d1 : ℤ), (d2 : ℤ)) ∧ pF d1 d2 F ≤ a} = ENNReal.ofReal a := by
  obtain ⟨F, d2, hF, e2, hl⟩ := C174_last s hs x hk df hdf hdK beta hb r hr
  rw [← pF_uniform df d2 (by omega) (by omega) a h0 h1, ← of_law _ _ _ hl {f | pF df d2 f ≤ a} (tail_meas _ _)]
  congr 1
  ext e
  simp only [Set.mem_ofPred_eq, hF]
  constructor
  · rintro ⟨F', c1, c2, h, hp⟩
    simp only [Option.some.injEq, Prod.mk.injEq, Nat.cast_inj] at h
    obtain ⟨rfl, rfl, rfl⟩ := h
    exact hp
  · intro hp
    exact ⟨_, _, _, rfl, hp⟩

/-- Four observations, a constant and a trend. -/
def x4 : Matrix (Fin 4) (Fin 2) ℝ := !![1, 0; 1, 1; 1, 2; 1, 3]

/-- The hypotheses are met: with four observations, a constant and a trend, the t test and the F test at five percent reject with probability 1/20
whatever the constant when there is no trend. -/
theorem C174_example (s : ℝ) (hs : 0 < s) (m : ℝ) : ∃ (f : (Fin 4 → ℝ) → OLSFit (Fin 4) (Fin 2)) (r : (Fin 4 → ℝ) → Reg (Fin 4) (Fin 2)),
    (∀ e, ols x4 (x4 *ᵥ ![m, 0] + e) = some (f e)) ∧ (∀ e, reg x4 ((fun _ => m) + e) = some (r e)) ∧
    (Measure.pi fun _ : Fin 4 => gaussianReal 0 s.toNNReal)
      {e | pT 2 (Diag.tStat (vmClassic (sig2nk (f e).u 2) (f e).xtxi) (f e).betas 1) ≤ 1 / 20} = ENNReal.ofReal (1 / 20) ∧
    (Measure.pi fun _ : Fin 4 => gaussianReal 0 s.toNNReal)
      {e | ∃ (F : ℝ) (d1 d2 : ℕ), Diag.fTest (r e) 0 = some (F, (d1 : ℤ), (d2 : ℤ)) ∧ pF d1 d2 F ≤ 1 / 20} = ENNReal.ofReal (1 / 20) := by
  have hu : IsUnit (x4ᵀ * x4).det := by
    rw [show x4ᵀ * x4 = !![4, 6; 6, 14] by
      ext i j; fin_cases i <;> fin_cases j <;> simp [x4, mul_apply, Fin.sum_univ_four] <;> norm_num, det_fin_two_of]
    norm_num
  have hf : ∀ e, ∃ f, ols x4 (x4 *ᵥ ![m, 0] + e) = some f := fun e => ⟨_, ols_of_isUnit _ _ hu⟩
  have hr : ∀ e, ∃ r, reg x4 ((fun _ => m) + e) = some r := fun e => ⟨_, by unfold reg; rw [ols_of_isUnit _ _ hu]; rfl⟩
  choose f hf using hf
  choose r hr using hr
  have hc : Diag.SpansConst x4 := ⟨![1, 0], fun i => by fin_cases i <;> simp [x4, Fin.sum_univ_two]⟩
  refine ⟨f, r, hf, hr, ?_, C174_size_f s hs x4 (by norm_num) (by simp) hc m r hr _ (by norm_num) (by norm_num)⟩
  have := C174_size_t s hs x4 (by simp) ![m, 0] f hf 1 (by simp) (1 / 20) (by norm_num) (by norm_num)
  simpa using this

end Spreg.Exact
