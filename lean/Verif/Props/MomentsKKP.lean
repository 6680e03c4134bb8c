import Verif.Props.Moments
import Verif.Props.PanelGLS4
/-
The true parameters solve the population moment equations of the random effects GMM estimator (C168).
-/
set_option linter.unusedSectionVars false
namespace Spreg.Sampling
open Matrix MeasureTheory ProbabilityTheory Spreg Spreg.Lin Spreg.GM Spreg.PanelGLS Spreg.PanelML

variable {Ω τ n : Type} [MeasurableSpace Ω] [Fintype τ] [Fintype n] [DecidableEq τ] [DecidableEq n] {P : Measure Ω}

theorem three_means {e : Ω → n → ℝ} {s : ℝ} (h : Errors P e fun _ => s) (W : Matrix n n ℝ) (hW : ∀ i, W i i = 0) :
    (Integrable (fun ω => ∑ i, e ω i ^ 2) P ∧ ∫ ω, ∑ i, e ω i ^ 2 ∂P = Fintype.card n * s) ∧
    (Integrable (fun ω => ∑ i, (∑ j, W i j * e ω j) ^ 2) P ∧ ∫ ω, ∑ i, (∑ j, W i j * e ω j) ^ 2 ∂P = s * ∑ i, ∑ j, W i j ^ 2) ∧
    (Integrable (fun ω => ∑ i, e ω i * ∑ j, W i j * e ω j) P ∧ ∫ ω, ∑ i, e ω i * ∑ j, W i j * e ω j ∂P = 0) := by
  have q1 : ∀ ω, ∑ i, e ω i ^ 2 = e ω ⬝ᵥ ((1 : Matrix n n ℝ) *ᵥ e ω) := fun ω => by rw [one_mulVec]; exact utu_eq_dot _
  have q2 : ∀ ω, ∑ i, (∑ j, W i j * e ω j) ^ 2 = e ω ⬝ᵥ ((Wᵀ * W) *ᵥ e ω) := fun ω => by
    rw [← mulVec_mulVec, dotProduct_mulVec, vecMul_transpose]; exact utu_eq_dot _
  have q3 : ∀ ω, ∑ i, e ω i * ∑ j, W i j * e ω j = e ω ⬝ᵥ (W *ᵥ e ω) := fun ω => rfl
  simp only [q1, q2, q3]
  refine ⟨⟨(bilin_mean h _).1, ?_⟩, ⟨(bilin_mean h _).1, ?_⟩, (bilin_mean h _).1, ?_⟩
  · rw [(bilin_mean h _).2]; simp
  · rw [(bilin_mean h _).2, ← Finset.mul_sum]
    congr 1
    simp only [mul_apply, transpose_apply, ← pow_two]
    exact Finset.sum_comm
  · rw [(bilin_mean h _).2]; simp [hW]

theorem int4 {a b c d : Ω → ℝ} (ha : Integrable a P) (hb : Integrable b P) (hc : Integrable c P) (hd : Integrable d P) :
    ∫ ω, (a ω - b ω - c ω + d ω) ∂P = ∫ ω, a ω ∂P - ∫ ω, b ω ∂P - ∫ ω, c ω ∂P + ∫ ω, d ω ∂P := by
  rw [integral_add (f := fun ω => a ω - b ω - c ω) ((ha.sub hb).sub hc) hd, integral_sub (f := fun ω => a ω - b ω) (ha.sub hb) hc,
    integral_sub ha hb]

theorem int4' {a b c d : Ω → ℝ} (ha : Integrable a P) (hb : Integrable b P) (hc : Integrable c P) (hd : Integrable d P) :
    ∫ ω, (a ω + b ω + c ω + d ω) ∂P = ∫ ω, a ω ∂P + ∫ ω, b ω ∂P + ∫ ω, c ω ∂P + ∫ ω, d ω ∂P := by
  rw [integral_add (f := fun ω => a ω + b ω + c ω) ((ha.add hb).add hc) hd, integral_add (f := fun ω => a ω + b ω) (ha.add hb) hc,
    integral_add ha hb]

/-- Within deviations of uncorrelated errors, in one period. -/
theorem within_errors [Nonempty τ] {nu : Ω → τ × n → ℝ} {sv : ℝ} (h : Errors P nu fun _ => sv) (t : τ) :
    Errors P (fun ω i => nu ω (t, i) - (∑ t', nu ω (t', i)) / Fintype.card τ) fun _ => sv * (1 - 1 / Fintype.card τ) := by
  have hP := h.prob
  have hT : (Fintype.card τ : ℝ) ≠ 0 := by exact_mod_cast Fintype.card_ne_zero
  have hm : ∀ i, MemLp (fun ω => (∑ t', nu ω (t', i)) / (Fintype.card τ : ℝ)) 2 P := fun i => by
    simp only [div_eq_mul_inv]
    exact (memLp_finsetSum _ fun t' _ => h.sq (t', i)).mul_const _
  refine ⟨hP, fun i => (h.sq (t, i)).sub (hm i), fun i => ?_, fun i j => ?_⟩
  · rw [integral_sub ((h.sq (t, i)).integrable (by norm_num)) ((hm i).integrable (by norm_num)), integral_div,
      integral_finsetSum _ fun t' _ => (h.sq (t', i)).integrable (by norm_num)]
    simp [h.mean]
  · have i2 : ∀ a b, Integrable (fun ω => nu ω a * nu ω b) P := int_mul h
    have e1 : ∀ ω, (nu ω (t, i) - (∑ t', nu ω (t', i)) / (Fintype.card τ : ℝ)) * (nu ω (t, j) - (∑ t', nu ω (t', j)) / (Fintype.card τ : ℝ)) =
        nu ω (t, i) * nu ω (t, j) - (∑ t', nu ω (t, i) * nu ω (t', j)) / Fintype.card τ - (∑ t', nu ω (t', i) * nu ω (t, j)) / Fintype.card τ +
          (∑ t', ∑ t'', nu ω (t', i) * nu ω (t'', j)) / (Fintype.card τ) ^ 2 := by
      intro ω
      rw [← Finset.sum_mul_sum, ← Finset.mul_sum, ← Finset.sum_mul]
      field_simp
      ring
    simp only [e1]
    have j1 : Integrable (fun ω => (∑ t', nu ω (t, i) * nu ω (t', j)) / (Fintype.card τ : ℝ)) P :=
      (integrable_finsetSum _ fun _ _ => i2 _ _).div_const _
    have j2 : Integrable (fun ω => (∑ t', nu ω (t', i) * nu ω (t, j)) / (Fintype.card τ : ℝ)) P :=
      (integrable_finsetSum _ fun _ _ => i2 _ _).div_const _
    have j3 : Integrable (fun ω => (∑ t', ∑ t'', nu ω (t', i) * nu ω (t'', j)) / (Fintype.card τ : ℝ) ^ 2) P :=
      (integrable_finsetSum _ fun _ _ => integrable_finsetSum _ fun _ _ => i2 _ _).div_const _
    refine (int4 (i2 _ _) j1 j2 j3).trans ?_
    rw [integral_div, integral_div,
      integral_div, integral_finsetSum _ (fun _ _ => i2 _ _), integral_finsetSum _ (fun _ _ => i2 _ _),
      integral_finsetSum _ (fun _ _ => integrable_finsetSum _ fun _ _ => i2 _ _)]
    simp only [integral_finsetSum _ (fun _ _ => i2 _ _), h.cov, Prod.mk.injEq]
    by_cases hij : i = j
    · subst hij
      simp
      field_simp
      ring
    · simp [hij]

/-- Unit means. -/
theorem between_errors [Nonempty τ] {mu : Ω → n → ℝ} {nu : Ω → τ × n → ℝ} {smu snu : ℝ} (h : RandomEffects P mu nu smu snu) :
    Errors P (fun ω i => mu ω i + (∑ t', nu ω (t', i)) / Fintype.card τ) fun _ => smu + snu / Fintype.card τ := by
  have hP := h.effect.prob
  have hT : (Fintype.card τ : ℝ) ≠ 0 := by exact_mod_cast Fintype.card_ne_zero
  have hm : ∀ i, MemLp (fun ω => (∑ t', nu ω (t', i)) / (Fintype.card τ : ℝ)) 2 P := fun i => by
    simp only [div_eq_mul_inv]
    exact (memLp_finsetSum _ fun t' _ => h.error.sq (t', i)).mul_const _
  refine ⟨hP, fun i => (h.effect.sq i).add (hm i), fun i => ?_, fun i j => ?_⟩
  · rw [integral_add ((h.effect.sq i).integrable (by norm_num)) ((hm i).integrable (by norm_num)), integral_div,
      integral_finsetSum _ fun t' _ => (h.error.sq (t', i)).integrable (by norm_num)]
    simp [h.effect.mean, h.error.mean]
  · have i2 : ∀ a b, Integrable (fun ω => nu ω a * nu ω b) P := int_mul h.error
    have i1 : ∀ a b, Integrable (fun ω => mu ω a * nu ω b) P := fun a b => (h.effect.sq a).integrable_mul (h.error.sq b)
    have e1 : ∀ ω, (mu ω i + (∑ t', nu ω (t', i)) / (Fintype.card τ : ℝ)) * (mu ω j + (∑ t', nu ω (t', j)) / (Fintype.card τ : ℝ)) =
        mu ω i * mu ω j + (∑ t', mu ω i * nu ω (t', j)) / Fintype.card τ + (∑ t', mu ω j * nu ω (t', i)) / Fintype.card τ +
          (∑ t', ∑ t'', nu ω (t', i) * nu ω (t'', j)) / (Fintype.card τ) ^ 2 := by
      intro ω
      rw [← Finset.sum_mul_sum, ← Finset.mul_sum, ← Finset.mul_sum]
      field_simp
      ring
    simp only [e1]
    have j1 : Integrable (fun ω => (∑ t', mu ω i * nu ω (t', j)) / (Fintype.card τ : ℝ)) P :=
      (integrable_finsetSum _ fun _ _ => i1 _ _).div_const _
    have j2 : Integrable (fun ω => (∑ t', mu ω j * nu ω (t', i)) / (Fintype.card τ : ℝ)) P :=
      (integrable_finsetSum _ fun _ _ => i1 _ _).div_const _
    have j3 : Integrable (fun ω => (∑ t', ∑ t'', nu ω (t', i) * nu ω (t'', j)) / (Fintype.card τ : ℝ) ^ 2) P :=
      (integrable_finsetSum _ fun _ _ => integrable_finsetSum _ fun _ _ => i2 _ _).div_const _
    have j0 := int_mul h.effect i j
    refine (int4' j0 j1 j2 j3).trans ?_
    rw [integral_div, integral_div,
      integral_div, integral_finsetSum _ (fun _ _ => i1 _ _), integral_finsetSum _ (fun _ _ => i1 _ _),
      integral_finsetSum _ (fun _ _ => integrable_finsetSum _ fun _ _ => i2 _ _)]
    simp only [integral_finsetSum _ (fun _ _ => i2 _ _), h.error.cov, h.effect.cov, h.cross, Prod.mk.injEq]
    by_cases hij : i = j
    · subst hij
      simp
      field_simp
    · simp [hij]

theorem kkp_int (W : Matrix n n ℝ) {u : Ω → τ × n → ℝ} (h : SqInt P u) (f : Bool) :
    (∀ i, Integrable (fun ω => (kkpEntries f W (u ω)).2 i) P) ∧ ∀ i j, Integrable (fun ω => (kkpEntries f W (u ω)).1 i j) P := by
  have hq : ∀ {a : Ω → τ × n → ℝ}, SqInt P a → SqInt P fun ω => kkpQ f (a ω) := by
    intro a ha
    simp only [kkpQ_mat]
    exact ha.mulVec _
  have h1 := h.mulVec (bigW τ W)
  have h2 := h1.mulVec (bigW τ W)
  refine ⟨fun i => ?_, fun i j => ?_⟩
  · fin_cases i
    · exact h.dot (hq h)
    · exact h1.dot (hq h1)
    · exact h.dot (hq h1)
  · fin_cases i <;> fin_cases j
    · exact (h.dot (hq h1)).const_mul 2
    · exact (h1.dot (hq h1)).neg
    · exact (h2.dot (hq h1)).const_mul 2
    · exact (h2.dot (hq h2)).neg
    · exact (h.dot (hq h2)).add (h1.dot (hq h1))
    · exact (h1.dot (hq h2)).neg

theorem m0_int (W : Matrix n n ℝ) {u : Ω → τ × n → ℝ} (h : SqInt P u) (hP : IsProbabilityMeasure P) :
    (∀ i, Integrable (fun ω => (momentsKKP0 W (u ω)).g i) P) ∧ ∀ i j, Integrable (fun ω => (momentsKKP0 W (u ω)).G i j) P := by
  obtain ⟨h1, h2⟩ := kkp_int W h true
  have c : ∀ a : ℝ, Integrable (fun _ : Ω => a / ((Fintype.card n : ℝ) * (Fintype.card τ - 1))) P := fun a => integrable_const _
  refine ⟨fun i => (h1 i).div_const _, fun i j => ?_⟩
  fin_cases i <;> fin_cases j
  · exact (h2 0 0).div_const _
  · exact (h2 0 1).div_const _
  · exact c ((Fintype.card n : ℝ) * (Fintype.card τ - 1))
  · exact (h2 1 0).div_const _
  · exact (h2 1 1).div_const _
  · exact c (traceW2 W * (Fintype.card τ - 1))
  · exact (h2 2 0).div_const _
  · exact (h2 2 1).div_const _
  · exact c 0

theorem m1_int (W : Matrix n n ℝ) {u : Ω → τ × n → ℝ} (h : SqInt P u) (hP : IsProbabilityMeasure P) :
    (∀ i, Integrable (fun ω => (momentsKKP1 W (u ω)).g i) P) ∧ ∀ i j, Integrable (fun ω => (momentsKKP1 W (u ω)).G i j) P := by
  obtain ⟨h1, h2⟩ := kkp_int W h false
  have c : ∀ a : ℝ, Integrable (fun _ : Ω => a / (Fintype.card n : ℝ)) P := fun a => integrable_const _
  refine ⟨fun i => (h1 i).div_const _, fun i j => ?_⟩
  fin_cases i <;> fin_cases j
  · exact (h2 0 0).div_const _
  · exact (h2 0 1).div_const _
  · exact c 0
  · exact c (Fintype.card n)
  · exact (h2 1 0).div_const _
  · exact (h2 1 1).div_const _
  · exact c 0
  · exact c (traceW2 W)
  · exact (h2 2 0).div_const _
  · exact (h2 2 1).div_const _
  · exact c 0
  · exact c 0

theorem m6_int (W : Matrix n n ℝ) {u : Ω → τ × n → ℝ} (h : SqInt P u) (hP : IsProbabilityMeasure P) :
    (∀ i, Integrable (fun ω => (moments6 W (u ω)).g i) P) ∧ ∀ i j, Integrable (fun ω => (moments6 W (u ω)).G i j) P := by
  obtain ⟨h1, h2⟩ := m0_int W h hP
  obtain ⟨h3, h4⟩ := m1_int W h hP
  have h0 : Integrable (fun _ : Ω => (0 : ℝ)) P := integrable_const _
  refine ⟨?_, ?_⟩
  · rintro ⟨b, i⟩
    fin_cases b
    · exact h1 i
    · exact h3 i
  · rintro ⟨b, i⟩ j
    fin_cases b
    · fin_cases j
      · exact h2 i 0
      · exact h2 i 1
      · exact h2 i 2
      · exact h0
    · exact h4 i j

/-- Disturbances of the panel process: in every period the spatial autoregressive process, driven by a unit effect and an error. -/
def PanelSAR (W : Matrix n n ℝ) (lam : ℝ) (mu : Ω → n → ℝ) (nu u : Ω → τ × n → ℝ) : Prop :=
  ∀ ω t i, u ω (t, i) - lam * ∑ j, W i j * u ω (t, j) = mu ω i + nu ω (t, i)

theorem panelSAR_sq {mu : Ω → n → ℝ} {nu : Ω → τ × n → ℝ} {smu snu : ℝ} (h : RandomEffects P mu nu smu snu) {W : Matrix n n ℝ} {lam : ℝ}
    {u : Ω → τ × n → ℝ} (hu : PanelSAR W lam mu nu u) (hA : IsUnit (1 - lam • W).det) : SqInt P u := by
  rintro ⟨t, i⟩
  have e1 : ∀ ω, (fun i => u ω (t, i)) = (1 - lam • W)⁻¹ *ᵥ fun i => mu ω i + nu ω (t, i) := by
    intro ω
    have : (1 - lam • W) *ᵥ (fun i => u ω (t, i)) = fun i => mu ω i + nu ω (t, i) := by
      rw [sub_mulVec, one_mulVec, smul_mulVec]
      funext i
      exact hu ω t i
    rw [← this, mulVec_mulVec, nonsing_inv_mul _ hA, one_mulVec]
  have hv : SqInt P fun ω i => mu ω i + nu ω (t, i) := fun i => (h.effect.sq i).add (h.error.sq (t, i))
  have := hv.mulVec (1 - lam • W)⁻¹ i
  have e2 : ∀ ω, u ω (t, i) = ((1 - lam • W)⁻¹ *ᵥ fun i => mu ω i + nu ω (t, i)) i := fun ω => congrFun (e1 ω) i
  simpa only [e2] using this

/-- **C168.** The moments of `GM_ErrorRE` and of the deprecated `GM_KKP`: the true spatial parameter and the true variance components
solve the equations on average, those of the first stage and all six of the second stage. -/
theorem C168_kkp [Nonempty n] [Nonempty τ] (hT : 1 < Fintype.card τ) {mu : Ω → n → ℝ} {nu : Ω → τ × n → ℝ} {smu snu : ℝ}
    (h : RandomEffects P mu nu smu snu) (W : Matrix n n ℝ) (hW : ∀ i, W i i = 0) (lam : ℝ) (hA : IsUnit (1 - lam • W).det)
    (u : Ω → τ × n → ℝ) (hu : PanelSAR W lam mu nu u) :
    Holds P (fun ω => momentsKKP0 W (u ω)) ![lam, lam ^ 2, snu] ∧
    Holds P (fun ω => moments6 W (u ω)) ![lam, lam ^ 2, snu, snu + Fintype.card τ * smu] := by
  have hP := h.effect.prob
  have hsq := panelSAR_sq h hu hA
  have hN : (Fintype.card n : ℝ) ≠ 0 := by exact_mod_cast Fintype.card_ne_zero
  have hT0 : (Fintype.card τ : ℝ) ≠ 0 := by exact_mod_cast Fintype.card_ne_zero
  have hT1 : (Fintype.card τ : ℝ) - 1 ≠ 0 := by
    have : (1 : ℝ) < Fintype.card τ := by exact_mod_cast hT
    exact ne_of_gt (sub_pos.2 this)
  have hm := fun ω => C106_moments hT W (u ω) lam snu (snu + Fintype.card τ * smu)
  simp only [hu _ _ _] at hm
  have m1 : ∀ ω i, (∑ t, (mu ω i + nu ω (t, i))) / (Fintype.card τ : ℝ) = mu ω i + (∑ t', nu ω (t', i)) / Fintype.card τ := by
    intro ω i
    rw [Finset.sum_add_distrib, Finset.sum_const, Finset.card_univ, nsmul_eq_mul]
    field_simp
  have m2 : ∀ ω i, (∑ t, ∑ j, W i j * (mu ω j + nu ω (t, j))) / (Fintype.card τ : ℝ) =
      ∑ j, W i j * (mu ω j + (∑ t', nu ω (t', j)) / Fintype.card τ) := by
    intro ω i
    rw [Finset.sum_comm, Finset.sum_div]
    refine Finset.sum_congr rfl fun j _ => ?_
    rw [← Finset.mul_sum, mul_div_assoc, m1]
  have d1 : ∀ ω t i, mu ω i + nu ω (t, i) - (mu ω i + (∑ t', nu ω (t', i)) / (Fintype.card τ : ℝ)) =
      nu ω (t, i) - (∑ t', nu ω (t', i)) / Fintype.card τ := fun ω t i => by ring
  have d2 : ∀ ω t i, ∑ j, W i j * (mu ω j + nu ω (t, j)) - ∑ j, W i j * (mu ω j + (∑ t', nu ω (t', j)) / (Fintype.card τ : ℝ)) =
      ∑ j, W i j * (nu ω (t, j) - (∑ t', nu ω (t', j)) / Fintype.card τ) := by
    intro ω t i
    rw [← Finset.sum_sub_distrib]
    exact Finset.sum_congr rfl fun j _ => by ring
  simp only [m1, m2, d1, d2] at hm
  have hw := fun t => three_means (within_errors h.error t) W hW
  have hb := three_means (between_errors h) W hW
  have hfirst : ∀ r, ∫ ω, ((momentsKKP0 W (u ω)).g r - ((momentsKKP0 W (u ω)).G *ᵥ ![lam, lam ^ 2, snu]) r) ∂P = 0 := by
    intro r
    simp only [(hm _).1]
    fin_cases r
    · show ∫ ω, (∑ t, ∑ i, (nu ω (t, i) - (∑ t', nu ω (t', i)) / (Fintype.card τ : ℝ)) ^ 2) /
        ((Fintype.card n : ℝ) * (Fintype.card τ - 1)) - snu ∂P = 0
      rw [integral_sub ((integrable_finsetSum _ fun t _ => (hw t).1.1).div_const _) (integrable_const _), integral_div,
        integral_finsetSum _ fun t _ => (hw t).1.1]
      simp only [(hw _).1.2]
      simp
      field_simp
      ring
    · show ∫ ω, (∑ t, ∑ i, (∑ j, W i j * (nu ω (t, j) - (∑ t', nu ω (t', j)) / (Fintype.card τ : ℝ))) ^ 2) /
        ((Fintype.card n : ℝ) * (Fintype.card τ - 1)) - snu * (∑ i, ∑ j, W i j ^ 2) / (Fintype.card n : ℝ) ∂P = 0
      rw [integral_sub ((integrable_finsetSum _ fun t _ => (hw t).2.1.1).div_const _) (integrable_const _), integral_div,
        integral_finsetSum _ fun t _ => (hw t).2.1.1]
      simp only [(hw _).2.1.2]
      simp
      field_simp
      ring
    · show ∫ ω, (∑ t, ∑ i, (nu ω (t, i) - (∑ t', nu ω (t', i)) / (Fintype.card τ : ℝ)) *
        ∑ j, W i j * (nu ω (t, j) - (∑ t', nu ω (t', j)) / (Fintype.card τ : ℝ))) / ((Fintype.card n : ℝ) * (Fintype.card τ - 1)) ∂P = 0
      rw [integral_div, integral_finsetSum _ fun t _ => (hw t).2.2.1]
      simp only [(hw _).2.2.2]
      simp
  refine ⟨holds_of (m0_int W hsq hP).1 (m0_int W hsq hP).2 hfirst, holds_of (m6_int W hsq hP).1 (m6_int W hsq hP).2 ?_⟩
  rintro ⟨b, r⟩
  fin_cases b
  · show ∫ ω, ((moments6 W (u ω)).g (0, r) - ((moments6 W (u ω)).G *ᵥ ![lam, lam ^ 2, snu, snu + Fintype.card τ * smu]) (0, r)) ∂P = 0
    simp only [(hm _).2.1]
    exact hfirst r
  · show ∫ ω, ((moments6 W (u ω)).g (1, r) - ((moments6 W (u ω)).G *ᵥ ![lam, lam ^ 2, snu, snu + Fintype.card τ * smu]) (1, r)) ∂P = 0
    simp only [(hm _).2.2]
    fin_cases r
    · show ∫ ω, (∑ _t : τ, ∑ i, (mu ω i + (∑ t', nu ω (t', i)) / (Fintype.card τ : ℝ)) ^ 2) / (Fintype.card n : ℝ) -
        (snu + Fintype.card τ * smu) ∂P = 0
      rw [integral_sub ((integrable_finsetSum _ fun t _ => hb.1.1).div_const _) (integrable_const _), integral_div,
        integral_finsetSum _ fun t _ => hb.1.1, hb.1.2]
      simp
      field_simp
      ring
    · show ∫ ω, (∑ _t : τ, ∑ i, (∑ j, W i j * (mu ω j + (∑ t', nu ω (t', j)) / (Fintype.card τ : ℝ))) ^ 2) / (Fintype.card n : ℝ) -
        (snu + Fintype.card τ * smu) * (∑ i, ∑ j, W i j ^ 2) / (Fintype.card n : ℝ) ∂P = 0
      rw [integral_sub ((integrable_finsetSum _ fun t _ => hb.2.1.1).div_const _) (integrable_const _), integral_div,
        integral_finsetSum _ fun t _ => hb.2.1.1, hb.2.1.2]
      simp
      field_simp
      ring
    · show ∫ ω, (∑ _t : τ, ∑ i, (mu ω i + (∑ t', nu ω (t', i)) / (Fintype.card τ : ℝ)) *
        ∑ j, W i j * (mu ω j + (∑ t', nu ω (t', j)) / (Fintype.card τ : ℝ))) / (Fintype.card n : ℝ) ∂P = 0
      rw [integral_div, integral_finsetSum _ fun t _ => hb.2.2.1, hb.2.2.2]
      simp

theorem exists_randomEffects (τ n : Type) [Fintype τ] [Fintype n] [DecidableEq τ] [DecidableEq n] (a b : ℝ) :
    ∃ (P : Measure (n ⊕ τ × n → ℝ)), RandomEffects P (fun v i => v (.inl i)) (fun v c => v (.inr c)) (a ^ 2) (b ^ 2) := by
  have h := DGPRandom.pi_sample (ι := n ⊕ τ × n) (P := fun c => DGPRandom.npNormal 0 (Sum.elim (fun _ => a) (fun _ => b) c))
    fun c => DGPRandom.normal_moments 0 _
  have := h.prob
  have hc : ∀ i j, ∫ v, v i * v j ∂(Measure.pi fun c : n ⊕ τ × n => DGPRandom.npNormal 0 (Sum.elim (fun _ => a) (fun _ => b) c)) =
      if i = j then (Sum.elim (fun _ => a) (fun _ => b) i : ℝ) ^ 2 else 0 := by
    intro i j
    have c := h.cov i j
    rw [covariance_eq_sub (h.sq i) (h.sq j), h.mean i, h.mean j, mul_zero, sub_zero] at c
    exact c
  refine ⟨_, ⟨h.prob, fun i => h.sq _, fun i => h.mean _, fun i j => ?_⟩, ⟨h.prob, fun i => h.sq _, fun i => h.mean _, fun i j => ?_⟩,
    fun i c => ?_⟩
  · refine (hc (.inl i) (.inl j)).trans ?_
    simp
  · refine (hc (.inr i) (.inr j)).trans ?_
    simp
  · refine (hc (.inl i) (.inr c)).trans ?_
    simp

/-- A case for `C168_kkp`: three units on a ring, two periods. -/
theorem C168_example : ∃ (P : Measure (Fin 3 ⊕ Fin 2 × Fin 3 → ℝ)) (u : (Fin 3 ⊕ Fin 2 × Fin 3 → ℝ) → Fin 2 × Fin 3 → ℝ),
    RandomEffects P (fun v i => v (.inl i)) (fun v (c : Fin 2 × Fin 3) => v (.inr c)) (2 ^ 2) (1 ^ 2) ∧
    PanelSAR DGPRandom.ring3 (1 / 2) (fun v i => v (.inl i)) (fun v c => v (.inr c)) u ∧ (∀ i, DGPRandom.ring3 i i = 0) ∧
    IsUnit (1 - (1 / 2 : ℝ) • DGPRandom.ring3).det := by
  obtain ⟨P, hP⟩ := exists_randomEffects (Fin 2) (Fin 3) 2 1
  have hd : IsUnit (1 - (1 / 2 : ℝ) • DGPRandom.ring3).det := by
    rw [det_fin_three]
    simp [DGPRandom.ring3]
    norm_num
  refine ⟨P, fun v c => ((1 - (1 / 2 : ℝ) • DGPRandom.ring3)⁻¹ *ᵥ fun i => v (.inl i) + v (.inr (c.1, i))) c.2, hP, fun v t i => ?_,
    fun i => by fin_cases i <;> simp [DGPRandom.ring3], hd⟩
  have : (1 - (1 / 2 : ℝ) • DGPRandom.ring3) *ᵥ ((1 - (1 / 2 : ℝ) • DGPRandom.ring3)⁻¹ *ᵥ fun i => v (.inl i) + v (.inr (t, i))) =
      fun i => v (.inl i) + v (.inr (t, i)) := by rw [mulVec_mulVec, mul_nonsing_inv _ hd, one_mulVec]
  have h2 := congrFun this i
  rw [sub_mulVec, one_mulVec, smul_mulVec] at h2
  exact h2

end Spreg.Sampling
