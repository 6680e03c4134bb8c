import Verif.Props.Sampling
import Verif.Props.PanelGLS
set_option linter.unusedSectionVars false
namespace Spreg.Sampling
open Matrix MeasureTheory ProbabilityTheory Spreg Spreg.Lin Spreg.PanelGLS

variable {Ω τ n k : Type} [MeasurableSpace Ω] [Fintype τ] [Fintype n] [Fintype k] [DecidableEq τ] [DecidableEq n] [DecidableEq k]
  {P : Measure Ω} {e : Ω → τ × n → ℝ}

/-- What `PanelFE` reports on average. -/
theorem fe_means [Nonempty τ] {s : ℝ} (h : Errors P e fun _ => s) (x : Matrix (τ × n) k ℝ)
    (hk : Fintype.card (k ⊕ n) < Fintype.card (τ × n)) (beta : k → ℝ) (mu : n → ℝ)
    (f : Ω → FEFit τ n k) (hf : ∀ ω, panelFE (fun a => (x *ᵥ beta) a + mu a.2 + e ω a) x = some (f ω)) :
    (∀ j, ∫ ω, (f ω).betas j ∂P = beta j) ∧ (∀ i, ∫ ω, (f ω).fixedEffects i ∂P = mu i) ∧
    (∫ ω, (f ω).sig2 ∂P = s * (((Fintype.card (τ × n) : ℝ) - Fintype.card (k ⊕ n)) / (Fintype.card (τ × n) - Fintype.card n))) ∧
    ∀ i j, ∫ ω, (f ω).vm i j ∂P = ((Fintype.card (τ × n) : ℝ) - Fintype.card (k ⊕ n)) / (Fintype.card (τ × n) - Fintype.card n) *
      ∫ ω, ((f ω).betas i - beta i) * ((f ω).betas j - beta j) ∂P := by
  have hy : ∀ ω, (fun a => (x *ᵥ beta) a + mu a.2 + e ω a) = withDummies x *ᵥ Sum.elim beta mu + e ω := by
    intro ω
    funext a
    rw [Pi.add_apply, withDummies_mulVec]
  have hs : ∀ ω, ∃ o, ols (withDummies x) (withDummies x *ᵥ Sum.elim beta mu + e ω) = some o := by
    intro ω
    rw [← Option.isSome_iff_exists, ← hy ω]
    exact (C103_lsdv_partial _ x).1.1 (by rw [hf ω]; rfl)
  choose o ho using hs
  have hU := C167_ols h (withDummies x) hk (Sum.elim beta mu) o ho
  have hc : ∀ ω, _ := fun ω => (C103_lsdv_partial _ x).2 (f ω) (o ω) (hf ω) (by rw [hy ω]; exact ho ω)
  have hk' : (Fintype.card (k ⊕ n) : ℝ) < Fintype.card (τ × n) := by exact_mod_cast hk
  have hd : (Fintype.card (τ × n) : ℝ) - Fintype.card (k ⊕ n) ≠ 0 := by linarith
  have hsig : ∀ ω, (f ω).sig2 = sig2nk (o ω).u (Fintype.card (k ⊕ n)) *
      (((Fintype.card (τ × n) : ℝ) - Fintype.card (k ⊕ n)) / (Fintype.card (τ × n) - Fintype.card n)) := by
    intro ω
    rw [(hc ω).2.2.2.1, sig2nk]
    field_simp
  refine ⟨fun j => ?_, fun i => ?_, ?_, fun i j => ?_⟩
  · simp only [(hc _).1]
    exact hU.betas (.inl j)
  · simp only [(hc _).2.1]
    exact hU.betas (.inr i)
  · simp only [hsig]
    rw [integral_mul_const, hU.sig2]
  · have := hU.vm (.inl i) (.inl j)
    simp only [Sum.elim_inl, ← (hc _).1] at this
    rw [← this, ← integral_const_mul]
    refine integral_congr_ae (.of_forall fun ω => ?_)
    show (f ω).vm i j = _
    rw [(hc ω).2.2.2.2, Matrix.smul_apply, of_apply, hsig, smul_eq_mul]
    show _ = _ * (sig2nk (o ω).u (Fintype.card (k ⊕ n)) * (o ω).xtxi (.inl i) (.inl j))
    ring
/-- **C167**, the part that holds for `PanelFE`: coefficients and fixed effects are right on average. -/
theorem C167_fe_partial [Nonempty τ] {s : ℝ} (h : Errors P e fun _ => s) (x : Matrix (τ × n) k ℝ)
    (hk : Fintype.card (k ⊕ n) < Fintype.card (τ × n)) (beta : k → ℝ) (mu : n → ℝ)
    (f : Ω → FEFit τ n k) (hf : ∀ ω, panelFE (fun a => (x *ᵥ beta) a + mu a.2 + e ω a) x = some (f ω)) :
    (∀ j, ∫ ω, (f ω).betas j ∂P = beta j) ∧ ∀ i, ∫ ω, (f ω).fixedEffects i ∂P = mu i :=
  ⟨(fe_means h x hk beta mu f hf).1, (fe_means h x hk beta mu f hf).2.1⟩

/-- C167 fails for the variances of `PanelFE`: with at least one regressor the variance of the errors is too small on average, and
the expected variance of a coefficient is the same fraction of its actual variance. -/
theorem C167_fe_violated [Nonempty τ] [Nonempty k] {s : ℝ} (h0 : 0 < s) (h : Errors P e fun _ => s) (x : Matrix (τ × n) k ℝ)
    (hk : Fintype.card (k ⊕ n) < Fintype.card (τ × n)) (beta : k → ℝ) (mu : n → ℝ)
    (f : Ω → FEFit τ n k) (hf : ∀ ω, panelFE (fun a => (x *ᵥ beta) a + mu a.2 + e ω a) x = some (f ω)) :
    ∫ ω, (f ω).sig2 ∂P < s ∧ ∃ c : ℝ, 0 < c ∧ c < 1 ∧ ∫ ω, (f ω).sig2 ∂P = c * s ∧
      ∀ j, ∫ ω, (f ω).vm j j ∂P = c * ∫ ω, ((f ω).betas j - beta j) ^ 2 ∂P := by
  obtain ⟨-, -, h1, h2⟩ := fe_means h x hk beta mu f hf
  have hk' : (Fintype.card (k ⊕ n) : ℝ) < Fintype.card (τ × n) := by exact_mod_cast hk
  have hp : (0 : ℝ) < Fintype.card k := by exact_mod_cast Fintype.card_pos
  have hc : (Fintype.card (k ⊕ n) : ℝ) = Fintype.card k + Fintype.card n := by rw [Fintype.card_sum]; push_cast; rfl
  have c1 : ((Fintype.card (τ × n) : ℝ) - Fintype.card (k ⊕ n)) / (Fintype.card (τ × n) - Fintype.card n) < 1 := by
    rw [div_lt_one (by linarith)]; linarith
  refine ⟨?_, _, div_pos (by linarith) (by linarith), c1, by rw [h1, mul_comm], fun j => ?_⟩
  · rw [h1]
    exact mul_lt_of_lt_one_right h0 c1
  · rw [h2 j j]
    simp only [sq]

/-- Two units in three periods, one regressor. -/
def xfe : Matrix (Fin 3 × Fin 2) Unit ℝ := fun a _ => a.1.1

/-- A case for the theorems about `PanelFE`. -/
theorem C167_fe_example : ∃ P : Measure (Fin 3 × Fin 2 → ℝ), Errors P (fun u => u) (fun _ => 1) ∧
    Fintype.card (Unit ⊕ Fin 2) < Fintype.card (Fin 3 × Fin 2) ∧ ∀ y, (panelFE y xfe).isSome := by
  refine ⟨Measure.pi fun _ => DGPRandom.npNormal 0 1, ?_, by simp, fun y => ?_⟩
  · have h := DGPRandom.pi_sample (ι := Fin 3 × Fin 2) fun _ => DGPRandom.normal_moments 0 1
    have := h.prob
    refine ⟨h.prob, h.sq, h.mean, fun i j => ?_⟩
    have c := h.cov i j
    rw [covariance_eq_sub (h.sq i) (h.sq j), h.mean i, h.mean j, mul_zero, sub_zero] at c
    simpa using c
  · have h1 : IsUnit ((xfe - tileM (Fin 3) (unitMeanM xfe))ᵀ * (xfe - tileM (Fin 3) (unitMeanM xfe))).det := by
      rw [det_unique, mul_apply, Fintype.sum_prod_type]
      simp [Fin.sum_univ_three, xfe, tileM, unitMeanM]
      norm_num
    have h2 : IsUnit (xfeᵀ * xfe).det := by
      rw [det_unique, mul_apply, Fintype.sum_prod_type]
      simp [Fin.sum_univ_three, xfe]
      norm_num
    simp only [panelFE, ols_of_isUnit _ _ h1, Option.bind_some, inv?_of_isUnit h2, Option.map_some, Option.isSome_some]

end Spreg.Sampling
