import Verif.Model.PanelGLS
import Verif.Props.PanelML2
import Verif.Props.SUR
/-
C103: PanelFE is the regression with one dummy variable per unit.
-/
namespace Spreg.PanelGLS
open Matrix Spreg.Lin Spreg.PanelML

variable {τ n k : Type} [Fintype τ] [Fintype n] [Fintype k] [DecidableEq τ] [DecidableEq n] [DecidableEq k]

/-- Regressors and one dummy variable per unit (specification). -/
def withDummies (x : Matrix (τ × n) k ℝ) : Matrix (τ × n) (k ⊕ n) ℝ :=
  Matrix.of fun a => Sum.elim (x a) fun i => if a.2 = i then 1 else 0

theorem dem_eq (y : τ × n → ℝ) : y - tile τ (unitMean y) = quasi τ n 0 *ᵥ y := by
  funext a; rw [quasi0_apply]; rfl

theorem demM_eq (x : Matrix (τ × n) k ℝ) : x - tileM τ (unitMeanM x) = quasi τ n 0 * x := by
  ext a j
  have : (quasi τ n 0 * x) a j = (quasi τ n 0 *ᵥ fun a => x a j) a := rfl
  rw [this, quasi0_apply]; rfl

theorem withDummies_mulVec (x : Matrix (τ × n) k ℝ) (b : k → ℝ) (m : n → ℝ) (a : τ × n) :
    (withDummies x *ᵥ Sum.elim b m) a = (x *ᵥ b) a + m a.2 := by
  simp [withDummies, mulVec, dotProduct, Fintype.sum_sum_type]

theorem quasi0_symm : (quasi τ n 0)ᵀ = quasi τ n 0 := by rw [quasi_eq, mix_transpose]; simp

theorem quasi0_idem [Nonempty τ] : quasi τ n 0 * quasi τ n 0 = quasi τ n 0 := by rw [quasi_eq, mix_mul]; simp

/-- The dummies have full rank with the regressors exactly when the demeaned regressors have. -/
theorem dummies_rank [Nonempty τ] (x : Matrix (τ × n) k ℝ) :
    IsUnit ((withDummies x)ᵀ * withDummies x).det ↔ IsUnit ((quasi τ n 0 * x)ᵀ * (quasi τ n 0 * x)).det := by
  rw [xtx_isUnit_iff, xtx_isUnit_iff]
  constructor
  · intro h b hb
    have := h (Sum.elim b (fun i => -(unitMean (x *ᵥ b) i))) (by
      funext a
      rw [withDummies_mulVec]
      have h1 := congrFun hb a
      rw [← mulVec_mulVec, ← dem_eq] at h1
      simpa [tile, sub_eq_add_neg] using h1)
    funext j
    exact congrFun this (.inl j)
  · intro h v hv
    have hv' : v = Sum.elim (fun j => v (.inl j)) (fun i => v (.inr i)) := by
      funext c; rcases c with c | c <;> rfl
    rw [hv'] at hv
    have e : x *ᵥ (fun j => v (.inl j)) + (fun a : τ × n => v (.inr a.2)) = 0 := by
      funext a
      have := congrFun hv a
      rw [withDummies_mulVec] at this
      exact this
    have h1 : (quasi τ n 0 * x) *ᵥ (fun j => v (.inl j)) = 0 := by
      have := congrArg (fun z => quasi τ n 0 *ᵥ z) e
      simp only [mulVec_add, mulVec_zero] at this
      rw [quasi0_unit (fun i => v (.inr i)), add_zero, mulVec_mulVec] at this
      exact this
    have h2 := h _ h1
    funext c
    rcases c with j | i
    · exact congrFun h2 j
    · obtain ⟨s⟩ := ‹Nonempty τ›
      have := congrFun e (s, i)
      rw [h2, mulVec_zero] at this
      simpa using this

theorem quasi0_mean [Nonempty τ] (v : τ × n → ℝ) : unitMean (quasi τ n 0 *ᵥ v) = 0 := by
  have hT : (Fintype.card τ : ℝ) ≠ 0 := by exact_mod_cast Fintype.card_ne_zero
  funext i
  unfold unitMean
  simp only [quasi0_apply, Finset.sum_sub_distrib, Finset.sum_const, Finset.card_univ, nsmul_eq_mul]
  rw [mul_div_cancel₀ _ hT, sub_self, zero_div]; rfl

/-- C103: PanelFE is the regression on the regressors and one dummy variable per unit: it succeeds exactly when that regression
does, and then reports its coefficients, its intercepts (twice, as `fixed_effects` and `mu_i`) and the corresponding block of its
variance matrix, up to the estimate of the variance, which is the sum of squared residuals divided by `NT - N`. -/
theorem C103_lsdv_partial [Nonempty τ] (y : τ × n → ℝ) (x : Matrix (τ × n) k ℝ) :
    ((panelFE y x).isSome ↔ (ols (withDummies x) y).isSome) ∧
    ∀ f o, panelFE y x = some f → ols (withDummies x) y = some o →
      (∀ j, f.betas j = o.betas (.inl j)) ∧ (∀ i, f.fixedEffects i = o.betas (.inr i)) ∧ f.mu = f.fixedEffects ∧
      f.sig2 = utu o.u / (Fintype.card (τ × n) - Fintype.card n) ∧
      f.vm = f.sig2 • Matrix.of fun i j => o.xtxi (.inl i) (.inl j) := by
  have hstart : ∀ f, panelFE y x = some f → IsUnit ((quasi τ n 0 * x)ᵀ * (quasi τ n 0 * x)).det := by
    intro f hf
    unfold panelFE at hf
    simp only [dem_eq, demM_eq, Option.bind_eq_some_iff] at hf
    obtain ⟨reg, hreg, -⟩ := hf
    exact (ols_eq_some hreg).1
  constructor
  · constructor
    · intro h
      obtain ⟨f, hf⟩ := Option.isSome_iff_exists.1 h
      rw [ols_of_isUnit _ _ ((dummies_rank x).2 (hstart f hf))]; rfl
    · intro h
      obtain ⟨o, ho⟩ := Option.isSome_iff_exists.1 h
      have hu := (dummies_rank x).1 (ols_eq_some ho).1
      have hu2 : IsUnit (xᵀ * x).det := by
        rw [xtx_isUnit_iff]
        intro v hv
        exact (xtx_isUnit_iff _).1 hu v (by rw [← mulVec_mulVec, hv, mulVec_zero])
      unfold panelFE
      simp only [dem_eq, demM_eq]
      rw [ols_of_isUnit _ _ hu, Option.bind_some, inv?_of_isUnit hu2, Option.map_some]
      rfl
  · intro f o hf ho
    have hu := hstart f hf
    obtain ⟨hD, ho'⟩ := ols_eq_some ho
    unfold panelFE at hf
    simp only [dem_eq, demM_eq, Option.bind_eq_some_iff, Option.map_eq_some_iff] at hf
    obtain ⟨reg, hreg, xi, hxi, rfl⟩ := hf
    obtain ⟨-, rfl⟩ := ols_eq_some hreg
    dsimp only
    set xd := quasi τ n 0 * x with hxd
    set reg := olsWith xd (quasi τ n 0 *ᵥ y) (xdᵀ * xd)⁻¹ with hregd
    have hne : xdᵀ *ᵥ reg.u = 0 := normal_eq xd _ hu
    have hru : reg.u = quasi τ n 0 *ᵥ (y - x *ᵥ reg.betas) := by
      rw [mulVec_sub, mulVec_mulVec]; rfl
    have hfe : unitMean y - unitMeanM x *ᵥ reg.betas = unitMean (y - x *ᵥ reg.betas) := by
      funext i
      simp only [unitMean, unitMeanM, Pi.sub_apply, mulVec, dotProduct, of_apply, Finset.sum_sub_distrib, sub_div]
      congr 1
      rw [Finset.sum_comm, Finset.sum_div]
      refine Finset.sum_congr rfl fun j _ => ?_
      rw [← Finset.sum_mul]; ring
    have hres : y - withDummies x *ᵥ Sum.elim reg.betas (unitMean (y - x *ᵥ reg.betas)) = reg.u := by
      rw [hru, ← dem_eq]
      funext a
      rw [Pi.sub_apply, withDummies_mulVec]
      simp only [tile, Pi.sub_apply]
      ring
    have hnd : (withDummies x)ᵀ *ᵥ reg.u = 0 := by
      funext c
      rcases c with j | i
      · have h1 : ((withDummies x)ᵀ *ᵥ reg.u) (.inl j) = (xᵀ *ᵥ reg.u) j := rfl
        have h2 : quasi τ n 0 *ᵥ reg.u = reg.u := by rw [hru, mulVec_mulVec, quasi0_idem]
        have h3 : xᵀ *ᵥ reg.u = xdᵀ *ᵥ reg.u := by
          rw [hxd, transpose_mul, quasi0_symm, ← mulVec_mulVec, h2]
        rw [h1, h3, hne]; rfl
      · have h1 : ((withDummies x)ᵀ *ᵥ reg.u) (.inr i) = ∑ s, reg.u (s, i) := by
          simp [mulVec, dotProduct, withDummies, Fintype.sum_prod_type]
        have h2 := congrFun (quasi0_mean (y - x *ᵥ reg.betas)) i
        rw [← hru] at h2
        have hT : (Fintype.card τ : ℝ) ≠ 0 := by exact_mod_cast Fintype.card_ne_zero
        rw [h1]
        have h3 : (∑ s, reg.u (s, i)) / Fintype.card τ = 0 := h2
        rcases div_eq_zero_iff.1 h3 with h | h
        · exact h
        · exact absurd h hT
    obtain ⟨o2, ho2, hb⟩ := SUR.ols_of_normal (withDummies x) y _ hD (by rw [hres]; exact hnd)
    rw [ho] at ho2
    obtain rfl := Option.some.inj ho2
    have hou : o.u = reg.u := by
      rw [← hres, ← hb, ho']; rfl
    refine ⟨fun j => by rw [hb]; rfl, fun i => by rw [hb, hfe]; rfl, ?_, ?_, ?_⟩
    · rw [hfe]
    · rw [hou, card_prod]
    · congr 1
      have hox : o.xtxi = ((withDummies x)ᵀ * withDummies x)⁻¹ := by rw [ho']; rfl
      rw [hox]
      set B := ((withDummies x)ᵀ * withDummies x)⁻¹ with hB
      show (xdᵀ * xd)⁻¹ = _
      apply Matrix.inv_eq_right_inv
      have hGB : (withDummies x)ᵀ * withDummies x * B = 1 := mul_nonsing_inv _ hD
      -- the demeaned regressors are a combination of regressors and dummies
      set E : Matrix (k ⊕ n) k ℝ := Matrix.of (Sum.elim (1 : Matrix k k ℝ) (-(unitMeanM x))) with hE
      have h1 : withDummies x * E = xd := by
        rw [hxd, ← demM_eq]
        ext a j
        have e1 : (withDummies x * E) a j =
            (withDummies x *ᵥ Sum.elim (fun c => (1 : Matrix k k ℝ) c j) (fun i => -(unitMeanM x i j))) a := by
          rw [Matrix.mul_apply, mulVec, dotProduct]
          refine Finset.sum_congr rfl fun c _ => ?_
          rcases c with c | c <;> rfl
        have e2 : (x *ᵥ fun c => (1 : Matrix k k ℝ) c j) a = x a j := by
          simp [mulVec, dotProduct, one_apply]
        rw [e1, withDummies_mulVec, e2, ← sub_eq_add_neg]
        rfl
      have h2 : ∀ c, (xdᵀ * withDummies x) c = Sum.elim ((xdᵀ * xd) c) 0 := by
        intro c
        funext d
        rcases d with d | i
        · have e1 : (xdᵀ * withDummies x) c (.inl d) = (xdᵀ * x) c d := rfl
          rw [e1, Sum.elim_inl]
          have e2 : xdᵀ * xd = xdᵀ * x := by
            have : quasi τ n 0 * xd = xd := by rw [hxd, ← Matrix.mul_assoc, quasi0_idem]
            calc xdᵀ * xd = xdᵀ * (quasi τ n 0 * x) := rfl
              _ = (quasi τ n 0 * xd)ᵀ * x := by
                rw [transpose_mul (quasi τ n 0) xd, quasi0_symm, Matrix.mul_assoc]
              _ = xdᵀ * x := by rw [this]
          rw [e2]
        · have e1 : (xdᵀ * withDummies x) c (.inr i) = ∑ s, xd (s, i) c := by
            simp [Matrix.mul_apply, withDummies, Fintype.sum_prod_type]
          rw [e1, Sum.elim_inr]
          have h2 := congrFun (quasi0_mean (fun a => x a c)) i
          have hT : (Fintype.card τ : ℝ) ≠ 0 := by exact_mod_cast Fintype.card_ne_zero
          have h3 : (∑ s, xd (s, i) c) / Fintype.card τ = 0 := h2
          rcases div_eq_zero_iff.1 h3 with h | h
          · exact h
          · exact absurd h hT
      have h3 : Eᵀ = xdᵀ * withDummies x * B := by
        rw [← h1, transpose_mul, Matrix.mul_assoc Eᵀ, Matrix.mul_assoc Eᵀ, hGB, Matrix.mul_one]
      ext c d
      have h4 := congrFun (congrFun h3 c) (.inl d)
      rw [Matrix.mul_apply] at h4
      simp only [h2, Fintype.sum_sum_type, Sum.elim_inl, Sum.elim_inr, Pi.zero_apply, zero_mul, Finset.sum_const_zero,
        add_zero] at h4
      rw [Matrix.mul_apply]
      simp only [of_apply]
      have h5 : Eᵀ c (.inl d) = (1 : Matrix k k ℝ) d c := rfl
      rw [← h4, h5, one_apply, one_apply]
      simp only [eq_comm]

/-- C103: `u` of PanelFE is the residual of the regression with dummies plus the fixed effect of the unit (`predy` leaves the fixed
effects out). -/
theorem C103_residuals [Nonempty τ] (y : τ × n → ℝ) (x : Matrix (τ × n) k ℝ) (f : FEFit τ n k)
    (o : OLSFit (τ × n) (k ⊕ n)) (hf : panelFE y x = some f) (ho : ols (withDummies x) y = some o) :
    f.predy = x *ᵥ f.betas ∧ f.u = y - f.predy ∧ ∀ t i, f.u (t, i) = o.u (t, i) + f.fixedEffects i := by
  obtain ⟨h1, h2, -⟩ := (C103_lsdv_partial y x).2 f o hf ho
  have hp : f.predy = x *ᵥ f.betas ∧ f.u = y - f.predy := by
    unfold panelFE at hf
    simp only [Option.bind_eq_some_iff, Option.map_eq_some_iff] at hf
    obtain ⟨_, _, _, _, rfl⟩ := hf
    exact ⟨rfl, rfl⟩
  refine ⟨hp.1, hp.2, fun t i => ?_⟩
  obtain ⟨-, ho'⟩ := ols_eq_some ho
  have hu : o.u = y - withDummies x *ᵥ o.betas := by rw [ho']; rfl
  have hb : o.betas = Sum.elim f.betas f.fixedEffects := by
    funext j
    cases j with
    | inl j => exact (h1 j).symm
    | inr i => exact (h2 i).symm
  rw [hp.2, hp.1, hu, hb, Pi.sub_apply, Pi.sub_apply, withDummies_mulVec]
  ring

/-- C103 fails for the variance: whenever there are regressors and residuals that are not all zero, `sig2` of PanelFE is smaller
than the residual variance of the regression with dummies, `SSR / (NT - N - k)`, because `df_resid` does not count the
regressors; all reported variances are too small by the same factor. -/
theorem C103_df_violated [Nonempty τ] [Nonempty k] (y : τ × n → ℝ) (x : Matrix (τ × n) k ℝ) (f : FEFit τ n k)
    (o : OLSFit (τ × n) (k ⊕ n)) (hf : panelFE y x = some f) (ho : ols (withDummies x) y = some o) (h0 : o.u ≠ 0)
    (hdf : Fintype.card (k ⊕ n) < Fintype.card (τ × n)) :
    f.sig2 < sig2nk o.u (Fintype.card (k ⊕ n)) := by
  obtain ⟨-, -, -, h, -⟩ := (C103_lsdv_partial y x).2 f o hf ho
  rw [h]
  unfold sig2nk
  have hpos : 0 < utu o.u := lt_of_le_of_ne (utu_nonneg _) fun e => h0 ((utu_eq_zero _).1 e.symm)
  have hk : (0 : ℝ) < Fintype.card k := by exact_mod_cast Fintype.card_pos
  have hlt : (Fintype.card (k ⊕ n) : ℝ) < Fintype.card (τ × n) := by exact_mod_cast hdf
  have hs : (Fintype.card (k ⊕ n) : ℝ) = Fintype.card k + Fintype.card n := by rw [Fintype.card_sum]; push_cast; rfl
  apply div_lt_div_of_pos_left hpos (by linarith) (by linarith)

end Spreg.PanelGLS
