import Verif.Model.RegDiag
import Verif.Props.LM
import Verif.Props.RegimesMat
/-
C160: the spatial diagnostics of `OLS_Regimes` are those of its regression, with the degrees of freedom of what they test.
-/
namespace Spreg.RegDiag
open Matrix Spreg Spreg.Lin Spreg.LM

variable {n k q ρ p : Type} [Fintype n] [Fintype k] [Fintype q] [Fintype ρ] [Fintype p]

/-- Specification: the tests for spatial lags of `m` regressors have `m` degrees of freedom, the joint tests with one more
parameter (lag or error) `m + 1`; the printed number is the one used for the p-value. -/
structure RightDF [DecidableEq k] [DecidableEq q] (d : Diag n k) (W : Matrix n n ℝ) (sel : q → k) : Prop where
  wx : ∀ t, wxTest d W sel = some t → t.df = Fintype.card q
  robust : ∀ t, robustWX d W sel = some t → t.df = Fintype.card q
  joint : ∀ t, jointTest d W sel = some t → t.df = Fintype.card q + 1
  err : ∀ t, errWX d W sel = some t → t.df = Fintype.card q + 1
  printed : ∀ t, jointTest d W sel = some t → jointPrinted d = t.df

/-- Specification: mean and variance of Moran's I of least squares residuals (Cliff and Ord): `M = I - X (X'X)^{-1} X'` and as
many degrees of freedom as observations less columns of the design. -/
def CliffOrd [DecidableEq n] [DecidableEq k] (X : Matrix n k ℝ) (W : Matrix n n ℝ) (mean var : ℝ) : Prop :=
  let M : Matrix n n ℝ := 1 - X * (Xᵀ * X)⁻¹ * Xᵀ
  let nn : ℝ := Fintype.card n
  let kk : ℝ := Fintype.card k
  let S0 : ℝ := ∑ i, ∑ j, W i j
  mean = nn / S0 * (trace (M * W) / (nn - kk)) ∧
  var = (nn / S0) ^ 2 * ((trace (M * W * (M * Wᵀ)) + trace (M * W * (M * W)) + trace (M * W) ^ 2)
        / ((nn - kk) * (nn - kk + 2))) - mean ^ 2

theorem wxTest_df [DecidableEq q] {d : Diag n k} {W : Matrix n n ℝ} {sel : q → k} {t : Test} (h : wxTest d W sel = some t) :
    t.df = d.kAttr - 1 := by
  unfold wxTest at h
  obtain ⟨_, -, rfl⟩ := Option.map_eq_some_iff.1 h
  rfl

theorem robustWX_df [DecidableEq k] [DecidableEq q] {d : Diag n k} {W : Matrix n n ℝ} {sel : q → k} {t : Test}
    (h : robustWX d W sel = some t) : t.df = d.kAttr - 1 := by
  unfold robustWX at h
  obtain ⟨_, -, rfl⟩ := Option.map_eq_some_iff.1 h
  rfl

theorem jointTest_df [DecidableEq k] [DecidableEq q] {d : Diag n k} {W : Matrix n n ℝ} {sel : q → k} {t : Test}
    (h : jointTest d W sel = some t) : t.df = Fintype.card k := by
  unfold jointTest at h
  obtain ⟨_, -, rfl⟩ := Option.map_eq_some_iff.1 h
  rfl

theorem errWX_df [DecidableEq q] {d : Diag n k} {W : Matrix n n ℝ} {sel : q → k} {t : Test} (h : errWX d W sel = some t) :
    t.df = d.kAttr := by
  unfold errWX at h
  obtain ⟨_, -, rfl⟩ := Option.map_eq_some_iff.1 h
  rfl

theorem plain_eq [DecidableEq k] {x : Matrix n k ℝ} {y : n → ℝ} {d : Diag n k} (h : plain x y = some d) :
    LM.reg x y = some d.reg ∧ d.kAttr = Fintype.card k := by
  unfold plain at h
  obtain ⟨r, hr, rfl⟩ := Option.map_eq_some_iff.1 h
  exact ⟨hr, rfl⟩

theorem right_of_card [DecidableEq k] [DecidableEq q] {x : Matrix n k ℝ} {y : n → ℝ} {d : Diag n k} (h : plain x y = some d)
    (W : Matrix n n ℝ) (sel : q → k) (hk : Fintype.card k = Fintype.card q + 1) : RightDF d W sel := by
  obtain ⟨-, e⟩ := plain_eq h
  refine ⟨fun t ht => ?_, fun t ht => ?_, fun t ht => ?_, fun t ht => ?_, fun t ht => ?_⟩
  · rw [wxTest_df ht]; omega
  · rw [robustWX_df ht]; omega
  · rw [jointTest_df ht]; omega
  · rw [errWX_df ht]; omega
  · rw [jointTest_df ht, jointPrinted, e]

/-- C160: the statistics are those of the tests `lm_wx`, `lm_spdurbin`, `rlm_wx` and `lm_slxerr` on the regression reported
(`Spec/Score` and C17, C83 say what those are), and the design of `OLS` and of the regimes starts with a column of ones. -/
theorem C160_stats [DecidableEq k] [DecidableEq q] (d : Diag n k) (W : Matrix n n ℝ) (sel : q → k) :
    (∀ t, wxTest d W sel = some t → ∃ a, lmWX d.reg W sel = some a ∧ t.stat = a.stat) ∧
    (∀ t, jointTest d W sel = some t → ∃ a, lmSpDurbin d.reg W sel = some a ∧ t.stat = a.stat) ∧
    (∀ t, robustWX d W sel = some t →
      ∃ a, lmSpDurbin d.reg W sel = some a ∧ t.stat = (rlmWX d.reg a (lmLag d.reg W)).stat) ∧
    (∀ t, errWX d W sel = some t →
      ∃ a, lmWX d.reg W sel = some a ∧ t.stat = (lmSlxErr d.reg (lmErr d.reg W) a).stat) ∧
    ∀ (x : Matrix n p ℝ) (i : n), withConst x i none = 1 ∧ ∀ j, withConst x i (some j) = x i j := by
  refine ⟨fun t h => ?_, fun t h => ?_, fun t h => ?_, fun t h => ?_, fun x i => ⟨rfl, fun j => rfl⟩⟩
  · obtain ⟨a, ha, rfl⟩ := Option.map_eq_some_iff.1 h
    exact ⟨a, ha, rfl⟩
  · obtain ⟨a, ha, rfl⟩ := Option.map_eq_some_iff.1 h
    exact ⟨a, ha, rfl⟩
  · obtain ⟨b, hb, rfl⟩ := Option.map_eq_some_iff.1 h
    obtain ⟨a, ha, rfl⟩ := Option.map_eq_some_iff.1 hb
    exact ⟨a, ha, rfl⟩
  · obtain ⟨b, hb, rfl⟩ := Option.map_eq_some_iff.1 h
    obtain ⟨a, ha, rfl⟩ := Option.map_eq_some_iff.1 hb
    exact ⟨a, ha, rfl⟩

/-- C160, models without regimes: `OLS` with a constant. -/
theorem C160_plain [DecidableEq p] (x : Matrix n p ℝ) (y : n → ℝ) (d : Diag n (Option p))
    (h : plain (withConst x) y = some d) (W : Matrix n n ℝ) :
    RightDF d W (fun j : {c : Option p // c.isSome = true} => j.1) := by
  refine right_of_card h W _ ?_
  have : Fintype.card {c : Option p // c.isSome = true} = Fintype.card p :=
    Fintype.card_congr (Equiv.optionIsSomeEquiv p)
  rw [this, Fintype.card_option]

/-- The columns of a pooled design are those of the variables and those of the constant. -/
theorem card_pooled [DecidableEq ρ] [DecidableEq p] (vary : Option p → Bool) :
    Fintype.card (GM.RCol vary ρ) =
      Fintype.card (PooledX vary ρ) + if vary none = true then Fintype.card ρ else 1 := by
  have h := Fintype.card_subtype_compl fun c : GM.RCol vary ρ => (varOf vary c).isSome = true
  have hle := Fintype.card_subtype_le fun c : GM.RCol vary ρ => (varOf vary c).isSome = true
  have hc : Fintype.card {c : GM.RCol vary ρ // ¬ (varOf vary c).isSome = true} =
      if vary none = true then Fintype.card ρ else 1 := by
    split_ifs with hv
    · refine (Fintype.card_of_bijective (f := fun r : ρ =>
        (⟨.inl (⟨none, hv⟩, r), by simp [varOf]⟩ : {c : GM.RCol vary ρ // ¬ (varOf vary c).isSome = true})) ⟨?_, ?_⟩).symm
      · intro r r' e
        simpa using e
      · rintro ⟨⟨⟨v, hv'⟩, r⟩ | ⟨v, hv'⟩, hc⟩
        · have h2 : v = none := by simpa [varOf] using hc
          subst h2; exact ⟨r, rfl⟩
        · have h2 : v = none := by simpa [varOf] using hc
          subst h2; rw [hv] at hv'; cases hv'
    · have hv' : vary none = false := by simpa using hv
      rw [Fintype.card_eq_one_iff]
      refine ⟨⟨.inr ⟨none, hv'⟩, by simp [varOf]⟩, ?_⟩
      rintro ⟨⟨⟨v, hw⟩, r⟩ | ⟨v, hw⟩, hc⟩
      · have h2 : v = none := by simpa [varOf] using hc
        subst h2; exact absurd hw hv
      · have h2 : v = none := by simpa [varOf] using hc
        subst h2; rfl
  have h' : Fintype.card (PooledX vary ρ) = Fintype.card {c : GM.RCol vary ρ // (varOf vary c).isSome = true} :=
    Fintype.card_congr (Equiv.refl _)
  rw [← hc, h, h']
  omega

/-- C160, pooled regression with one constant for all regimes, whatever varies: the degrees of freedom are right. -/
theorem C160_one_constant [DecidableEq ρ] [DecidableEq p] (x : Matrix n p ℝ) (y : n → ℝ) (g : n → ρ) (vary : Option p → Bool)
    (hv : vary none = false) (d : Diag n (GM.RCol vary ρ)) (h : pooled x y g vary = some d) (W : Matrix n n ℝ) :
    RightDF d W (fun c : PooledX vary ρ => c.1) := by
  refine right_of_card h W _ ?_
  rw [card_pooled, hv]; simp

/-- C160, violation: pooled regression with one constant per regime. The degrees of freedom exceed the number of lagged
regressors by the number of regimes less one. -/
theorem C160_constants_violated [DecidableEq ρ] [DecidableEq p] [Nonempty ρ] (x : Matrix n p ℝ) (y : n → ℝ) (g : n → ρ)
    (vary : Option p → Bool) (hv : vary none = true) (d : Diag n (GM.RCol vary ρ)) (h : pooled x y g vary = some d)
    (W : Matrix n n ℝ) :
    let sel := fun c : PooledX vary ρ => c.1
    (∀ t, wxTest d W sel = some t → t.df = Fintype.card (PooledX vary ρ) + (Fintype.card ρ - 1)) ∧
    (∀ t, robustWX d W sel = some t → t.df = Fintype.card (PooledX vary ρ) + (Fintype.card ρ - 1)) ∧
    (∀ t, jointTest d W sel = some t → t.df = Fintype.card (PooledX vary ρ) + 1 + (Fintype.card ρ - 1)) ∧
    (∀ t, errWX d W sel = some t → t.df = Fintype.card (PooledX vary ρ) + 1 + (Fintype.card ρ - 1)) ∧
    (2 ≤ Fintype.card ρ → (∃ t, jointTest d W sel = some t) → ¬ RightDF d W sel) := by
  intro sel
  obtain ⟨-, e⟩ := plain_eq h
  have hc := card_pooled (ρ := ρ) vary
  rw [hv, if_pos rfl] at hc
  have hp : 0 < Fintype.card ρ := Fintype.card_pos
  refine ⟨fun t ht => ?_, fun t ht => ?_, fun t ht => ?_, fun t ht => ?_, fun h2 ht hR => ?_⟩
  · rw [wxTest_df ht]; omega
  · rw [robustWX_df ht]; omega
  · rw [jointTest_df ht]; omega
  · rw [errWX_df ht]; omega
  · obtain ⟨t, ht⟩ := ht
    have := hR.joint t ht
    rw [jointTest_df ht] at this
    omega

/-- C160, Moran's I of the pooled regression, whatever varies: mean and variance are those of its design. -/
theorem C160_pooled_moran [DecidableEq n] [DecidableEq ρ] [DecidableEq p] (x : Matrix n p ℝ) (y : n → ℝ) (g : n → ρ)
    (vary : Option p → Bool) (d : Diag n (GM.RCol vary ρ)) (h : pooled x y g vary = some d) (W : Matrix n n ℝ)
    (hd : ∀ i, W i i = 0) (hk : Fintype.card (GM.RCol vary ρ) < Fintype.card n) :
    CliffOrd (GM.frame g vary (withConst x)) W (meanI d W) (varI d W) := by
  obtain ⟨h1, e⟩ := plain_eq h
  have := C60_moran_moments _ _ _ h1 W hd hk
  unfold CliffOrd
  have e1 : meanI d W = eI d.reg W := by unfold meanI eI; rw [e]
  have e2 : varI d W = vI d.reg W := by unfold varI vI; rw [e]
  rw [e1, e2]
  exact this

theorem fit_ext {a b : OLSFit n k} (h1 : a.xtx = b.xtx) (h2 : a.xtxi = b.xtxi) (h3 : a.betas = b.betas)
    (h4 : a.predy = b.predy) (h5 : a.u = b.u) : a = b := by
  cases a; cases b
  simp only at h1 h2 h3 h4 h5
  subst h1 h2 h3 h4 h5
  rfl

/-- C160, one regression per regime: the object handed to the diagnostics is, apart from `reg.k`, the least squares regression
of `y` on the expanded design. Every statistic is therefore that of this regression. -/
theorem C160_multi_statistics [DecidableEq ρ] [DecidableEq p] (x : Matrix n p ℝ) (y : n → ℝ) (g : n → ρ)
    (d : Diag n (Option p × ρ)) (h : multi x y g = some d) :
    ∃ d', plain (RegimesMat.expand (withConst x) g) y = some d' ∧ d.reg = d'.reg ∧ d.kAttr = Fintype.card p + 1 ∧
      d'.kAttr = Fintype.card ρ * (Fintype.card p + 1) := by
  unfold multi at h
  simp only at h
  split_ifs at h with hs
  obtain ⟨xtxi, hi, rfl⟩ := Option.map_eq_some_iff.1 h
  have hf : ∀ r, ols (RegimesMat.sub (withConst x) g r) (RegimesMat.subv y g r) =
      some ((ols (RegimesMat.sub (withConst x) g r) (RegimesMat.subv y g r)).get (hs r)) := fun r => (Option.some_get _).symm
  obtain ⟨f, e0, e1, e2, e3, -, -⟩ := RegimesMat.C28_pooled _ _ _ _ hf
  obtain ⟨-, hxi, -⟩ := inv?_eq_some hi
  obtain ⟨-, hff⟩ := ols_eq_some e0
  refine ⟨⟨⟨RegimesMat.expand (withConst x) g, y, f⟩, Fintype.card (Option p × ρ)⟩, ?_, ?_, Fintype.card_option, ?_⟩
  · unfold plain LM.reg; rw [e0]; rfl
  · have hx1 : f.xtx = (RegimesMat.expand (withConst x) g)ᵀ * RegimesMat.expand (withConst x) g := by rw [hff]; rfl
    have hx2 : f.xtxi = xtxi := by rw [hff, hxi]; rfl
    have hb : f.betas = fun c : Option p × ρ => ((ols (RegimesMat.sub (withConst x) g c.2) (RegimesMat.subv y g c.2)).get (hs c.2)).betas c.1 := by
      funext c; exact e1 c.2 c.1
    refine congrArg (Reg.mk (RegimesMat.expand (withConst x) g) y) (fit_ext ?_ ?_ ?_ ?_ ?_)
    · exact hx1.symm
    · exact hx2.symm
    · exact hb.symm
    · exact (funext e2).symm
    · exact (funext e3).symm
  · rw [Fintype.card_prod, Fintype.card_option, Nat.mul_comm]

/-- The diagnostics of the regimes exist when, and only when, every regime's regression does. -/
theorem C160_multi_exists [DecidableEq ρ] [DecidableEq p] (x : Matrix n p ℝ) (y : n → ℝ) (g : n → ρ) :
    (∃ d, multi x y g = some d) ↔ ∀ r, ∃ f, ols (RegimesMat.sub (withConst x) g r) (RegimesMat.subv y g r) = some f := by
  constructor
  · rintro ⟨d, h⟩ r
    unfold multi at h
    simp only at h
    split_ifs at h with hs
    exact Option.isSome_iff_exists.1 (hs r)
  · intro h
    have hs : ∀ r, (ols (RegimesMat.sub (withConst x) g r) (RegimesMat.subv y g r)).isSome = true :=
      fun r => Option.isSome_iff_exists.2 (h r)
    have hu := (RegimesMat.expand_isUnit (withConst x) g).2 fun r => by
      obtain ⟨f, hf⟩ := h r
      exact (ols_eq_some hf).1
    unfold multi
    simp only
    rw [dif_pos hs, inv?_of_isUnit hu]
    exact ⟨_, rfl⟩

theorem card_multiX [DecidableEq p] : Fintype.card (MultiX p ρ) = Fintype.card ρ * Fintype.card p := by
  have : Fintype.card (MultiX p ρ) = Fintype.card (p × ρ) := by
    refine Fintype.card_congr ⟨fun c => (c.1.1.get c.2, c.1.2), fun a => ⟨(some a.1, a.2), rfl⟩, ?_, ?_⟩
    · rintro ⟨⟨v, r⟩, h⟩
      simp
    · rintro ⟨a, r⟩
      simp
  rw [this, Fintype.card_prod, Nat.mul_comm]

/-- C160, violation: one regression per regime. The tests for the lags of the regressors use the number of variables of one
regime although the lags of all regimes are tested; the joint test uses the number of all coefficients; the number printed beside
it is another one. -/
theorem C160_multi_violated [DecidableEq ρ] [DecidableEq p] (x : Matrix n p ℝ) (y : n → ℝ) (g : n → ρ)
    (d : Diag n (Option p × ρ)) (h : multi x y g = some d) (W : Matrix n n ℝ) :
    let sel := fun c : MultiX p ρ => c.1
    Fintype.card (MultiX p ρ) = Fintype.card ρ * Fintype.card p ∧
    (∀ t, wxTest d W sel = some t → t.df = Fintype.card p) ∧
    (∀ t, robustWX d W sel = some t → t.df = Fintype.card p) ∧
    (∀ t, jointTest d W sel = some t → t.df = Fintype.card ρ * (Fintype.card p + 1)) ∧
    (∀ t, errWX d W sel = some t → t.df = Fintype.card p + 1) ∧
    jointPrinted d = Fintype.card p + 1 ∧
    (2 ≤ Fintype.card ρ → (∃ t, jointTest d W sel = some t) → ¬ RightDF d W sel) := by
  intro sel
  obtain ⟨d', -, -, e, -⟩ := C160_multi_statistics x y g d h
  have hc : Fintype.card (Option p × ρ) = Fintype.card ρ * (Fintype.card p + 1) := by
    rw [Fintype.card_prod, Fintype.card_option, Nat.mul_comm]
  refine ⟨card_multiX, fun t ht => ?_, fun t ht => ?_, fun t ht => ?_, fun t ht => ?_, e, fun h2 ht hR => ?_⟩
  · rw [wxTest_df ht]; omega
  · rw [robustWX_df ht]; omega
  · rw [jointTest_df ht, hc]
  · rw [errWX_df ht, e]
  · obtain ⟨t, ht⟩ := ht
    have := hR.printed t ht
    rw [jointTest_df ht, hc, jointPrinted, e] at this
    have : 2 * (Fintype.card p + 1) ≤ Fintype.card ρ * (Fintype.card p + 1) := Nat.mul_le_mul_right _ h2
    omega

/-- C160, violation: the mean of Moran's I for one regression per regime is off by the factor
`(n - all coefficients) / (n - coefficients of one regime)`. -/
theorem C160_multi_moran_violated [DecidableEq n] [DecidableEq ρ] [DecidableEq p] (x : Matrix n p ℝ) (y : n → ℝ) (g : n → ρ)
    (d : Diag n (Option p × ρ)) (h : multi x y g = some d) (W : Matrix n n ℝ) (hd : ∀ i, W i i = 0)
    (hk : Fintype.card ρ * (Fintype.card p + 1) < Fintype.card n) (hρ : 1 ≤ Fintype.card ρ) (mean var : ℝ)
    (hco : CliffOrd (RegimesMat.expand (withConst x) g) W mean var) :
    meanI d W * ((Fintype.card n : ℝ) - (Fintype.card p + 1 : ℕ)) =
      mean * ((Fintype.card n : ℝ) - (Fintype.card ρ * (Fintype.card p + 1) : ℕ)) ∧
    (2 ≤ Fintype.card ρ → mean ≠ 0 → meanI d W ≠ mean) := by
  obtain ⟨d', h1, e, e1, e2⟩ := C160_multi_statistics x y g d h
  obtain ⟨hr, -⟩ := plain_eq h1
  have hc : Fintype.card (Option p × ρ) = Fintype.card ρ * (Fintype.card p + 1) := by
    rw [Fintype.card_prod, Fintype.card_option, Nat.mul_comm]
  have hm := (C60_moran_moments _ _ _ hr W hd (by rw [hc]; exact hk)).1
  have hmean : mean = eI d'.reg W := hco.1.trans hm.symm
  have hlt : ((Fintype.card ρ * (Fintype.card p + 1) : ℕ) : ℝ) < Fintype.card n := by exact_mod_cast hk
  have hle : ((Fintype.card p + 1 : ℕ) : ℝ) ≤ (Fintype.card ρ * (Fintype.card p + 1) : ℕ) := by
    exact_mod_cast Nat.le_mul_of_pos_left _ hρ
  have key : meanI d W * ((Fintype.card n : ℝ) - (Fintype.card p + 1 : ℕ)) =
      mean * ((Fintype.card n : ℝ) - (Fintype.card ρ * (Fintype.card p + 1) : ℕ)) := by
    rw [hmean]
    unfold meanI eI
    rw [e, e1, hc, div_mul_eq_div_div, div_mul_eq_div_div, div_mul_cancel₀, div_mul_cancel₀]
    · linarith
    · linarith
  refine ⟨key, fun h2 h0 he => ?_⟩
  rw [he] at key
  have := mul_left_cancel₀ h0 key
  have h3 : ((2 * (Fintype.card p + 1) : ℕ) : ℝ) ≤ (Fintype.card ρ * (Fintype.card p + 1) : ℕ) := by
    exact_mod_cast Nat.mul_le_mul_right _ h2
  push_cast at *
  have h4 : (0 : ℝ) ≤ Fintype.card p := Nat.cast_nonneg _
  linarith

/-! ### A case that meets the hypotheses: two regimes of four observations on a ring, one variable -/

/-- Every observation has one neighbour, the next of its regime. -/
def wRing : Matrix (Fin 4 × Fin 2) (Fin 4 × Fin 2) ℝ := Matrix.of fun i j => if j = (i.1 + 1, i.2) then 1 else 0

/-- The variable is one for the first observation of each regime. -/
def xRing : Matrix (Fin 4 × Fin 2) Unit ℝ := Matrix.of fun i _ => if i.1 = 0 then 1 else 0

/-- The dependent variable is one for the second. -/
def yRing : Fin 4 × Fin 2 → ℝ := fun i => if i.1 = 1 then 1 else 0

theorem wRing_mul (v : Fin 4 × Fin 2 → ℝ) (i : Fin 4 × Fin 2) : ∑ l, wRing i l * v l = v (i.1 + 1, i.2) := by
  simp [wRing]

theorem xRing_row (i : Fin 4 × Fin 2) (a : Option Unit × Fin 2 → ℝ) :
    ∑ j, RegimesMat.expand (withConst xRing) Prod.snd i j * a j = a (none, i.2) + (if i.1 = 0 then 1 else 0) * a (some (), i.2) := by
  rw [Fintype.sum_prod_type, Fintype.sum_option]
  simp [RegimesMat.expand, withConst, xRing]

theorem xRing_unit : IsUnit ((RegimesMat.expand (withConst xRing) Prod.snd)ᵀ * RegimesMat.expand (withConst xRing) Prod.snd).det := by
  rw [xtx_isUnit_iff]
  intro v hv
  have h : ∀ i : Fin 4 × Fin 2, v (none, i.2) + (if i.1 = 0 then 1 else 0) * v (some (), i.2) = 0 := fun i => by
    rw [← xRing_row]; exact congrFun hv i
  funext ⟨j, r⟩
  have h0 := h (0, r)
  have h1 := h (1, r)
  simp at h0 h1
  cases j with
  | none => exact h1
  | some u => rw [h1] at h0; simpa using h0

/-- In this case all tests exist: the hypotheses of C160_multi_violated are met, and its conclusion that the degrees of freedom
are wrong is reached: 1 instead of 2 for the lags, 4 (printed 2) instead of 3 for the joint test. -/
example : ∃ d, multi xRing yRing Prod.snd = some d ∧
    (∃ t, jointTest d wRing (fun c : MultiX Unit (Fin 2) => c.1) = some t ∧ t.df = 4) ∧
    (∃ t, wxTest d wRing (fun c : MultiX Unit (Fin 2) => c.1) = some t ∧ t.df = 1) ∧ jointPrinted d = 2 ∧
    ¬ RightDF d wRing (fun c : MultiX Unit (Fin 2) => c.1) := by
  have hm := (C160_multi_exists xRing yRing (Prod.snd : Fin 4 × Fin 2 → Fin 2)).2 fun r =>
    ⟨_, ols_of_isUnit _ _ ((RegimesMat.expand_isUnit (withConst xRing) Prod.snd).1 xRing_unit r)⟩
  obtain ⟨d, hd⟩ := hm
  obtain ⟨d', h1, e, e1, e2⟩ := C160_multi_statistics _ _ _ _ hd
  obtain ⟨hr, -⟩ := plain_eq h1
  obtain ⟨-, hr'⟩ := LM.reg_eq_some hr
  have hu : ∃ i, d'.reg.fit.u i ≠ 0 := by
    by_contra hc
    push Not at hc
    have hp : ∀ i, yRing i = ∑ j, RegimesMat.expand (withConst xRing) Prod.snd i j * d'.reg.fit.betas j := by
      intro i
      have := hc i
      rw [hr'] at this ⊢
      exact sub_eq_zero.1 this
    have p1 := hp (1, 0)
    have p2 := hp (2, 0)
    rw [xRing_row] at p1 p2
    simp [yRing] at p1 p2
    rw [← p2] at p1
    exact one_ne_zero p1
  have hsd := C18_exists _ _ _ hr wRing (fun c : MultiX Unit (Fin 2) => c.1) hu ⟨(0, 0), (1, 0), by simp [wRing]⟩ (by
    intro a b hab
    have hW : ∀ i : Fin 4 × Fin 2, ∑ j : MultiX Unit (Fin 2), (∑ l, wRing i l * RegimesMat.expand (withConst xRing) Prod.snd l j.1) * b j =
        (if i.1 + 1 = 0 then 1 else 0) * b ⟨(some (), i.2), rfl⟩ := by
      intro i
      simp only [wRing_mul]
      rw [Finset.sum_eq_single ⟨(some (), i.2), rfl⟩]
      · simp [RegimesMat.expand, withConst, xRing]
      · rintro ⟨⟨v, r⟩, hv⟩ - hne
        cases v with
        | none => cases hv
        | some v =>
          have : i.2 ≠ r := fun e => hne (by rw [e])
          simp [RegimesMat.expand, this]
      · intro h; exact absurd (Finset.mem_univ _) h
    funext ⟨⟨v, r⟩, hv⟩
    cases v with
    | none => cases hv
    | some v =>
      have h3 := hab (3, r)
      have h1 := hab (1, r)
      rw [xRing_row, hW] at h3 h1
      have e3 : (3 : Fin 4) + 1 = 0 := by decide
      have e1 : (1 : Fin 4) + 1 ≠ 0 := by decide
      have e4 : (3 : Fin 4) ≠ 0 := by decide
      have e5 : (1 : Fin 4) ≠ 0 := by decide
      simp only [e3, e4, e5, e1, if_true, if_false, zero_mul, add_zero, one_mul] at h3 h1
      rw [h1, zero_add] at h3
      exact h3)
  obtain ⟨sd, hsd⟩ := hsd
  obtain ⟨wxt, hwx, -⟩ := C18_robust_durbin _ _ _ hr wRing (fun c : MultiX Unit (Fin 2) => c.1) hu sd hsd
  rw [← e] at hsd hwx
  have hj : jointTest d wRing (fun c : MultiX Unit (Fin 2) => c.1) = some { sd with df := Fintype.card (Option Unit × Fin 2) } := by
    unfold jointTest; rw [hsd]; rfl
  have hv := C160_multi_violated _ _ _ _ hd wRing
  exact ⟨d, hd, ⟨_, hj, by simp⟩, ⟨_, by unfold wxTest; rw [hwx]; rfl, by simp [e1]⟩, e1, hv.2.2.2.2.2.2 (by simp) ⟨_, hj⟩⟩

end Spreg.RegDiag
