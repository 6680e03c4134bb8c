import Verif.Model.Diagnostics
import Verif.Props.OLS
import Mathlib.Tactic.FieldSimp
import Mathlib.Tactic.Positivity
import Mathlib.Algebra.BigOperators.Field
/-
Properties C42 (R-squared), C43 (information criteria), C44 (VIF) and C73 (F statistics).
-/
namespace Spreg.Diag
open Matrix Spreg.Lin Spreg.LM

variable {n k l : Type} [Fintype n] [Fintype k] [Fintype l]

/-- The design has a constant: some combination of its columns is identically one. -/
def SpansConst (x : Matrix n k ℝ) : Prop := ∃ v : k → ℝ, ∀ i, (x *ᵥ v) i = 1

/-- A column of ones is a constant. -/
theorem spansConst_of_col [DecidableEq k] (x : Matrix n k ℝ) (j : k) (h : ∀ i, x i j = 1) :
    SpansConst x := by
  refine ⟨Pi.single j 1, fun i => ?_⟩
  simp [h i]

/-- The variable takes at least two values. -/
def NotConst (y : n → ℝ) : Prop := ∃ i j, y i ≠ y j

theorem reg_eq_some [DecidableEq k] {x : Matrix n k ℝ} {y : n → ℝ} {r : Reg n k} (h : reg x y = some r) :
    r.x = x ∧ r.y = y ∧ ols x y = some r.fit := by
  unfold reg at h
  rw [Option.map_eq_some_iff] at h
  obtain ⟨f, hf, rfl⟩ := h
  exact ⟨rfl, rfl, hf⟩

theorem ssTot_eq_zero (y : n → ℝ) : ssTot y = 0 ↔ ¬ NotConst y := by
  unfold ssTot NotConst
  rw [Finset.sum_eq_zero_iff_of_nonneg (fun i _ => sq_nonneg _)]
  constructor
  · rintro h ⟨i, j, hij⟩
    have h1 := pow_eq_zero_iff (two_ne_zero) |>.mp (h i (Finset.mem_univ _))
    have h2 := pow_eq_zero_iff (two_ne_zero) |>.mp (h j (Finset.mem_univ _))
    exact hij (by linarith)
  · intro h i _
    have hc : ∀ j, y j = y i := fun j => by
      by_contra hne; exact h ⟨j, i, hne⟩
    have hn : (Fintype.card n : ℝ) ≠ 0 := by
      have : 0 < Fintype.card n := Fintype.card_pos_iff.mpr ⟨i⟩
      exact_mod_cast this.ne'
    have : meanY y = y i := by
      unfold meanY
      rw [Finset.sum_congr rfl (fun j _ => hc j), Finset.sum_const, Finset.card_univ, nsmul_eq_mul]
      field_simp
    rw [this]; simp

theorem ssTot_nonneg (y : n → ℝ) : 0 ≤ ssTot y := Finset.sum_nonneg fun _ _ => sq_nonneg _

theorem ssTot_pos {y : n → ℝ} (h : NotConst y) : 0 < ssTot y :=
  lt_of_le_of_ne (ssTot_nonneg y) fun h0 => (ssTot_eq_zero y).mp h0.symm h

theorem card_ne {y : n → ℝ} (h : NotConst y) : (Fintype.card n : ℝ) ≠ 0 := by
  obtain ⟨i, -⟩ := h
  have : 0 < Fintype.card n := Fintype.card_pos_iff.mpr ⟨i⟩
  exact_mod_cast this.ne'

/-- Residuals of a regression with a constant sum to zero, also against fitted values. -/
theorem resid_const [DecidableEq k] {x : Matrix n k ℝ} {y : n → ℝ} {f : OLSFit n k}
    (h : ols x y = some f) (hc : SpansConst x) : ∑ i, f.u i = 0 := by
  obtain ⟨hu, rfl⟩ := ols_eq_some h
  obtain ⟨v, hv⟩ := hc
  have h0 := normal_eq x y hu
  have : (x *ᵥ v) ⬝ᵥ (olsWith x y (xᵀ * x)⁻¹).u = 0 := by
    rw [dotProduct_comm, dotProduct_mulVec, ← mulVec_transpose, h0, zero_dotProduct]
  rw [← this]
  simp [dotProduct, hv]

theorem resid_pred [DecidableEq k] {x : Matrix n k ℝ} {y : n → ℝ} {f : OLSFit n k}
    (h : ols x y = some f) (b : k → ℝ) : (x *ᵥ b) ⬝ᵥ f.u = 0 := by
  obtain ⟨hu, rfl⟩ := ols_eq_some h
  have h0 := normal_eq x y hu
  rw [dotProduct_comm, dotProduct_mulVec, ← mulVec_transpose, h0, zero_dotProduct]

theorem pred_eq [DecidableEq k] {x : Matrix n k ℝ} {y : n → ℝ} {f : OLSFit n k}
    (h : ols x y = some f) : f.predy = x *ᵥ f.betas ∧ f.u = y - f.predy := by
  obtain ⟨hu, rfl⟩ := ols_eq_some h
  exact ⟨rfl, rfl⟩

/-- Total = residual + explained sum of squares, with a constant in the design. -/
theorem anova [DecidableEq k] {x : Matrix n k ℝ} {y : n → ℝ} {f : OLSFit n k}
    (h : ols x y = some f) (hc : SpansConst x) :
    ssTot y = utu f.u + ∑ i, (f.predy i - meanY y) ^ 2 := by
  have h1 := resid_const h hc
  have h2 := resid_pred h f.betas
  obtain ⟨hp, hu⟩ := pred_eq h
  rw [← hp] at h2
  have hy : ∀ i, y i = f.predy i + f.u i := fun i => by rw [hu]; simp
  unfold ssTot utu
  have : ∀ i, (y i - meanY y) ^ 2 = f.u i ^ 2 + (f.predy i - meanY y) ^ 2
      + 2 * (f.predy i * f.u i) - 2 * meanY y * f.u i := fun i => by
    rw [hy i]; ring
  simp only [this, Finset.sum_add_distrib, Finset.sum_sub_distrib, ← Finset.mul_sum]
  have h2' : ∑ i, f.predy i * f.u i = 0 := h2
  rw [h1, h2']; ring

/-- C42: with a constant in the design and a dependent variable that varies, R-squared lies in [0, 1]. -/
theorem C42_r2_range [DecidableEq k] (x : Matrix n k ℝ) (y : n → ℝ) (r : Reg n k) (h : reg x y = some r)
    (hc : SpansConst x) (hy : NotConst y) : 0 ≤ r2 r ∧ r2 r ≤ 1 := by
  obtain ⟨hx, hyy, hf⟩ := reg_eq_some h
  have ha := anova hf hc
  have hp := ssTot_pos hy
  have he : 0 ≤ ∑ i, (r.fit.predy i - meanY y) ^ 2 := Finset.sum_nonneg fun _ _ => sq_nonneg _
  unfold r2
  rw [hyy]
  have hu := utu_nonneg r.fit.u
  constructor
  · rw [sub_nonneg, div_le_one hp]; linarith
  · have := div_nonneg hu hp.le; linarith

/-- C42: R-squared is the share of the variation of `y` explained by the fitted values. -/
theorem C42_r2_explained [DecidableEq k] (x : Matrix n k ℝ) (y : n → ℝ) (r : Reg n k)
    (h : reg x y = some r) (hc : SpansConst x) (hy : NotConst y) :
    r2 r = (∑ i, (r.fit.predy i - (∑ j, y j) / Fintype.card n) ^ 2) /
      (∑ i, (y i - (∑ j, y j) / Fintype.card n) ^ 2) := by
  obtain ⟨hx, hyy, hf⟩ := reg_eq_some h
  have ha := anova hf hc
  have hp := (ssTot_pos hy).ne'
  change r2 r = (∑ i, (r.fit.predy i - meanY y) ^ 2) / ssTot y
  unfold r2
  rw [hyy]
  field_simp
  linarith

/-- C42: R-squared is one exactly when the fit is perfect. -/
theorem C42_r2_one [DecidableEq k] (x : Matrix n k ℝ) (y : n → ℝ) (r : Reg n k)
    (h : reg x y = some r) (hy : NotConst y) : r2 r = 1 ↔ ∃ b, y = x *ᵥ b := by
  obtain ⟨hx, hyy, hf⟩ := reg_eq_some h
  have hp := (ssTot_pos hy).ne'
  obtain ⟨hpy, hu⟩ := pred_eq hf
  have e1 : r2 r = 1 ↔ utu r.fit.u = 0 := by
    unfold r2; rw [hyy]
    constructor
    · intro h1
      have : utu r.fit.u / ssTot y = 0 := by linarith
      rcases div_eq_zero_iff.mp this with h0 | h0
      · exact h0
      · exact absurd h0 hp
    · intro h0; rw [h0]; simp
  rw [e1, utu_eq_zero]
  constructor
  · intro h0; exact ⟨r.fit.betas, by rw [← hpy]; rw [hu] at h0; exact (sub_eq_zero.mp h0)⟩
  · rintro ⟨b, hb⟩
    have h1 := resid_pred hf (b - r.fit.betas)
    have h2 : x *ᵥ (b - r.fit.betas) = r.fit.u := by rw [hu, hpy, mulVec_sub, ← hb]
    rw [h2] at h1
    exact dotProduct_self_eq_zero.mp h1

/-- C42: adjusted R-squared never exceeds R-squared, for at least one regressor and positive residual
degrees of freedom. -/
theorem C42_ar2_le [DecidableEq k] (x : Matrix n k ℝ) (y : n → ℝ) (r : Reg n k) (_h : reg x y = some r)
    (hk : 1 ≤ Fintype.card k) (hkn : Fintype.card k < Fintype.card n) :
    ar2 r ≤ r2 r := by
  have h1 : 0 ≤ 1 - r2 r := by
    unfold r2
    have := div_nonneg (utu_nonneg r.fit.u) (ssTot_nonneg r.y)
    linarith
  have hk' : (1 : ℝ) ≤ Fintype.card k := by exact_mod_cast hk
  have hkn' : (Fintype.card k : ℝ) < Fintype.card n := by exact_mod_cast hkn
  unfold ar2
  have hd : 0 < (Fintype.card n : ℝ) - Fintype.card k := by linarith
  have : 1 - r2 r ≤ (1 - r2 r) * ((Fintype.card n : ℝ) - 1) / ((Fintype.card n : ℝ) - Fintype.card k) := by
    rw [le_div_iff₀ hd]
    exact mul_le_mul_of_nonneg_left (by linarith) h1
  linarith

/-- C42: adjusted R-squared is one minus the ratio of the unbiased variance estimates of the residuals and
of `y`. -/
theorem C42_ar2_variances [DecidableEq k] (x : Matrix n k ℝ) (y : n → ℝ) (r : Reg n k)
    (h : reg x y = some r) (hkn : Fintype.card k < Fintype.card n) (hn : 1 < Fintype.card n)
    (hy : NotConst y) :
    ar2 r = 1 - sig2nk r.fit.u (Fintype.card k) /
      ((∑ i, (y i - (∑ j, y j) / Fintype.card n) ^ 2) / ((Fintype.card n : ℝ) - 1)) := by
  obtain ⟨hx, hyy, hf⟩ := reg_eq_some h
  change ar2 r = 1 - sig2nk r.fit.u (Fintype.card k) / (ssTot y / ((Fintype.card n : ℝ) - 1))
  have hp := (ssTot_pos hy).ne'
  have hkn' : (Fintype.card k : ℝ) < Fintype.card n := by exact_mod_cast hkn
  have hn' : (1 : ℝ) < Fintype.card n := by exact_mod_cast hn
  have hd : (Fintype.card n : ℝ) - Fintype.card k ≠ 0 := by linarith
  have hd1 : (Fintype.card n : ℝ) - 1 ≠ 0 := by linarith
  unfold ar2 sig2nk r2
  rw [hyy]
  field_simp
  ring

/-- C42: enlarging the set of regressors never lowers R-squared. -/
theorem C42_r2_nested [DecidableEq k] [DecidableEq l] (x : Matrix n k ℝ) (x0 : Matrix n l ℝ) (y : n → ℝ)
    (r : Reg n k) (r0 : Reg n l) (h : reg x y = some r) (h0 : reg x0 y = some r0)
    (hsub : ∀ j, ∃ j', ∀ i, x0 i j = x i j') : r2 r0 ≤ r2 r := by
  obtain ⟨-, hyy, hf⟩ := reg_eq_some h
  obtain ⟨-, hyy0, hf0⟩ := reg_eq_some h0
  choose e he using hsub
  obtain ⟨hp0, hu0⟩ := pred_eq hf0
  obtain ⟨hp, hu⟩ := pred_eq hf
  -- fitted values of the small model are attainable in the large one
  obtain ⟨b, hb⟩ : ∃ b : k → ℝ, x0 *ᵥ r0.fit.betas = x *ᵥ b := by
    refine ⟨∑ j, Pi.single (e j) (r0.fit.betas j), ?_⟩
    ext i
    simp only [mulVec, dotProduct, Finset.sum_apply, Finset.mul_sum]
    rw [Finset.sum_comm]
    refine Finset.sum_congr rfl fun j _ => ?_
    rw [Finset.sum_eq_single (e j)]
    · simp [he]
    · intro j' _ hne; simp [Pi.single_apply, hne]
    · simp
  have hle : utu r.fit.u ≤ utu r0.fit.u := by
    have h1 := resid_pred hf (r.fit.betas - b)
    have h2 : r0.fit.u = r.fit.u + x *ᵥ (r.fit.betas - b) := by
      rw [hu0, hu, hp, hp0, hb, mulVec_sub]; abel
    rw [utu_eq_dot, utu_eq_dot, h2, add_dotProduct, dotProduct_add, dotProduct_add, h1,
      dotProduct_comm _ (x *ᵥ _), h1]
    have : 0 ≤ (x *ᵥ (r.fit.betas - b)) ⬝ᵥ (x *ᵥ (r.fit.betas - b)) := by
      rw [← utu_eq_dot]; exact utu_nonneg _
    linarith
  unfold r2
  rw [hyy, hyy0]
  have := div_le_div_of_nonneg_right hle (ssTot_nonneg y)
  linarith

/-! ### Information criteria -/

theorem loglik_eq (N : ℕ) (hN : 0 < N) (s : ℝ) (hs : 0 < s) :
    -2 * logLikelihood N s = N * (Real.log ((2 * Real.pi * s) / N) + 1) := by
  have hN' : (0 : ℝ) < N := by exact_mod_cast hN
  unfold logLikelihood
  have e1 : (2 * Real.pi * s) / N = (2 * Real.pi) * (s / N) := by ring
  rw [e1, Real.log_mul (x := 2 * Real.pi) (y := s / N) (by positivity) (by positivity)]
  have e2 : s / (s / N) = N := by field_simp
  rw [e2]; ring

/-- C43: the Akaike criterion is `2k - 2 loglik`, whether the object carries a likelihood or the OLS formula
is used. -/
theorem C43_akaike (k N : ℕ) (hN : 0 < N) (s : ℝ) (hs : 0 < s) (ll : ℝ) :
    akaike none k N s = 2 * k - 2 * logLikelihood N s ∧ akaike (some ll) k N s = 2 * k - 2 * ll := by
  have := loglik_eq N hN s hs
  constructor
  · simp only [akaike]; linarith
  · simp only [akaike]; norm_num

/-- C43: the Schwarz criterion is `k log n - 2 loglik`. -/
theorem C43_schwarz (k N : ℕ) (hN : 0 < N) (s : ℝ) (hs : 0 < s) (ll : ℝ) :
    schwarz none k N s = k * Real.log N - 2 * logLikelihood N s ∧
    schwarz (some ll) k N s = k * Real.log N - 2 * ll := by
  have := loglik_eq N hN s hs
  constructor
  · simp only [schwarz]; linarith
  · simp only [schwarz]; norm_num

/-- C43: the reported log-likelihood is that of `N` independent normal residuals with variance `utu / N`. -/
theorem C43_loglik_gaussian [Nonempty n] (u : n → ℝ) (hu : u ≠ 0) :
    logLikelihood (Fintype.card n) (utu u) =
      ∑ i, Real.log ((Real.sqrt (2 * Real.pi * sig2n u))⁻¹ * Real.exp (-(u i) ^ 2 / (2 * sig2n u))) := by
  have hN : (0 : ℝ) < Fintype.card n := by exact_mod_cast Fintype.card_pos
  have hs : 0 < utu u := lt_of_le_of_ne (utu_nonneg u) fun h => hu ((utu_eq_zero u).mp h.symm)
  have hv : 0 < sig2n u := div_pos hs hN
  have hpi : 0 < 2 * Real.pi * sig2n u := by positivity
  have : ∀ i, Real.log ((Real.sqrt (2 * Real.pi * sig2n u))⁻¹ * Real.exp (-(u i) ^ 2 / (2 * sig2n u)))
      = -(1 / 2) * Real.log (2 * Real.pi * sig2n u) - (u i) ^ 2 / (2 * sig2n u) := fun i => by
    rw [Real.log_mul (by positivity) (Real.exp_ne_zero _), Real.log_inv, Real.log_exp,
      Real.log_sqrt hpi.le]
    ring
  simp only [this, Finset.sum_sub_distrib, Finset.sum_const, Finset.card_univ, nsmul_eq_mul,
    ← Finset.sum_div]
  have e : (∑ i, u i ^ 2) = utu u := rfl
  rw [e, Real.log_mul (x := 2 * Real.pi) (y := sig2n u) (by positivity) hv.ne']
  unfold logLikelihood sig2n
  have e2 : utu u / (utu u / (Fintype.card n : ℝ)) = Fintype.card n := by field_simp
  have e3 : utu u / (2 * (utu u / (Fintype.card n : ℝ))) = (Fintype.card n : ℝ) / 2 := by field_simp
  rw [e2, e3]
  ring

/-- C43: for a fixed model size a better fit has a lower value of both criteria. -/
theorem C43_monotone (k N : ℕ) (hN : 0 < N) (s s' : ℝ) (hs : 0 < s) (h : s < s') :
    akaike none k N s < akaike none k N s' ∧ schwarz none k N s < schwarz none k N s' := by
  have hN' : (0 : ℝ) < N := by exact_mod_cast hN
  have hl : Real.log ((2 * Real.pi * s) / N) < Real.log ((2 * Real.pi * s') / N) := by
    apply Real.log_lt_log (by positivity)
    have : 2 * Real.pi * s < 2 * Real.pi * s' := mul_lt_mul_of_pos_left h (by positivity)
    exact div_lt_div_of_pos_right this hN'
  have := mul_lt_mul_of_pos_left hl hN'
  simp only [akaike, schwarz]
  constructor <;> nlinarith

/-- C43: the likelihood-ratio test reports `2 |ll1 - ll0|`; it does not depend on the order of the two
models, and its degrees of freedom are the difference in the number of coefficients when the second model
is the larger one and 1 otherwise. -/
theorem C43_likratio (l0 l1 : ℝ) (k0 k1 : ℤ) :
    ∃ df, likratiotest (some l0, k0) (some l1, k1) = .ok (2 * |l1 - l0|, df) ∧ 1 ≤ df ∧
      (k0 < k1 → df = k1 - k0) ∧ (k1 ≤ k0 → df = 1) := by
  unfold likratiotest
  simp only
  refine ⟨if ¬ k1 - k0 > 0 then 1 else k1 - k0, ?_, ?_, ?_, ?_⟩
  · congr 2
    split
    · next h =>
      have : l1 - l0 < 0 := by norm_num at h; linarith
      rw [abs_of_neg this]; norm_num; ring
    · next h =>
      have : 0 ≤ l1 - l0 := by norm_num at h; linarith
      rw [abs_of_nonneg this]; norm_num
  · split <;> omega
  · intro h; rw [if_neg (by omega)]
  · intro h; rw [if_pos (by omega)]

theorem C43_likratio_missing (a b : Option ℝ) (k0 k1 : ℤ) (h : a = none ∨ b = none) :
    likratiotest (a, k0) (b, k1) = .error .exception := by
  unfold likratiotest
  rcases h with rfl | rfl
  · cases b <;> rfl
  · rfl

/-- C42: R-squared does not depend on the unit or origin of `y`. -/
theorem C42_units [DecidableEq k] (x : Matrix n k ℝ) (y : n → ℝ) (a b : ℝ) (ha : a ≠ 0) (r : Reg n k)
    (h : reg x y = some r) (hc : SpansConst x) :
    ∃ r', reg x (fun i => a * y i + b) = some r' ∧ r2 r' = r2 r ∧ ar2 r' = ar2 r := by
  obtain ⟨hx, hyy, hf⟩ := reg_eq_some h
  obtain ⟨v, hv⟩ := hc
  obtain ⟨g, hg, -, hgu⟩ := C08_affine x y a (b • v) r.fit hf
  have e : (a • y + x *ᵥ (b • v)) = fun i => a * y i + b := by
    ext i; rw [mulVec_smul]; simp [hv i]
  rw [e] at hg
  have hr2 : r2 ({ x := x, y := fun i => a * y i + b, fit := g } : Reg n k) = r2 r := by
    unfold r2
    rw [hyy]
    simp only
    have h1 : utu g.u = a ^ 2 * utu r.fit.u := by
      rw [hgu]; simp [utu, mul_pow, Finset.mul_sum]
    have h2 : ssTot (fun i => a * y i + b) = a ^ 2 * ssTot y := by
      rcases isEmpty_or_nonempty n with hn | hn
      · simp [ssTot]
      have hN : (Fintype.card n : ℝ) ≠ 0 := by exact_mod_cast Fintype.card_ne_zero
      have hm : meanY (fun i => a * y i + b) = a * meanY y + b := by
        unfold meanY
        rw [Finset.sum_add_distrib, ← Finset.mul_sum, Finset.sum_const, Finset.card_univ, nsmul_eq_mul]
        field_simp
      unfold ssTot
      rw [hm, Finset.mul_sum]
      exact Finset.sum_congr rfl fun i _ => by ring
    rw [h1, h2, mul_div_mul_left _ _ (pow_ne_zero 2 ha)]
  refine ⟨{ x := x, y := fun i => a * y i + b, fit := g }, ?_, hr2, ?_⟩
  · unfold reg; rw [hg]; rfl
  · unfold ar2; rw [hr2]

/-! ### Dropping one column -/

/-- The column map of a design from which column `j` was removed. -/
structure IsDel (x : Matrix n k ℝ) (x0 : Matrix n l ℝ) (j : k) (e : l → k) : Prop where
  val : ∀ i c, x0 i c = x i (e c)
  inj : Function.Injective e
  ne : ∀ c, e c ≠ j
  cover : ∀ i, i ≠ j → ∃ c, e c = i

/-- coefficients of the small design as coefficients of the large one -/
noncomputable def ext [DecidableEq k] (e : l → k) (b : l → ℝ) : k → ℝ := ∑ c, Pi.single (e c) (b c)

theorem mulVec_ext [DecidableEq k] {x : Matrix n k ℝ} {x0 : Matrix n l ℝ} {e : l → k}
    (he : ∀ i c, x0 i c = x i (e c)) (b : l → ℝ) : x *ᵥ ext e b = x0 *ᵥ b := by
  ext i
  simp only [ext, mulVec, dotProduct, Finset.sum_apply, Finset.mul_sum]
  rw [Finset.sum_comm]
  refine Finset.sum_congr rfl fun j _ => ?_
  rw [Finset.sum_eq_single (e j)]
  · simp [he]
  · intro j' _ hne; simp [hne]
  · simp

theorem ext_apply [DecidableEq k] {e : l → k} (hi : Function.Injective e) (b : l → ℝ) (c : l) :
    ext e b (e c) = b c := by
  simp only [ext, Finset.sum_apply]
  rw [Finset.sum_eq_single c]
  · simp
  · intro c' _ hne; rw [Pi.single_apply, if_neg fun h => hne (hi h).symm]
  · simp

theorem ext_out [DecidableEq k] {e : l → k} (b : l → ℝ) (j : k) (h : ∀ c, e c ≠ j) : ext e b j = 0 := by
  simp only [ext, Finset.sum_apply]
  exact Finset.sum_eq_zero fun c _ => by simp [Pi.single_apply, Ne.symm (h c)]

/-- A subset of the columns of a full-rank design has full rank. -/
theorem sub_isUnit [DecidableEq k] [DecidableEq l] {x : Matrix n k ℝ} {x0 : Matrix n l ℝ} {e : l → k}
    (he : ∀ i c, x0 i c = x i (e c)) (hi : Function.Injective e) (hu : IsUnit (xᵀ * x).det) :
    IsUnit (x0ᵀ * x0).det := by
  rw [xtx_isUnit_iff] at hu ⊢
  intro v hv
  have h0 : ext e v = 0 := hu _ (by rw [mulVec_ext he]; exact hv)
  ext c
  rw [← ext_apply hi v c, h0]; rfl

/-- Removing column `j`: the increase of the residual sum of squares. -/
theorem drop_one [DecidableEq k] [DecidableEq l] {x : Matrix n k ℝ} {x0 : Matrix n l ℝ} {j : k} {e : l → k}
    (hd : IsDel x x0 j e) {y : n → ℝ} {f : OLSFit n k} {f0 : OLSFit n l}
    (hf : ols x y = some f) (hf0 : ols x0 y = some f0) :
    ∃ s : ℝ, f.betas j = s * f.xtxi j j ∧ utu f0.u = utu f.u + s * f.betas j := by
  obtain ⟨hp0, hu0⟩ := pred_eq hf0
  obtain ⟨hp, hu⟩ := pred_eq hf
  set δ := f.betas - ext e f0.betas with hδ
  have hdiff : f0.u - f.u = x *ᵥ δ := by
    rw [hu0, hu, hp, hp0, hδ, mulVec_sub, mulVec_ext hd.val]; abel
  set s := ∑ i, x i j * f0.u i with hs
  have horth : xᵀ *ᵥ f0.u = Pi.single j s := by
    ext i
    by_cases hij : i = j
    · subst hij; simp [mulVec, dotProduct, hs]
    · obtain ⟨c, rfl⟩ := hd.cover i hij
      have h1 := resid_pred hf0 (Pi.single c 1)
      simp only [Pi.single_apply, hij, if_false]
      rw [← h1]
      simp only [mulVec, dotProduct, transpose_apply]
      refine Finset.sum_congr rfl fun r _ => ?_
      rw [← hd.val]; congr 1; simp [Pi.single_apply]
  have horth' : xᵀ *ᵥ f.u = 0 := by
    obtain ⟨huu, rfl⟩ := ols_eq_some hf
    exact normal_eq x y huu
  have hxx : (xᵀ * x) *ᵥ δ = Pi.single j s := by
    rw [← mulVec_mulVec, ← hdiff, mulVec_sub, horth, horth', sub_zero]
  obtain ⟨huu, hfe⟩ := ols_eq_some hf
  have hxi : f.xtxi = (xᵀ * x)⁻¹ := by rw [hfe]; rfl
  have hδ2 : δ = f.xtxi *ᵥ Pi.single j s := by
    rw [← hxx, hxi, mulVec_mulVec, nonsing_inv_mul _ huu, one_mulVec]
  have hδj : δ j = f.betas j := by
    rw [hδ]; simp [ext_out f0.betas j hd.ne]
  refine ⟨s, ?_, ?_⟩
  · rw [← hδj, hδ2]; simp [mul_comm]
  · have h1 := resid_pred hf δ
    have h2 : f0.u = f.u + x *ᵥ δ := by rw [← hdiff]; abel
    rw [utu_eq_dot, utu_eq_dot, h2, add_dotProduct, dotProduct_add, dotProduct_add, h1,
      dotProduct_comm _ (x *ᵥ δ), h1]
    have : (x *ᵥ δ) ⬝ᵥ (x *ᵥ δ) = δ ⬝ᵥ ((xᵀ * x) *ᵥ δ) := by
      rw [dotProduct_mulVec, ← mulVec_transpose, mulVec_mulVec, dotProduct_comm]
    rw [this, hxx, dotProduct_single, hδj]; ring

/-- OLS of one of the regressors on the design reproduces it. -/
theorem ols_self [DecidableEq k] {x : Matrix n k ℝ} (hu : IsUnit (xᵀ * x).det) (j : k) :
    ∃ f, ols x (fun i => x i j) = some f ∧ f.betas = Pi.single j 1 ∧ utu f.u = 0 ∧
      f.xtxi = (xᵀ * x)⁻¹ := by
  have hy : (fun i => x i j) = x *ᵥ Pi.single j 1 := by ext i; simp
  have hb : (olsWith x (fun i => x i j) (xᵀ * x)⁻¹).betas = Pi.single j 1 := by
    simp only [olsWith]
    rw [hy, mulVec_mulVec, mulVec_mulVec, Matrix.mul_assoc, nonsing_inv_mul _ hu, one_mulVec]
  refine ⟨_, ols_of_isUnit _ _ hu, hb, ?_, rfl⟩
  rw [utu_eq_zero]
  have : (olsWith x (fun i => x i j) (xᵀ * x)⁻¹).u
      = (fun i => x i j) - x *ᵥ (olsWith x (fun i => x i j) (xᵀ * x)⁻¹).betas := rfl
  rw [this, hb, ← hy, sub_self]

/-- The residual sum of squares of column `j` regressed on the others is the reciprocal of the `j`-th
diagonal entry of `(x'x)^-1`. -/
theorem aux_ssr [DecidableEq k] [DecidableEq l] {x : Matrix n k ℝ} {x0 : Matrix n l ℝ} {j : k} {e : l → k}
    (hd : IsDel x x0 j e) (hu : IsUnit (xᵀ * x).det) {f0 : OLSFit n l}
    (hf0 : ols x0 (fun i => x i j) = some f0) : utu f0.u * (xᵀ * x)⁻¹ j j = 1 := by
  obtain ⟨f, hf, hb, h0, hxi⟩ := ols_self hu j
  obtain ⟨s, h1, h2⟩ := drop_one hd hf hf0
  rw [hb, hxi] at h1
  rw [hb, h0] at h2
  simp only [Pi.single_eq_same, mul_one, zero_add] at h1 h2
  rw [h2, ← h1]

theorem isDel_delCol [DecidableEq k] (x : Matrix n k ℝ) (j : k) :
    IsDel x (delCol x j) j (Subtype.val) :=
  ⟨fun _ _ => rfl, Subtype.val_injective, fun c => c.2, fun i h => ⟨⟨i, h⟩, rfl⟩⟩

/-- In a full-rank design with a column of ones no other column is constant. -/
theorem notConst_col [DecidableEq k] {x : Matrix n k ℝ} (hu : IsUnit (xᵀ * x).det) {c j : k}
    (hone : ∀ i, x i c = 1) (hj : j ≠ c) : NotConst fun i => x i j := by
  by_contra hn
  rw [← ssTot_eq_zero] at hn
  have hall : ∀ i, x i j = meanY fun i => x i j := fun i => by
    unfold ssTot at hn
    rw [Finset.sum_eq_zero_iff_of_nonneg (fun i _ => sq_nonneg _)] at hn
    have := pow_eq_zero_iff (two_ne_zero) |>.mp (hn i (Finset.mem_univ _))
    linarith
  have h0 := (xtx_isUnit_iff x).mp hu (Pi.single j 1 - (meanY fun i => x i j) • Pi.single c 1) (by
    ext i; rw [mulVec_sub, mulVec_smul]; simp [hone, ← hall i])
  have := congrFun h0 j
  simp [hj] at this

/-- C44: in a design with a column of ones the variance inflation factor of every other column is reported,
is at least one, and is the reciprocal of a tolerance in (0, 1]; it equals the factor by which the variance
of the coefficient exceeds that of a regressor uncorrelated with the others: the total sum of squares of the
column times the diagonal entry of `(x'x)^-1`. The constant itself is reported as missing. -/
theorem C44_vif [DecidableEq k] (x : Matrix n k ℝ) (hu : IsUnit (xᵀ * x).det) (c : k)
    (hone : ∀ i, x i c = 1) (j : k) :
    (j = c → vif x j = some .missing) ∧
    (j ≠ c → ∃ v t, vif x j = some (.val v t) ∧ 1 ≤ v ∧ 0 < t ∧ t ≤ 1 ∧ v * t = 1 ∧
      v = (∑ i, (x i j - (∑ i', x i' j) / Fintype.card n) ^ 2) * (xᵀ * x)⁻¹ j j) := by
  have hdu : IsUnit ((delCol x j)ᵀ * delCol x j).det :=
    sub_isUnit (e := Subtype.val) (fun _ _ => rfl) Subtype.val_injective hu
  have haux := ols_of_isUnit (delCol x j) (fun i => x i j) hdu
  constructor
  · rintro rfl
    unfold vif
    rw [haux]
    simp only [Option.map_some]
    rw [if_pos]
    rw [ssTot_eq_zero]
    rintro ⟨a, b, hab⟩
    exact hab ((hone a).trans (hone b).symm)
  · intro hj
    have hnc := notConst_col hu hone hj
    have hsst := ssTot_pos hnc
    set aux := olsWith (delCol x j) (fun i => x i j) ((delCol x j)ᵀ * delCol x j)⁻¹ with hauxd
    have h1 := aux_ssr (isDel_delCol x j) hu haux
    have hupos : 0 < utu aux.u := lt_of_le_of_ne (utu_nonneg _) fun h0 => by
      rw [← h0, zero_mul] at h1; exact zero_ne_one h1
    have hc : SpansConst (delCol x j) := by
      refine spansConst_of_col _ ⟨c, Ne.symm hj⟩ fun i => hone i
    have ha := anova haux hc
    have hle : utu aux.u ≤ ssTot fun i => x i j := by
      have he : 0 ≤ ∑ i, (aux.predy i - meanY fun i => x i j) ^ 2 := Finset.sum_nonneg fun _ _ => sq_nonneg _
      linarith
    set sst := ssTot fun i => x i j with hsstd
    refine ⟨1 / (1 - (1 - utu aux.u / sst)), 1 - (1 - utu aux.u / sst), ?_, ?_, ?_, ?_, ?_, ?_⟩
    · unfold vif
      rw [haux]
      simp only [Option.map_some]
      rw [if_neg hsst.ne']
    · rw [sub_sub_cancel, one_div_div, le_div_iff₀ hupos]; linarith
    · rw [sub_sub_cancel]; exact div_pos hupos hsst
    · rw [sub_sub_cancel, div_le_one hsst]; exact hle
    · rw [sub_sub_cancel]; field_simp
    · rw [sub_sub_cancel, one_div_div]
      change sst / utu aux.u = sst * (xᵀ * x)⁻¹ j j
      rw [div_eq_iff hupos.ne', mul_assoc, mul_comm ((xᵀ * x)⁻¹ j j), h1, mul_one]

/-- C44: the factor is exactly one precisely when the column is uncorrelated with every other column. -/
theorem C44_vif_one [DecidableEq k] (x : Matrix n k ℝ) (hu : IsUnit (xᵀ * x).det) (c : k)
    (hone : ∀ i, x i c = 1) (j : k) (hj : j ≠ c) (v t : ℝ) (h : vif x j = some (.val v t)) :
    v = 1 ↔ ∀ d, d ≠ j → ∑ i, x i d * (x i j - (∑ i', x i' j) / Fintype.card n) = 0 := by
  have hdu : IsUnit ((delCol x j)ᵀ * delCol x j).det :=
    sub_isUnit (e := Subtype.val) (fun _ _ => rfl) Subtype.val_injective hu
  have haux := ols_of_isUnit (delCol x j) (fun i => x i j) hdu
  set aux := olsWith (delCol x j) (fun i => x i j) ((delCol x j)ᵀ * delCol x j)⁻¹ with hauxd
  have hsst := ssTot_pos (notConst_col hu hone hj)
  have h1 := aux_ssr (isDel_delCol x j) hu haux
  have hupos : 0 < utu aux.u := lt_of_le_of_ne (utu_nonneg _) fun h0 => by
    rw [← h0, zero_mul] at h1; exact zero_ne_one h1
  have hc : SpansConst (delCol x j) := spansConst_of_col _ ⟨c, Ne.symm hj⟩ fun i => hone i
  have ha := anova haux hc
  unfold vif at h
  rw [haux] at h
  simp only [Option.map_some] at h
  rw [if_neg hsst.ne', sub_sub_cancel] at h
  simp only [Option.some.injEq, VifRes.val.injEq] at h
  obtain ⟨hv, -⟩ := h
  rw [one_div_div] at hv
  obtain ⟨hp, huu⟩ := pred_eq haux
  have hv1 : v = 1 ↔ ssTot (fun i => x i j) = utu aux.u := by
    rw [← hv, div_eq_one_iff_eq hupos.ne']
  rw [hv1]
  constructor
  · intro heq d hd
    have hz : ∑ i, (aux.predy i - meanY fun i => x i j) ^ 2 = 0 := by linarith
    rw [Finset.sum_eq_zero_iff_of_nonneg (fun i _ => sq_nonneg _)] at hz
    have hpm : ∀ i, aux.predy i = meanY fun i => x i j := fun i => by
      have := pow_eq_zero_iff (two_ne_zero) |>.mp (hz i (Finset.mem_univ _)); linarith
    have h3 := resid_pred haux (Pi.single ⟨d, hd⟩ 1)
    have : ∀ i, x i d * (x i j - (∑ i', x i' j) / Fintype.card n)
        = (delCol x j *ᵥ Pi.single ⟨d, hd⟩ 1) i * aux.u i := fun i => by
      rw [huu]; simp [hpm, meanY, delCol]
    rw [Finset.sum_congr rfl fun i _ => this i]
    exact h3
  · intro hall
    -- the deviation from the mean is orthogonal to the other columns, hence the residual
    set m := meanY fun i => x i j with hm
    have hdev : ∀ b : {i : k // i ≠ j} → ℝ, (delCol x j *ᵥ b) ⬝ᵥ (fun i => x i j - m) = 0 := by
      intro b
      rw [dotProduct_comm, dotProduct_mulVec, ← mulVec_transpose]
      have : (delCol x j)ᵀ *ᵥ (fun i => x i j - m) = 0 := by
        ext d
        exact hall d.1 d.2
      rw [this, zero_dotProduct]
    have hd0 : aux.u - (fun i => x i j - m)
        = delCol x j *ᵥ (m • Pi.single ⟨c, Ne.symm hj⟩ 1 - aux.betas) := by
      ext i
      rw [huu, hp, mulVec_sub, mulVec_smul]
      simp only [Pi.sub_apply, Pi.smul_apply, mulVec_single_one, Matrix.col_apply, smul_eq_mul]
      have : delCol x j i ⟨c, Ne.symm hj⟩ = 1 := hone i
      rw [this]; ring
    have hz : utu (aux.u - (fun i => x i j - m)) = 0 := by
      rw [utu_eq_dot]
      nth_rw 1 [hd0]
      rw [dotProduct_sub, resid_pred haux, hdev, sub_zero]
    rw [utu_eq_zero, sub_eq_zero] at hz
    rw [hz]; rfl

/-! ### F statistics -/

/-- C73: with a constant and a dependent variable that varies, the overall F statistic is the familiar
function of R-squared, and it is not negative. -/
theorem C73_overall [DecidableEq k] (x : Matrix n k ℝ) (y : n → ℝ) (r : Reg n k) (h : reg x y = some r)
    (hc : SpansConst x) (hy : NotConst y) (hk : 1 < Fintype.card k)
    (hkn : Fintype.card k < Fintype.card n) :
    fStat r = (r2 r / ((Fintype.card k : ℝ) - 1)) /
      ((1 - r2 r) / ((Fintype.card n : ℝ) - Fintype.card k)) ∧ 0 ≤ fStat r := by
  obtain ⟨hx, hyy, hf⟩ := reg_eq_some h
  have ha := anova hf hc
  have hp := ssTot_pos hy
  have hk' : (1 : ℝ) < Fintype.card k := by exact_mod_cast hk
  have hkn' : (Fintype.card k : ℝ) < Fintype.card n := by exact_mod_cast hkn
  have hU : ∑ i, (r.fit.predy i - meanY y) ^ 2 = r2 r * ssTot y := by
    unfold r2; rw [hyy]; field_simp; linarith
  have hV : utu r.fit.u = (1 - r2 r) * ssTot y := by
    unfold r2; rw [hyy]; field_simp; ring
  have e : fStat r = (r2 r / ((Fintype.card k : ℝ) - 1)) /
      ((1 - r2 r) / ((Fintype.card n : ℝ) - Fintype.card k)) := by
    unfold fStat
    simp only
    rw [hyy, hU, hV]
    rw [mul_div_right_comm (r2 r), mul_div_right_comm (1 - r2 r), mul_div_mul_right _ _ hp.ne']
  refine ⟨e, ?_⟩
  rw [e]
  obtain ⟨h0, h1⟩ := C42_r2_range x y r h hc hy
  exact div_nonneg (div_nonneg h0 (by linarith)) (div_nonneg (by linarith) (by linarith))

/-- C73: the F test on the last `df` coefficients never fails on a regression that was estimated; it is the
relative increase in the residual sum of squares when these columns are left out, it is not negative, and
its degrees of freedom are `df` and `n - k`. -/
theorem C73_last {K : ℕ} (x : Matrix n (Fin K) ℝ) (y : n → ℝ) (r : Reg n (Fin K)) (h : reg x y = some r)
    (df : ℕ) (hdf : 0 < df) (hkn : K < Fintype.card n) :
    ∃ (f0 : OLSFit n (Fin (K - df))) (F : ℝ),
      ols (Matrix.of fun i (j : Fin (K - df)) => x i ⟨j.1, lt_of_lt_of_le j.2 (Nat.sub_le K df)⟩) y = some f0 ∧
      fTest r df = some (F, (df : ℤ), (Fintype.card n : ℤ) - K) ∧
      F = ((utu f0.u - utu r.fit.u) / df) / (utu r.fit.u / ((Fintype.card n : ℝ) - K)) ∧ 0 ≤ F := by
  obtain ⟨hx, hyy, hf⟩ := reg_eq_some h
  obtain ⟨hu, -⟩ := ols_eq_some hf
  have hu0 : IsUnit ((dropLast x df)ᵀ * dropLast x df).det :=
    sub_isUnit (e := Fin.castLE (Nat.sub_le K df)) (fun _ _ => rfl) (Fin.castLE_injective _) hu
  have h0 := ols_of_isUnit (dropLast x df) y hu0
  set f0 := olsWith (dropLast x df) y ((dropLast x df)ᵀ * dropLast x df)⁻¹
  refine ⟨f0, _, h0, ?_, rfl, ?_⟩
  · unfold fTest fStatLast
    rw [if_neg hdf.ne', hx, hyy, h0]
    rfl
  · have hle : utu r.fit.u ≤ utu f0.u := by
      obtain ⟨hp0, hu0⟩ := pred_eq h0
      obtain ⟨hp, hu⟩ := pred_eq hf
      set δ := r.fit.betas - ext (Fin.castLE (Nat.sub_le K df)) f0.betas with hδ
      have h2 : f0.u = r.fit.u + x *ᵥ δ := by
        rw [hu0, hu, hp, hp0, hδ, mulVec_sub, mulVec_ext (x := x) (x0 := dropLast x df) (fun _ _ => rfl)]; abel
      have h1 := resid_pred hf δ
      rw [utu_eq_dot, utu_eq_dot, h2, add_dotProduct, dotProduct_add, dotProduct_add, h1,
        dotProduct_comm _ (x *ᵥ δ), h1]
      have : 0 ≤ (x *ᵥ δ) ⬝ᵥ (x *ᵥ δ) := by rw [← utu_eq_dot]; exact utu_nonneg _
      linarith
    have hkn' : (K : ℝ) < Fintype.card n := by exact_mod_cast hkn
    exact div_nonneg (div_nonneg (by linarith) (by positivity))
      (div_nonneg (utu_nonneg _) (by linarith))

/-- C73: the F test on the last coefficient is the square of its t statistic. -/
theorem C73_t_squared {K : ℕ} (x : Matrix n (Fin (K + 1)) ℝ) (y : n → ℝ) (r : Reg n (Fin (K + 1)))
    (h : reg x y = some r) (hkn : K + 1 < Fintype.card n) (hfit : r.fit.u ≠ 0) :
    fStatLast r 1 =
      some (tStat (vmClassic (sig2nk r.fit.u (K + 1)) r.fit.xtxi) r.fit.betas (Fin.last K) ^ 2) := by
  obtain ⟨hx, hyy, hf⟩ := reg_eq_some h
  obtain ⟨hu, hfe⟩ := ols_eq_some hf
  have hd : IsDel x (dropLast x 1) (Fin.last K) (Fin.castLE (Nat.sub_le (K + 1) 1)) := by
    refine ⟨fun _ _ => rfl, Fin.castLE_injective _, fun c => ?_, fun i hi => ?_⟩
    · have := c.2; intro hc; have := congrArg Fin.val hc; simp at this; omega
    · have hlt : i.1 < K + 1 - 1 := by
        have := i.2
        have : i.1 ≠ K := fun he => hi (Fin.ext (by simp [he]))
        omega
      exact ⟨⟨i.1, hlt⟩, by ext; simp⟩
  have hu0 := sub_isUnit hd.val hd.inj hu
  have h0 := ols_of_isUnit (dropLast x 1) y hu0
  have haux := ols_of_isUnit (dropLast x 1) (fun i => x i (Fin.last K)) hu0
  have hxi := aux_ssr hd hu haux
  have hxi' : r.fit.xtxi = (xᵀ * x)⁻¹ := by rw [hfe]; rfl
  have hpos : 0 < r.fit.xtxi (Fin.last K) (Fin.last K) := by
    have h1 := psd_diag (psd_inv_gram x hu) (Fin.last K)
    rw [← hxi'] at h1 hxi
    refine lt_of_le_of_ne h1 fun hz => ?_
    rw [← hz, mul_zero] at hxi; exact zero_ne_one hxi
  obtain ⟨s, hs1, hs2⟩ := drop_one hd hf h0
  have hup : 0 < utu r.fit.u := lt_of_le_of_ne (utu_nonneg _) fun hz => hfit ((utu_eq_zero _).mp hz.symm)
  have hkn' : (K : ℝ) + 1 < Fintype.card n := by exact_mod_cast hkn
  have hdn : 0 < (Fintype.card n : ℝ) - (K + 1) := by linarith
  unfold fStatLast
  rw [hx, hyy, h0]
  simp only [Option.map_some, Option.some.injEq]
  rw [hs2]
  unfold tStat vmClassic sig2nk
  rw [div_pow, Matrix.smul_apply, smul_eq_mul]
  have hnn : 0 ≤ utu r.fit.u / ((Fintype.card n : ℝ) - ((K + 1 : ℕ) : ℝ)) * r.fit.xtxi (Fin.last K) (Fin.last K) := by
    push_cast
    exact mul_nonneg (div_nonneg hup.le hdn.le) hpos.le
  rw [Real.sq_sqrt hnn]
  push_cast
  rw [hs1]
  field_simp
  ring

/-! ### A concrete regression meets the hypotheses -/

/-- four observations, a constant and a trend -/
def exD : Matrix (Fin 4) (Fin 2) ℝ := !![1, 0; 1, 1; 1, 2; 1, 3]
/-- its dependent variable -/
def exDy : Fin 4 → ℝ := ![1, 0, 2, 5]

theorem exD_isUnit : IsUnit (exDᵀ * exD).det := by
  have : exDᵀ * exD = !![4, 6; 6, 14] := by
    ext i j; fin_cases i <;> fin_cases j <;>
      simp [exD, Matrix.mul_apply, Fin.sum_univ_four] <;> norm_num
  rw [this, Matrix.det_fin_two_of]; norm_num

example : ∃ r, reg exD exDy = some r ∧ SpansConst exD ∧ NotConst exDy ∧
    1 < Fintype.card (Fin 2) ∧ Fintype.card (Fin 2) < Fintype.card (Fin 4) := by
  refine ⟨{ x := exD, y := exDy, fit := olsWith exD exDy (exDᵀ * exD)⁻¹ }, ?_,
    spansConst_of_col exD 0 (fun i => by fin_cases i <;> rfl), ⟨0, 1, by simp [exDy]⟩, by simp, by simp⟩
  unfold reg; rw [ols_of_isUnit _ _ exD_isUnit]; rfl

example : ∃ v t, vif exD 1 = some (.val v t) ∧ 1 ≤ v := by
  obtain ⟨v, t, h, h1, -⟩ := (C44_vif exD exD_isUnit 0 (fun i => by fin_cases i <;> rfl) 1).2 (by decide)
  exact ⟨v, t, h, h1⟩

end Spreg.Diag
