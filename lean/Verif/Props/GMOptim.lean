import Verif.Props.GMEquiv3
import Verif.Props.GMIter2
/-
C142: weighting and units in the GM optimisation. C143: the GM model with endogenous variables.
-/
namespace Spreg.GM
open Matrix Spreg.Lin

variable {m n k l : Type} [Fintype m] [Fintype n] [Fintype k] [Fintype l]

/-! ### C142 -/

theorem momScale_mom {a : ℝ} (ha : 0 < a) (M : Moments (Fin 2) (Fin 2)) : momScale (Tr.mom a M) = a * momScale M := by
  unfold momScale Tr.mom
  simp only [Matrix.smul_apply, Pi.smul_apply, smul_eq_mul]
  simp only [mul_min_of_nonneg _ _ ha.le]

theorem rescale_mom {a : ℝ} (ha : a ≠ 0) (M : Moments (Fin 2) (Fin 2)) (s : ℝ) : rescale (Tr.mom a M) (a * s) = rescale M s := by
  unfold rescale Tr.mom
  simp only [Moments.mk.injEq, Matrix.smul_apply, Pi.smul_apply, smul_eq_mul]
  refine ⟨?_, ?_⟩
  · ext i j
    exact mul_div_mul_left _ _ ha
  · funext i
    exact mul_div_mul_left _ _ ha

theorem chol2_smul {a : ℝ} (ha : 0 < a) (A : Matrix (Fin 2) (Fin 2) ℝ) :
    chol2 ((a ^ 2) • A) = (chol2 A).map fun L => a • L := by
  have ha2 : 0 < a ^ 2 := by positivity
  have hs : Real.sqrt (a ^ 2 * A 0 0) = a * Real.sqrt (A 0 0) := by
    rw [Real.sqrt_mul ha2.le, Real.sqrt_sq ha.le]
  unfold chol2
  simp only [Matrix.smul_apply, smul_eq_mul, hs]
  have hb : a ^ 2 * A 1 0 / (a * Real.sqrt (A 0 0)) = a * (A 1 0 / Real.sqrt (A 0 0)) := by
    rw [pow_two, mul_assoc, mul_div_mul_left _ _ ha.ne', mul_div_assoc]
  rw [hb]
  generalize A 1 0 / Real.sqrt (A 0 0) = b
  have hd : a ^ 2 * A 1 1 - (a * b) ^ 2 = a ^ 2 * (A 1 1 - b ^ 2) := by ring
  rw [hd]
  have h1 : a ^ 2 * A 0 0 ≤ 0 ↔ A 0 0 ≤ 0 := by
    constructor
    · intro h
      by_contra hn
      exact absurd h (not_le.2 (mul_pos ha2 (not_le.1 hn)))
    · exact fun h => mul_nonpos_of_nonneg_of_nonpos ha2.le h
  have h2 : a ^ 2 * (A 1 1 - b ^ 2) ≤ 0 ↔ A 1 1 - b ^ 2 ≤ 0 := by
    constructor
    · intro h
      by_contra hn
      exact absurd h (not_le.2 (mul_pos ha2 (not_le.1 hn)))
    · exact fun h => mul_nonpos_of_nonneg_of_nonpos ha2.le h
  simp only [h1, h2]
  split_ifs with h
  · rfl
  · rw [Real.sqrt_mul ha2.le, Real.sqrt_sq ha.le]
    simp only [Except.map]
    congr 1
    ext i j
    fin_cases i <;> fin_cases j <;> simp

/-- **C142** (units): the value that `optim_moments` gives for two moment equations, or the exception it raises, does not depend
on the units of the dependent variable, whatever the optimiser does; so the hypothesis of C141 holds for it. -/
theorem C142_unit_free (fmin : Moments (Fin 2) (Fin 2) → ℝ) (hb : Bool) {c : ℝ} (hc : c ≠ 0) :
    UnitFree c (optimMoments fmin hb) := by
  have h2 : 0 < c ^ 2 := by positivity
  have h4 : c ^ 4 ≠ 0 := pow_ne_zero _ hc
  refine ⟨fun M => ?_, fun M V => ?_⟩
  · show (if _ then _ else _) = (if _ then _ else _)
    rw [momScale_mom h2, rescale_mom h2.ne']
  · unfold optimMoments
    dsimp only
    by_cases hV : V = 0
    · rw [if_pos hV, if_pos (by rw [hV, smul_zero])]
      show (if _ then _ else _) = (if _ then _ else _)
      rw [momScale_mom h2, rescale_mom h2.ne']
    · rw [if_neg hV, if_neg (by rw [smul_eq_zero]; exact fun h => h.elim h4 hV), invE_smul _ h4]
      rcases invE V with e | Vi
      · rfl
      show (chol2 ((c ^ 4)⁻¹ • Vi) >>= _) = (chol2 Vi >>= _)
      have h5 : ((c ^ 4)⁻¹ : ℝ) = ((c ^ 2)⁻¹) ^ 2 := by rw [inv_pow, ← pow_mul]
      rw [h5, chol2_smul (inv_pos.2 h2)]
      rcases chol2 Vi with e | L
      · rfl
      show (if _ then _ else _) = (if _ then _ else _)
      have hw : weight (Tr.mom (c ^ 2) M) ((c ^ 2)⁻¹ • L)ᵀ = weight M Lᵀ := by
        unfold weight Tr.mom
        simp only [transpose_smul, Matrix.smul_mul, Matrix.mul_smul, smul_smul, mulVec_smul, smul_mulVec,
          inv_mul_cancel₀ h2.ne', mul_inv_cancel₀ h2.ne', one_smul]
      rw [hw]

/-- **C142**, for the models: with `optim_moments` the heteroskedastic and homoskedastic GM error models give the same lambda
after a change of units, order and basis. -/
theorem C142_models [DecidableEq k] [DecidableEq l] [DecidableEq m] [DecidableEq n] (t : Tr m n k) (B Bi : Matrix l l ℝ)
    (hB : B * Bi = 1) (hBi : Bi * B = 1) (fmin : Moments (Fin 2) (Fin 2) → ℝ) (hb : Bool)
    (W : Matrix n n ℝ) (x : Matrix n k ℝ) (h : Matrix n l ℝ) (y : n → ℝ) (maxIter : ℕ) (epsilon : ℝ) (step1c : Bool)
    (a1 : String) :
    gmErrorHet (optimMoments fmin false) (t.w W) (t.x x) (t.y x y) maxIter epsilon step1c hb =
      (gmErrorHet (optimMoments fmin false) W x y maxIter epsilon step1c hb).map (t.fit x) ∧
    gmErrorHom (optimMoments fmin hb) (t.w W) (t.x x) (t.y x y) maxIter epsilon a1 =
      (gmErrorHom (optimMoments fmin hb) W x y maxIter epsilon a1).map (t.fit x) ∧
    gmEndogErrorHom (optimMoments fmin hb) (t.w W) (t.x x) (trH t.σ B h) (t.y x y) maxIter epsilon a1 =
      (gmEndogErrorHom (optimMoments fmin hb) W x h y maxIter epsilon a1).map (t.fit x) :=
  ⟨C141_error_het t (C142_unit_free _ _ t.hc) _ _ _ _ _ _ _, C141_error_hom t (C142_unit_free _ _ t.hc) _ _ _ _ _ _,
    C141_endog_hom t B Bi (C142_unit_free _ _ t.hc) hB hBi _ _ _ _ _ _ _⟩

/-- `chol2` is the Cholesky factorisation. -/
theorem chol2_facts {A L : Matrix (Fin 2) (Fin 2) ℝ} (hA : A 0 1 = A 1 0) (h : chol2 A = .ok L) :
    L * Lᵀ = A ∧ L 0 1 = 0 ∧ 0 < L 0 0 ∧ 0 < L 1 1 := by
  unfold chol2 at h
  dsimp only at h
  split_ifs at h with hc
  push Not at hc
  obtain rfl := Except.ok.inj h
  have h0 : 0 < Real.sqrt (A 0 0) := Real.sqrt_pos.2 hc.1
  have hs : Real.sqrt (A 0 0) * Real.sqrt (A 0 0) = A 0 0 := Real.mul_self_sqrt hc.1.le
  have ht := Real.mul_self_sqrt hc.2.le
  refine ⟨?_, rfl, h0, Real.sqrt_pos.2 hc.2⟩
  ext i j
  fin_cases i <;> fin_cases j <;> simp [Matrix.mul_apply, Fin.sum_univ_two]
  · exact hs
  · rw [hA]; field_simp
  · field_simp
  · simp only [div_pow] at ht ⊢
    rw [ht]; field_simp; ring

/-- **C142** (weighting): with a symmetric weighting matrix `V` that can be inverted, what is minimised is a positive multiple of
`(g - G p)' V⁻¹ (g - G p)` in the unweighted moments, provided the scale is not zero. -/
theorem C142_weighting (fmin : Moments (Fin 2) (Fin 2) → ℝ) (hb : Bool) (M : Moments (Fin 2) (Fin 2))
    (V : Matrix (Fin 2) (Fin 2) ℝ) (hV : V ≠ 0) (hsym : V 0 1 = V 1 0) (lam : ℝ)
    (h : optimMoments fmin hb M (some V) = .ok lam) :
    ∃ (Vi : Matrix (Fin 2) (Fin 2) ℝ) (R : Moments (Fin 2) (Fin 2)) (s : ℝ), V * Vi = 1 ∧ lam = fmin R ∧
      (s ≠ 0 → ∀ p : Fin 2 → ℝ, s ^ 2 * foptimPar p R =
        ∑ i, ∑ j, (M.g i - ∑ q, M.G i q * p q) * Vi i j * (M.g j - ∑ q, M.G j q * p q)) ∧ (hb = true → |lam| < 99 / 100) := by
  unfold optimMoments at h
  dsimp only at h
  rw [if_neg hV] at h
  rcases hi : inv? V with _ | Vi
  · rw [show invE V = .error .linAlgError by rw [invE, hi]] at h
    exact absurd h (by simp [bind, Except.bind])
  obtain ⟨hdet, hVi, hVV, -⟩ := inv?_eq_some hi
  rw [show invE V = .ok Vi by rw [invE, hi]] at h
  have hVs : Vᵀ = V := by
    ext i j
    fin_cases i <;> fin_cases j <;> simp [hsym]
  have hVis : Vi 0 1 = Vi 1 0 := by
    have : Viᵀ = Vi := by rw [hVi, transpose_nonsing_inv, hVs]
    exact congrFun (congrFun this 1) 0
  change (chol2 Vi >>= _) = _ at h
  rcases hL : chol2 Vi with e | L
  · rw [hL] at h; exact absurd h (by simp [bind, Except.bind])
  rw [hL] at h
  obtain ⟨hLL, -⟩ := chol2_facts hVis hL
  change (if _ then _ else _) = _ at h
  set Mw := weight M Lᵀ with hMw
  split_ifs at h with hbnd
  obtain rfl := Except.ok.inj h
  refine ⟨Vi, _, momScale Mw, hVV, rfl, fun hs p => ?_, fun hbt => ?_⟩
  · generalize momScale Mw = s at hs
    have e1 : s ^ 2 * foptimPar p (rescale Mw s) = foptimPar p Mw := by
      unfold foptimPar rescale
      rw [Finset.mul_sum]
      refine Finset.sum_congr rfl fun i _ => ?_
      simp only [mulVec, dotProduct, of_apply]
      rw [show (∑ j, Mw.G i j / s * p j) = (∑ j, Mw.G i j * p j) / s by
        rw [Finset.sum_div]; exact Finset.sum_congr rfl fun j _ => by ring]
      field_simp
    rw [e1]
    have e2 : foptimPar p Mw = (Lᵀ *ᵥ (M.g - M.G *ᵥ p)) ⬝ᵥ (Lᵀ *ᵥ (M.g - M.G *ᵥ p)) := by
      unfold foptimPar
      simp only [dotProduct, ← pow_two]
      refine Finset.sum_congr rfl fun i _ => ?_
      rw [hMw, weight]
      dsimp only
      rw [mulVec_sub, mulVec_mulVec, Pi.sub_apply]
    rw [e2, dotProduct_mulVec, vecMul_transpose, mulVec_mulVec, hLL]
    simp only [dotProduct, mulVec, Pi.sub_apply, Finset.sum_mul]
    rw [Finset.sum_comm]
    exact Finset.sum_congr rfl fun i _ => Finset.sum_congr rfl fun j _ => by
      rw [show Vi j i = Vi i j from congrFun (congrFun (show Viᵀ = Vi by rw [hVi, transpose_nonsing_inv, hVs]) i) j]
      ring
  · by_contra hn
    exact hbnd ⟨hbt, not_lt.1 hn⟩

/-- **C142** (existence): with the weighting matrices of the code (positive semidefinite, see C57) the weighting step fails only if
the matrix is singular and not zero. -/
theorem C142_defined (fmin : Moments (Fin 2) (Fin 2) → ℝ) (M : Moments (Fin 2) (Fin 2)) (V : Matrix (Fin 2) (Fin 2) ℝ)
    (hV : SymPSD V) : (∃ lam, optimMoments fmin false M (some V) = .ok lam) ↔ (V = 0 ∨ V.det ≠ 0) := by
  constructor
  · rintro ⟨lam, h⟩
    by_cases h0 : V = 0
    · exact .inl h0
    right
    intro hd
    unfold optimMoments at h
    dsimp only at h
    rw [if_neg h0, show invE V = .error .linAlgError by
      rw [invE, show inv? V = none by unfold inv?; rw [if_neg (by rw [isUnit_iff_ne_zero]; exact fun h => h hd)]]] at h
    exact absurd h (by simp [bind, Except.bind])
  · rintro (h0 | hd)
    · refine ⟨fmin (rescale M (momScale M)), ?_⟩
      unfold optimMoments
      dsimp only
      rw [if_pos h0]
      simp [bind, Except.bind]
    · have hne : V ≠ 0 := fun h => hd (by rw [h]; simp)
      obtain ⟨Vi, hi⟩ : ∃ Vi, inv? V = some Vi := ⟨_, inv?_of_isUnit (isUnit_iff_ne_zero.2 hd)⟩
      obtain ⟨-, -, hVV, -⟩ := inv?_eq_some hi
      have hpos : ∀ g : Fin 2 → ℝ, g ≠ 0 → 0 < g ⬝ᵥ (Vi *ᵥ g) := fun g hg =>
        lt_of_le_of_ne (LM.psd_inv hV hVV g).1 fun h => hg ((LM.psd_inv hV hVV g).2.1 h.symm)
      have hsym : Vi 0 1 = Vi 1 0 := congrFun (congrFun (psd_inv' hV hVV).1 1) 0
      have h00 : 0 < Vi 0 0 := by
        have := hpos ![1, 0] fun h => by simpa using congrFun h 0
        simpa [dotProduct, mulVec, Fin.sum_univ_two] using this
      have h11 : 0 < Vi 1 1 - (Vi 1 0 / Real.sqrt (Vi 0 0)) ^ 2 := by
        have := hpos ![-(Vi 1 0 / Vi 0 0), 1] fun h => by simpa using congrFun h 1
        simp only [dotProduct, mulVec, Fin.sum_univ_two, Matrix.cons_val_zero, Matrix.cons_val_one, hsym] at this
        rw [div_pow, Real.sq_sqrt h00.le]
        have e : Vi 1 1 - Vi 1 0 ^ 2 / Vi 0 0 = -(Vi 1 0 / Vi 0 0) * (Vi 0 0 * -(Vi 1 0 / Vi 0 0) + Vi 1 0 * 1) +
            1 * (Vi 1 0 * -(Vi 1 0 / Vi 0 0) + Vi 1 1 * 1) := by field_simp; ring
        rw [e]; exact this
      obtain ⟨L, hL⟩ : ∃ L, chol2 Vi = .ok L := by
        unfold chol2
        dsimp only
        rw [if_neg (by push Not; exact ⟨h00, h11⟩)]
        exact ⟨_, rfl⟩
      refine ⟨fmin (rescale (weight M Lᵀ) (momScale (weight M Lᵀ))), ?_⟩
      unfold optimMoments
      dsimp only
      rw [if_neg hne, show invE V = .ok Vi by rw [invE, hi]]
      show (chol2 Vi >>= _) = _
      rw [hL]
      simp [bind, Except.bind]

/-- **C142** (three equations): in new units the minimisers are the old ones, with the error variance in the new units; so `GM_Error`
and `GM_Combo` give the same lambda if the optimiser finds the minimum. -/
theorem C142_kp98 {c : ℝ} (hc : c ≠ 0) (M : Moments (Fin 3) (Fin 3)) (lam s2 : ℝ) :
    foptimPar ![lam, lam ^ 2, c ^ 2 * s2] (Tr.mom3 (c ^ 2) M) = c ^ 4 * foptimPar ![lam, lam ^ 2, s2] M ∧
    ((∀ l' s', |l'| ≤ 99 / 100 → 0 ≤ s' → foptimPar ![lam, lam ^ 2, s2] M ≤ foptimPar ![l', l' ^ 2, s'] M) ↔
      ∀ l' s', |l'| ≤ 99 / 100 → 0 ≤ s' →
        foptimPar ![lam, lam ^ 2, c ^ 2 * s2] (Tr.mom3 (c ^ 2) M) ≤ foptimPar ![l', l' ^ 2, s'] (Tr.mom3 (c ^ 2) M)) := by
  have key : ∀ l s, foptimPar ![l, l ^ 2, c ^ 2 * s] (Tr.mom3 (c ^ 2) M) = c ^ 4 * foptimPar ![l, l ^ 2, s] M := fun l s => by
    simp only [foptimPar, Tr.mom3, mulVec, dotProduct, Fin.sum_univ_three]
    simp
    ring
  have h4 : 0 < c ^ 4 := by positivity
  refine ⟨key _ _, fun h l' s' hl hs => ?_, fun h l' s' hl hs => ?_⟩
  · have h2 : 0 < c ^ 2 := by positivity
    have e : s' = c ^ 2 * (s' / c ^ 2) := by field_simp
    rw [e, key, key]
    exact mul_le_mul_of_nonneg_left (h _ _ hl (by positivity)) h4.le
  · have := h l' (c ^ 2 * s') hl (by positivity)
    rw [key, key] at this
    exact le_of_mul_le_mul_left this h4

/-! ### C143 -/

/-- **C143**: `GM_Endog_Error` and `GM_Combo`, whatever value the optimiser returns. The residual is `y - z betas`, the reported
filtered residual is its filter, the first-stage fitted values of the filtered regressors are orthogonal to it, `sig2` is its mean square, and the
covariance matrix is symmetric and positive semidefinite. -/
theorem C143_endog_error [DecidableEq k] [DecidableEq l] (opt : Moments (Fin 3) (Fin 3) → Py ℝ) (W : Matrix n n ℝ)
    (z : Matrix n k ℝ) (h : Matrix n l ℝ) (y : n → ℝ) (f : GMErrorFit n k) (hf : gmEndogError opt W z h y = .ok f) :
    (∃ t, tslsE z h y = .ok t ∧ opt (momentsGM W t.u) = .ok f.lam) ∧
    (∀ i, y i = f.predy i + f.u i) ∧ (∀ i, f.predy i = ∑ j, z i j * f.betas j) ∧
    (∀ i, f.eFiltered i = f.u i - f.lam * ∑ j, W i j * f.u j) ∧
    (∀ j, ∑ i, firstStage (spFilterM W f.lam z) h i j * f.eFiltered i = 0) ∧
    f.sig2 = (∑ i, f.eFiltered i ^ 2) / Fintype.card n ∧ SymPSD f.vm := by
  unfold gmEndogError at hf
  rcases h1 : tslsE z h y with e | t
  · rw [h1] at hf; exact absurd hf (by simp [bind, Except.bind])
  rw [h1] at hf
  change (opt (momentsGM W t.u) >>= _) = _ at hf
  rcases h2 : opt (momentsGM W t.u) with e | lam
  · rw [h2] at hf; exact absurd hf (by simp [bind, Except.bind])
  rw [h2] at hf
  change (tslsE (spFilterM W lam z) h (spFilter W lam y) >>= _) = _ at hf
  rcases h3 : tslsE (spFilterM W lam z) h (spFilter W lam y) with e | t2
  · rw [h3] at hf; exact absurd hf (by simp [bind, Except.bind])
  rw [h3] at hf
  obtain rfl := Except.ok.inj hf
  have h3' : tslsZH (spFilterM W lam z) h (spFilter W lam y) = some t2 := by
    unfold tslsE at h3
    rcases hh : tslsZH (spFilterM W lam z) h (spFilter W lam y) with _ | q
    · rw [hh] at h3; exact absurd h3 (by simp)
    · rw [hh] at h3; rw [Except.ok.inj h3]
  have hfoc := (C10_orthogonal_firstStage _ _ _ _ h3').2.2
  obtain ⟨hu, -, -, hv, hvb, -, hp, huu⟩ := tslsZH_facts h3'
  have hef : (y - z *ᵥ t2.betas) - (lam • W) *ᵥ (y - z *ᵥ t2.betas) = t2.u := by
    rw [huu, hp, spFilterM_mulVec]
    unfold spFilter
    rw [smul_mulVec, mulVec_sub, smul_sub]
    abel
  refine ⟨⟨t, rfl, h2⟩, fun i => by simp, fun i => rfl, fun i => ?_, ?_, ?_, ?_⟩
  · simp only [smul_mulVec]
    rfl
  · dsimp only
    rw [hef]
    exact hfoc
  · dsimp only
    rw [hef]
    simp only [dotProduct, N, pow_two]
  · refine psd_smul ?_ _ (div_nonneg ?_ (by unfold N; positivity))
    · rw [hvb]
      have hg : SymPSD ((spFilterM W lam z)ᵀ * h * (hᵀ * h)⁻¹ * ((spFilterM W lam z)ᵀ * h)ᵀ) := by
        rw [Matrix.mul_assoc]
        exact psd_conj (psd_inv_gram h hu) _
      exact psd_inv' hg (mul_nonsing_inv _ hv)
    · rw [← utu_eq_dot]; exact utu_nonneg _


/-! ### Models with a spatial lag -/

/-- Regressors of the lag and combined models: `x` and the spatial lag of `y`. -/
def lagZ (W : Matrix n n ℝ) (x : Matrix n k ℝ) (y : n → ℝ) : Matrix n (k ⊕ Unit) ℝ :=
  fromCols x (Matrix.of fun i (_ : Unit) => ∑ j, W i j * y j)

/-- The change of the data for these regressors: the lag is measured in the units of the dependent variable. -/
noncomputable def Tr.lag [DecidableEq k] (t : Tr m n k) : Tr m n (k ⊕ Unit) where
  σ := t.σ
  T := fromBlocks t.T 0 0 (t.c • 1)
  Ti := fromBlocks t.Ti 0 0 (t.c⁻¹ • 1)
  c := t.c
  d := 0
  hT := by
    rw [fromBlocks_multiply, t.hT, smul_mul_smul_comm, mul_inv_cancel₀ t.hc]
    simp [fromBlocks_one]
  hTi := by
    rw [fromBlocks_multiply, t.hTi, smul_mul_smul_comm, inv_mul_cancel₀ t.hc]
    simp [fromBlocks_one]
  hc := t.hc

theorem Tr.lag_x [DecidableEq k] (t : Tr m n k) (W : Matrix n n ℝ) (x : Matrix n k ℝ) (y : n → ℝ) :
    t.lag.x (lagZ W x y) = lagZ (t.w W) (t.x x) (t.u y) := by
  ext i j
  rcases j with j | j
  · simp [Tr.x, Tr.lag, lagZ, mul_apply, Fintype.sum_sum_type]
  · have e : (∑ a, t.w W i a * t.u y a) = t.c * ∑ a, W (t.σ i) a * y a := by
      have := congrFun (t.w_mulVec W y) i
      exact this
    simp only [lagZ, fromCols_apply_inr, of_apply, e]
    simp [Tr.x, Tr.lag, lagZ, mul_apply, Fintype.sum_sum_type, mul_comm]

theorem Tr.lag_y [DecidableEq k] (t : Tr m n k) (z : Matrix n (k ⊕ Unit) ℝ) (y : n → ℝ) : t.lag.y z y = t.u y := by
  funext i
  simp [Tr.y, Tr.u, Tr.lag]

theorem lag_h [DecidableEq k] [DecidableEq l] (t : Tr m n k) (B : Matrix l l ℝ) (x : Matrix n k ℝ) (q : Matrix n l ℝ) :
    trH t.lag.σ (fromBlocks t.T 0 0 B) (fromCols x q) = fromCols (t.x x) (trH t.σ B q) := by
  ext i j
  rcases j with j | j <;> simp [trH, Tr.x, Tr.lag, mul_apply, Fintype.sum_sum_type]

section
variable [DecidableEq k] [DecidableEq l] [DecidableEq m] [DecidableEq n] (t : Tr m n k) (B Bi : Matrix l l ℝ)

theorem blk (hB : B * Bi = 1) : fromBlocks t.T 0 0 B * fromBlocks t.Ti 0 0 Bi = 1 := by
  rw [fromBlocks_multiply, t.hT, hB]; simp [fromBlocks_one]
theorem blk' (hBi : Bi * B = 1) : fromBlocks t.Ti 0 0 Bi * fromBlocks t.T 0 0 B = 1 := by
  rw [fromBlocks_multiply, t.hTi, hBi]; simp [fromBlocks_one]

/-- **C140** (`GM_Lag`): the regressors are combined differently, the dependent variable is measured in other units, the observations
are reordered: the spatial parameter is the same, everything else is transformed accordingly. -/
theorem C140_lag (hB : B * Bi = 1) (hBi : Bi * B = 1) (W : Matrix n n ℝ) (x : Matrix n k ℝ) (q : Matrix n l ℝ) (y : n → ℝ) :
    (∀ f, tslsE (lagZ W x y) (fromCols x q) y = .ok f →
      ∃ f', tslsE (lagZ (t.w W) (t.x x) (t.u y)) (fromCols (t.x x) (trH t.σ B q)) (t.u y) = .ok f' ∧
        f'.betas (.inr ()) = f.betas (.inr ()) ∧
        (∀ j, f'.betas (.inl j) = t.c * (t.Ti *ᵥ fun a => f.betas (.inl a)) j) ∧ f'.u = t.u f.u ∧ f'.predy = t.u f.predy ∧
        sig2n f'.u • f'.varb = t.lag.v (sig2n f.u • f.varb)) ∧
    (∀ e, tslsE (lagZ W x y) (fromCols x q) y = .error e →
      tslsE (lagZ (t.w W) (t.x x) (t.u y)) (fromCols (t.x x) (trH t.σ B q)) (t.u y) = .error e) := by
  have key := C140_two_stage t.lag (fromBlocks t.T 0 0 B) (fromBlocks t.Ti 0 0 Bi) (blk t B Bi hB) (blk' t B Bi hBi) (lagZ W x y)
    (fromCols x q) y
  rw [t.lag_x, lag_h, t.lag_y] at key
  refine ⟨fun f hf => ?_, key.2⟩
  obtain ⟨f', h1, h2, h3, h4, -, h6⟩ := key.1 f hf
  refine ⟨f', h1, ?_, fun j => ?_, h4, by rw [h3, t.lag_y], h6⟩
  · rw [h2]
    exact t.lag.last (T1 := t.T) rfl rfl _
  · rw [h2]
    simp [Tr.b, Tr.lag, mulVec, dotProduct, Fintype.sum_sum_type, Finset.mul_sum, mul_left_comm]

/-- **C141** for the combined models `GM_Combo`, `GM_Combo_Hom` and `GM_Combo_Het`. -/
theorem C141_combo (hB : B * Bi = 1) (hBi : Bi * B = 1) (fmin : Moments (Fin 2) (Fin 2) → ℝ) (hb : Bool)
    {opt3 : Moments (Fin 3) (Fin 3) → Py ℝ} (ho : ∀ M, opt3 (Tr.mom3 (t.c ^ 2) M) = opt3 M)
    (W : Matrix n n ℝ) (x : Matrix n k ℝ) (q : Matrix n l ℝ) (y : n → ℝ) (maxIter : ℕ) (epsilon : ℝ) (a1 : String) :
    gmEndogError opt3 (t.w W) (lagZ (t.w W) (t.x x) (t.u y)) (fromCols (t.x x) (trH t.σ B q)) (t.u y) =
      (gmEndogError opt3 W (lagZ W x y) (fromCols x q) y).map (t.lag.fit1 (lagZ W x y)) ∧
    gmEndogErrorHom (optimMoments fmin hb) (t.w W) (lagZ (t.w W) (t.x x) (t.u y)) (fromCols (t.x x) (trH t.σ B q)) (t.u y) maxIter
        epsilon a1 =
      (gmEndogErrorHom (optimMoments fmin hb) W (lagZ W x y) (fromCols x q) y maxIter epsilon a1).map (t.lag.fit (lagZ W x y)) ∧
    gmEndogErrorHet (optimMoments fmin false) (t.w W) (lagZ (t.w W) (t.x x) (t.u y)) (fromCols (t.x x) (trH t.σ B q)) (t.u y) maxIter
        epsilon hb =
      (gmEndogErrorHet (optimMoments fmin false) W (lagZ W x y) (fromCols x q) y maxIter epsilon hb).map
        (t.lag.fit (lagZ W x y)) ∧
    ∀ b, t.lag.b b (.inr ()) = b (.inr ()) := by
  have hw : t.lag.w W = t.w W := rfl
  rw [← t.lag_x, ← lag_h, ← t.lag_y (lagZ W x y) y, ← hw]
  exact ⟨C141_endog_error t.lag _ _ ho (blk t B Bi hB) (blk' t B Bi hBi) _ _ _ _,
    C141_endog_hom t.lag _ _ (C142_unit_free _ _ t.lag.hc) (blk t B Bi hB) (blk' t B Bi hBi) _ _ _ _ _ _ _,
    C141_endog_het t.lag _ _ (C142_unit_free _ _ t.lag.hc) (blk t B Bi hB) (blk' t B Bi hBi) (T1 := t.T) rfl rfl _ _ _ _ _ _ _,
    t.lag.last (T1 := t.T) rfl rfl⟩

end

/-! ### Non-vacuity -/

/-- A change of data: the first and third of three observations exchanged, other units for regressor and dependent variable, a
constant added. -/
noncomputable def exTr : Tr (Fin 3) (Fin 3) (Fin 1) where
  σ := Equiv.swap 0 2
  T := !![4]
  Ti := !![1/4]
  c := -3
  d := ![10]
  hT := by ext i j; fin_cases i; fin_cases j; simp
  hTi := by ext i j; fin_cases i; fin_cases j; simp
  hc := by norm_num

/-- Non-vacuity (C141): the run of `C48_example` on the changed data: the mean 3 becomes (-3 * 3 + 10) / 4. -/
example : ∃ f, gmErrorHet (fun _ _ => .ok 0) (exTr.w !![0, 1, 0; 1, 0, 1; 0, 1, 0])
    (exTr.x !![1; 1; 1]) (exTr.y !![1; 1; 1] ![1, 2, 6]) 1 (1 / 100000) false false = .ok f ∧
    f.betas = ![1/4] ∧ f.u = ![-9, 3, 6] := by
  obtain ⟨f, hf, -, hb, hu, -⟩ := C48_example
  refine ⟨exTr.fit !![1; 1; 1] f, ?_, ?_, ?_⟩
  · rw [C141_error_het exTr ⟨fun _ => rfl, fun _ _ => rfl⟩, hf]; rfl
  · show exTr.b f.betas = _
    rw [hb]
    funext i; fin_cases i
    simp [Tr.b, exTr, mulVec, dotProduct]; norm_num
  · show exTr.u f.u = _
    rw [hu]
    funext i
    fin_cases i <;> simp [Tr.u, exTr, Equiv.swap_apply_def] <;> norm_num

/-- Non-vacuity (C142): a weighting matrix for which the Cholesky factorisation is not trivial. -/
example : chol2 !![4, 2; 2, 10] = .ok !![2, 0; 1, 3] := by
  unfold chol2
  have h2 : Real.sqrt 4 = 2 := by rw [show (4 : ℝ) = 2 ^ 2 by norm_num, Real.sqrt_sq (by norm_num)]
  have h3 : Real.sqrt 9 = 3 := by rw [show (9 : ℝ) = 3 ^ 2 by norm_num, Real.sqrt_sq (by norm_num)]
  simp [h2]
  norm_num
  exact h3

/-- Non-vacuity (C143): a run that succeeds. -/
example : ∃ f, gmEndogError (fun _ => .ok (1/2)) (!![0, 1; 1, 0] : Matrix (Fin 2) (Fin 2) ℝ)
    (!![1; 1] : Matrix (Fin 2) (Fin 1) ℝ) (!![1; 3] : Matrix (Fin 2) (Fin 1) ℝ) ![1, 3] = .ok f ∧ f.lam = 1/2 := by
  have hhh : (!![1; 3] : Matrix (Fin 2) (Fin 1) ℝ)ᵀ * (!![1; 3] : Matrix (Fin 2) (Fin 1) ℝ) = !![10] := by
    ext i j; fin_cases i; fin_cases j; simp [Matrix.mul_apply, Fin.sum_univ_two]; norm_num
  have hi : (!![10] : Matrix (Fin 1) (Fin 1) ℝ)⁻¹ = !![1/10] := by
    apply inv_eq_right_inv; ext i j; fin_cases i; fin_cases j; simp
  have hd : IsUnit ((!![1; 3] : Matrix (Fin 2) (Fin 1) ℝ)ᵀ * (!![1; 3] : Matrix (Fin 2) (Fin 1) ℝ)).det := by
    rw [hhh, isUnit_iff_ne_zero]; simp
  have hz : ∀ z : Matrix (Fin 2) (Fin 1) ℝ, z 0 0 + 3 * z 1 0 ≠ 0 → ∀ y, ∃ t, tslsE z (!![1; 3] : Matrix (Fin 2) (Fin 1) ℝ) y = .ok t := by
    intro z hz y
    obtain ⟨t, ht⟩ := tslsZH_of_isUnit z (!![1; 3] : Matrix (Fin 2) (Fin 1) ℝ) y hd (by
      rw [hhh, hi, isUnit_iff_ne_zero, det_fin_one]
      simp [Matrix.mul_apply, Fin.sum_univ_two]
      exact ⟨fun h => hz (by linarith), hz⟩)
    exact ⟨t, by unfold tslsE; rw [ht]⟩
  obtain ⟨t, ht⟩ := hz !![1; 1] (by norm_num) ![1, 3]
  obtain ⟨t2, ht2⟩ := hz (spFilterM (!![0, 1; 1, 0] : Matrix (Fin 2) (Fin 2) ℝ) (1/2) !![1; 1])
    (by simp [spFilterM, Matrix.mul_apply, Fin.sum_univ_two]; norm_num) (spFilter !![0, 1; 1, 0] (1/2) ![1, 3])
  unfold gmEndogError
  rw [ht]
  show ∃ f, (tslsE _ _ _ >>= _) = _ ∧ _
  rw [ht2]
  exact ⟨_, rfl, rfl⟩

end Spreg.GM
