import Verif.Props.SURSpatial
/-
C116, C117, C118: the likelihood of SURerrorML and its iterations.
-/
namespace Spreg.SUR
open Matrix Spreg.Lin Spreg.Gauss
open scoped Kronecker

variable {n R : Type} [Fintype n] [Fintype R] [DecidableEq R] [DecidableEq n] {K : R → Type} [∀ r, Fintype (K r)]
  [∀ r, DecidableEq (K r)]

omit [DecidableEq R] in
theorem gram_sig [Nonempty n] (F : Matrix n R ℝ) : Fᵀ * F = (Fintype.card n : ℝ) • sigOf F := by
  have : (Fintype.card n : ℝ) ≠ 0 := Nat.cast_ne_zero.2 Fintype.card_ne_zero
  rw [sigOf, smul_smul, mul_one_div_cancel this, one_smul]

theorem sig_posDef (F : Matrix n R ℝ) (h : IsUnit (sigOf F).det) : (sigOf F).PosDef := posDef_of (sig_psd F) h

/-- The profile log-likelihood: the objective with the constant of SURerrorML is the log-likelihood at the covariance matrix of
the filtered residuals, and maximal over covariance matrices. -/
theorem prof_max [Nonempty n] (W : Matrix n n ℝ) (lam : R → ℝ) (X : ∀ r, Matrix n (K r) ℝ) (y : R → n → ℝ) (b : ∀ r, K r → ℝ)
    (hA : ∀ r, IsUnit (1 - lam r • W).det) (hS : IsUnit (sigOf (filtE W lam (surResids y X b))).det) :
    mlConst n R + -clikSur W (surResids y X b) lam =
      normalLL (bigZ X *ᵥ stackB b) (surErrCov W lam (sigOf (filtE W lam (surResids y X b)))) (bigY y) ∧
    ∀ S : Matrix R R ℝ, S.PosDef → normalLL (bigZ X *ᵥ stackB b) (surErrCov W lam S) (bigY y) ≤
      mlConst n R + -clikSur W (surResids y X b) lam := by
  set F := filtE W lam (surResids y X b) with hF
  have hpd := sig_posDef F hS
  have hcl : clikSur W (surResids y X b) lam = (Fintype.card n : ℝ) / 2 * Real.log (sigOf F).det - jacobSur W lam := by
    unfold clikSur slogdet
    dsimp only
    rw [← hF, abs_of_pos hpd.det_pos]
    ring
  have key : ∀ S : Matrix R R ℝ, S.PosDef → normalLL (bigZ X *ᵥ stackB b) (surErrCov W lam S) (bigY y) =
      -((Fintype.card n : ℝ) / 2) * (Fintype.card R * Real.log (2 * Real.pi) + Real.log S.det) + jacobSur W lam
        - (Fintype.card n : ℝ) / 2 * (S⁻¹ * sigOf F).trace := by
    intro S hSp
    rw [surErrLL_eq W lam S hA hSp, unstack_resid, ← hF, gram_sig, Matrix.mul_smul, trace_smul, smul_eq_mul]
    ring
  have h0 : (0 : ℝ) ≤ (Fintype.card n : ℝ) / 2 := by positivity
  constructor
  · rw [key _ hpd, hcl, nonsing_inv_mul _ hS, trace_one, mlConst]
    ring
  · intro S hSp
    rw [key S hSp, hcl, mlConst]
    have := log_det_ineq hSp hpd
    nlinarith [mul_le_mul_of_nonneg_left this h0]

/-! ### The loop -/

/-- Invariant of the loop. -/
structure InvML (W : Matrix n n ℝ) (X : ∀ r, Matrix n (K r) ℝ) (y : R → n → ℝ) (s : StML n R K) : Prop where
  res : ∃ b, s.bigE = surResids y X b
  est : ∀ e, s.est = some e → s.bigE = surResids y X e.b ∧ s.fun1 = clikSur W s.bigE s.lam ∧
    ∃ lam0 b0, surEst (crossXX (filtX W lam0 X)) (crossXy (filtX W lam0 X) (filtY W lam0 y))
      (filtE W lam0 (surResids y X b0)) = some e

theorem mlStep_some {opt : ((R → ℝ) → ℝ) → (R → ℝ) → R → ℝ} {W : Matrix n n ℝ} {X : ∀ r, Matrix n (K r) ℝ} {y : R → n → ℝ}
    {s s' : StML n R K} (h : mlStep opt W X y s = some s') :
    ∃ e, surEst (crossXX (filtX W s.lam X)) (crossXy (filtX W s.lam X) (filtY W s.lam y)) (filtE W s.lam s.bigE) = some e ∧
      s'.est = some e ∧ s'.bigE = surResids y X e.b ∧ s'.lam = opt (clikSur W s'.bigE) s.lam ∧ s'.fun0 = s.fun1 ∧
      s'.fun1 = clikSur W s'.bigE s'.lam := by
  unfold mlStep at h
  simp only [Option.map_eq_some_iff] at h
  obtain ⟨e, he, rfl⟩ := h
  exact ⟨e, he, rfl, rfl, rfl, rfl, rfl⟩

theorem step_inv {opt : ((R → ℝ) → ℝ) → (R → ℝ) → R → ℝ} {W : Matrix n n ℝ} {X : ∀ r, Matrix n (K r) ℝ} {y : R → n → ℝ}
    {s s' : StML n R K} (hi : InvML W X y s) (h : mlStep opt W X y s = some s') : InvML W X y s' := by
  obtain ⟨e, he, h1, h2, h3, h4, h5⟩ := mlStep_some h
  refine ⟨⟨_, h2⟩, fun e' he' => ?_⟩
  rw [h1] at he'
  obtain rfl := Option.some.inj he'
  obtain ⟨b, hb⟩ := hi.res
  rw [hb] at he
  exact ⟨h2, h5, _, _, he⟩

theorem run_inv {opt : ((R → ℝ) → ℝ) → (R → ℝ) → R → ℝ} {W : Matrix n n ℝ} {X : ∀ r, Matrix n (K r) ℝ} {y : R → n → ℝ}
    {eps : ℝ} {s : StML n R K} {o : Option (StML n R K)} (h : MLRun opt W X y eps s o) :
    ∀ s', o = some s' → InvML W X y s → InvML W X y s' := by
  induction h with
  | stop s _ => rintro s' hs hi; obtain rfl := Option.some.inj hs; exact hi
  | raise s _ _ => rintro s' hs; cases hs
  | pass s s1 o _ h1 _ ih => intro s' hs hi; exact ih s' hs (step_inv hi h1)

theorem run_stop {opt : ((R → ℝ) → ℝ) → (R → ℝ) → R → ℝ} {W : Matrix n n ℝ} {X : ∀ r, Matrix n (K r) ℝ} {y : R → n → ℝ}
    {eps : ℝ} {s : StML n R K} {o : Option (StML n R K)} (h : MLRun opt W X y eps s o) :
    ∀ s', o = some s' → ¬|s'.fun0 - s'.fun1| > eps := by
  induction h with
  | stop s h => rintro s' hs; obtain rfl := Option.some.inj hs; exact h
  | raise s _ _ => rintro s' hs; cases hs
  | pass s s1 o _ h1 _ ih => intro s' hs; exact ih s' hs

theorem init_inv (optS : (ℝ → ℝ) → ℝ) (W : Matrix n n ℝ) (X : ∀ r, Matrix n (K r) ℝ) (y : R → n → ℝ) (m : ℕ) (eps : ℝ)
    (reg0 : Fit n R K) (h : baseSUR X y true m eps = some reg0) : InvML W X y (mlInit optS W X y reg0) := by
  obtain ⟨b, s0, s, -, -, -, he, -, -, -, hE, -⟩ := base_cases X y true m eps reg0 h
  exact ⟨⟨_, hE⟩, fun e he => by cases he⟩

/-- What a fit reported by SURerrorML is. -/
theorem fit_cases {optS : (ℝ → ℝ) → ℝ} {opt : ((R → ℝ) → ℝ) → (R → ℝ) → R → ℝ} {W : Matrix n n ℝ}
    {X : ∀ r, Matrix n (K r) ℝ} {y : R → n → ℝ} {eps : ℝ} {f : FitML n R K} (h : BaseSURerrorML optS opt W X y eps (.ok f)) :
    ∃ reg0 s, baseSUR X y true 5 (1 / 100000) = some reg0 ∧ MLRun opt W X y eps (mlInit optS W X y reg0) (some s) ∧
      InvML W X y s ∧ s.est = some f.est ∧ f.lamols = (fun r => optS (errObjSur W X y r)) ∧
      f.clikerr = -∑ r, errObjSur W X y r (f.lamols r) ∧ f.bSUR0 = reg0.est.b ∧ f.llik = reg0.llik ∧ f.lam = s.lam ∧
      f.bigE = surResids y X f.est.b ∧ f.cliksurerr = -clikSur W (surResids y X f.est.b) f.lam ∧ f.corr = surCorr f.est.sig ∧
      ¬|s.fun0 - s.fun1| > eps := by
  unfold BaseSURerrorML at h
  split at h
  · cases h
  · next reg0 h0 =>
    obtain ⟨o, hr, ho⟩ := h
    have hi := init_inv optS W X y 5 _ reg0 h0
    unfold mlFinish at ho
    split at ho
    · cases ho
    · next s =>
      split at ho
      · cases ho
      · next e hse =>
        obtain rfl := Except.ok.inj ho
        have his := run_inv hr s rfl hi
        obtain ⟨h1, h2, -⟩ := his.est e hse
        refine ⟨reg0, s, h0, hr, his, hse, rfl, rfl, rfl, rfl, rfl, h1, ?_, rfl, ?_⟩
        · show -s.fun1 = _
          rw [h2, h1]
        · clear h1 h2 his hse
          exact run_stop hr s rfl

/-- C116: `surerrllik` of SURerrorML is the Gaussian log-likelihood of the SUR model with spatial errors at the reported
coefficients and lambdas and the covariance matrix of the filtered residuals, and no covariance matrix gives a larger one. -/
theorem C116_likelihood [Nonempty n] (optS : (ℝ → ℝ) → ℝ) (opt : ((R → ℝ) → ℝ) → (R → ℝ) → R → ℝ) (W : Matrix n n ℝ)
    (X : ∀ r, Matrix n (K r) ℝ) (y : R → n → ℝ) (eps : ℝ) (f : FitML n R K)
    (h : BaseSURerrorML optS opt W X y eps (.ok f)) (hA : ∀ r, IsUnit (1 - f.lam r • W).det) :
    (∀ i r, f.bigE i r = y r i - ∑ j, X r i j * f.est.b r j) ∧
    ∀ S0 : Matrix R R ℝ, (∀ r t, S0 r t = (∑ i, (f.bigE i r - f.lam r * ∑ j, W i j * f.bigE j r) *
        (f.bigE i t - f.lam t * ∑ j, W i j * f.bigE j t)) / Fintype.card n) → IsUnit S0.det →
      f.surerrllik = normalLL (bigZ X *ᵥ stackB f.est.b) (surErrCov W f.lam S0) (bigY y) ∧
      ∀ S : Matrix R R ℝ, S.PosDef → normalLL (bigZ X *ᵥ stackB f.est.b) (surErrCov W f.lam S) (bigY y) ≤ f.surerrllik := by
  obtain ⟨reg0, s, -, -, -, -, -, -, -, -, -, hE, hc, -, -⟩ := fit_cases h
  refine ⟨fun i r => by rw [hE]; rfl, fun S0 hS0 hu => ?_⟩
  have e : S0 = sigOf (filtE W f.lam (surResids y X f.est.b)) := by
    ext r t
    rw [hS0, sigOf, Matrix.smul_apply, Matrix.mul_apply, smul_eq_mul, one_div, mul_comm, ← div_eq_mul_inv, ← hE]
    congr 1
    refine Finset.sum_congr rfl fun i _ => ?_
    rw [transpose_apply, filtE_eq, filtE_eq]
    simp only [filtA, sub_mulVec, one_mulVec, smul_mulVec, Pi.sub_apply, Pi.smul_apply, smul_eq_mul]
    rfl
  subst e
  obtain ⟨h1, h2⟩ := prof_max W f.lam X y f.est.b hA hu
  unfold FitML.surerrllik
  rw [hc]
  exact ⟨h1, h2⟩

/-- C116: the reported coefficients, variances and covariance matrix are generalised least squares for the covariance matrix
of the model at the lambdas `lam0` of the previous pass: with `sig` the covariance matrix of the filtered residuals of that
pass. -/
theorem C116_coefficients (optS : (ℝ → ℝ) → ℝ) (opt : ((R → ℝ) → ℝ) → (R → ℝ) → R → ℝ) (W : Matrix n n ℝ)
    (X : ∀ r, Matrix n (K r) ℝ) (y : R → n → ℝ) (eps : ℝ) (f : FitML n R K)
    (h : BaseSURerrorML optS opt W X y eps (.ok f)) :
    SymPSD f.est.varb ∧ f.est.sig.PosDef ∧ ∃ (lam0 : R → ℝ) (b0 : ∀ r, K r → ℝ),
      f.est.sig = sigOf (filtE W lam0 (surResids y X b0)) ∧
      ((∀ r, IsUnit (1 - lam0 r • W).det) →
        (∀ b, gss X y (surErrCov W lam0 f.est.sig) f.est.b ≤ gss X y (surErrCov W lam0 f.est.sig) b) ∧
        f.est.varb * ((bigZ X)ᵀ * (surErrCov W lam0 f.est.sig)⁻¹ * bigZ X) = 1) := by
  obtain ⟨reg0, s, -, -, hi, he, -⟩ := fit_cases h
  obtain ⟨-, -, lam0, b0, hs⟩ := hi.est _ he
  refine ⟨C41_varb_psd _ _ _ _ hs, (slogdet_est _ _ _ _ hs).2, lam0, b0, (surEst_some _ _ _ _ hs).1, fun hA => ?_⟩
  obtain ⟨-, h2, h3⟩ := filtered_gls W lam0 X y _ _ hs hA
  exact ⟨h2, h3⟩

/-! ### C117: ascent -/

/-- What is assumed of the optimiser: from admissible values it returns admissible values at which the objective is not
larger. -/
structure Improves (L : Set ℝ) (opt : ((R → ℝ) → ℝ) → (R → ℝ) → R → ℝ) : Prop where
  mem : ∀ (g : (R → ℝ) → ℝ) (l : R → ℝ), (∀ r, l r ∈ L) → ∀ r, opt g l r ∈ L
  le : ∀ (g : (R → ℝ) → ℝ) (l : R → ℝ), (∀ r, l r ∈ L) → g (opt g l) ≤ g l

/-- No admissible lambdas and coefficients fit perfectly: the covariance matrix of filtered residuals is never singular. -/
def NoPerfectFit (W : Matrix n n ℝ) (X : ∀ r, Matrix n (K r) ℝ) (y : R → n → ℝ) (L : Set ℝ) : Prop :=
  ∀ lam : R → ℝ, (∀ r, lam r ∈ L) → ∀ b, IsUnit (sigOf (filtE W lam (surResids y X b))).det

theorem step_le {opt : ((R → ℝ) → ℝ) → (R → ℝ) → R → ℝ} {W : Matrix n n ℝ} {X : ∀ r, Matrix n (K r) ℝ} {y : R → n → ℝ}
    {L : Set ℝ} (ho : Improves L opt) (hN : NoPerfectFit W X y L) {s s' : StML n R K} (hi : InvML W X y s)
    (hl : ∀ r, s.lam r ∈ L) (h : mlStep opt W X y s = some s') :
    s'.fun1 ≤ clikSur W s.bigE s.lam ∧ ∀ r, s'.lam r ∈ L := by
  obtain ⟨e, he, h1, h2, h3, h4, h5⟩ := mlStep_some h
  refine ⟨?_, by rw [h3]; exact ho.mem _ _ hl⟩
  rw [h5, h3]
  refine (ho.le _ _ hl).trans ?_
  obtain ⟨b, hb⟩ := hi.res
  have hx := (C41_exists_iff _ _ _).1 ⟨e, he⟩
  obtain ⟨e', he'⟩ := (C41_exists_iff (filtX W s.lam X) (filtY W s.lam y)
    (surResids (filtY W s.lam y) (filtX W s.lam X) e.b)).2 ⟨by rw [filt_resid]; exact hN _ hl _, hx.2⟩
  have he2 := he
  rw [hb, ← filt_resid] at he2
  have := step_logdet _ _ _ e e' he2 he'
  have q1 : e.sig = sigOf (filtE W s.lam s.bigE) := (surEst_some _ _ _ _ he).1
  have q2 : e'.sig = sigOf (filtE W s.lam s'.bigE) := by
    rw [h2, ← filt_resid]; exact (surEst_some _ _ _ _ he').1
  have p1 := (slogdet_est _ _ _ _ he).1
  have p2 := (slogdet_est _ _ _ _ he').1
  unfold clikSur
  dsimp only
  rw [← q1, ← q2, p1, p2]
  have h0 : (0 : ℝ) ≤ (Fintype.card n : ℝ) / 2 := by positivity
  nlinarith [mul_le_mul_of_nonneg_left this h0]

theorem run_le {opt : ((R → ℝ) → ℝ) → (R → ℝ) → R → ℝ} {W : Matrix n n ℝ} {X : ∀ r, Matrix n (K r) ℝ} {y : R → n → ℝ}
    {eps : ℝ} {L : Set ℝ} (ho : Improves L opt) (hN : NoPerfectFit W X y L) {s : StML n R K} {o : Option (StML n R K)}
    (h : MLRun opt W X y eps s o) :
    ∀ s' e', o = some s' → s'.est = some e' → InvML W X y s → (∀ r, s.lam r ∈ L) →
      s'.fun1 ≤ clikSur W s.bigE s.lam ∧ ∀ r, s'.lam r ∈ L := by
  induction h with
  | stop s _ =>
    rintro s' e' hs he hi hl
    obtain rfl := Option.some.inj hs
    obtain ⟨-, h2, -⟩ := hi.est _ he
    exact ⟨h2.le, hl⟩
  | raise s _ _ => rintro s' _ hs; cases hs
  | pass s s1 o _ h1 _ ih =>
    intro s' e' hs he hi hl
    obtain ⟨q1, q2⟩ := step_le ho hN hi hl h1
    obtain ⟨e, -, k1, -, -, -, k5⟩ := mlStep_some h1
    obtain ⟨i1, i2⟩ := ih s' e' hs he (step_inv hi h1) q2
    rw [← k5] at i1
    exact ⟨i1.trans q1, i2⟩

/-- C117: if the optimiser never returns a worse point than the one it starts from, the reported log-likelihood is at least
that of the starting values: the lambdas of the single-equation models, the coefficients of the SUR model without spatial
errors, and any covariance matrix. -/
theorem C117_ascent [Nonempty n] (optS : (ℝ → ℝ) → ℝ) (opt : ((R → ℝ) → ℝ) → (R → ℝ) → R → ℝ) (W : Matrix n n ℝ)
    (X : ∀ r, Matrix n (K r) ℝ) (y : R → n → ℝ) (eps : ℝ) (L : Set ℝ) (hS : ∀ g, optS g ∈ L) (ho : Improves L opt)
    (hN : NoPerfectFit W X y L) (hL : ∀ l ∈ L, IsUnit (1 - l • W).det) (f : FitML n R K)
    (h : BaseSURerrorML optS opt W X y eps (.ok f)) (S : Matrix R R ℝ) (hSp : S.PosDef) :
    normalLL (bigZ X *ᵥ stackB f.bSUR0) (surErrCov W f.lamols S) (bigY y) ≤ f.surerrllik ∧
      (∀ r, f.lam r ∈ L) ∧ ∀ r, f.lamols r = optS (errObjSur W X y r) := by
  obtain ⟨reg0, s, h0, hr, hi, he, hl, -, hb, -, hls, hE, hc, -, -⟩ := fit_cases h
  have hlL : ∀ r, f.lamols r ∈ L := fun r => by rw [hl]; exact hS _
  obtain ⟨h1, h2⟩ := run_le ho hN hr s _ rfl he (init_inv optS W X y 5 _ reg0 h0) (fun r => hS _)
  obtain ⟨e1, e2, -⟩ := hi.est _ he
  refine ⟨?_, by rw [hls]; exact h2, fun r => by rw [hl]⟩
  have h3 := (prof_max W f.lamols X y f.bSUR0 (fun r => hL _ (hlL r)) (hN _ hlL _)).2 S hSp
  refine h3.trans ?_
  unfold FitML.surerrllik
  rw [hc, hls, ← e1, ← e2]
  have e3 : (mlInit optS W X y reg0).bigE = surResids y X f.bSUR0 := by
    obtain ⟨b, s0, s, -, -, -, hes, -, -, -, hE0, -⟩ := base_cases X y true 5 _ reg0 h0
    rw [hb, hes]; exact hE0
  have e4 : (mlInit optS W X y reg0).lam = f.lamols := hl.symm
  rw [e3, e4] at h1
  linarith

/-! ### C118: termination -/

theorem loop_stops {opt : ((R → ℝ) → ℝ) → (R → ℝ) → R → ℝ} {W : Matrix n n ℝ} {X : ∀ r, Matrix n (K r) ℝ} {y : R → n → ℝ}
    {eps : ℝ} {L : Set ℝ} (heps : 0 < eps) (ho : Improves L opt) (hN : NoPerfectFit W X y L) (B : ℝ)
    (hB : ∀ lam : R → ℝ, (∀ r, lam r ∈ L) → ∀ b, B ≤ clikSur W (surResids y X b) lam) (N : ℕ) :
    ∀ s : StML n R K, InvML W X y s → (∀ r, s.lam r ∈ L) → s.est ≠ none → s.fun1 - B < N * eps →
      ∃ o, MLRun opt W X y eps s o := by
  induction N with
  | zero =>
    intro s hi hl he hs
    obtain ⟨e, he⟩ := Option.ne_none_iff_exists'.1 he
    obtain ⟨h1, h2, -⟩ := hi.est e he
    have := hB s.lam hl e.b
    rw [← h1, ← h2] at this
    simp at hs
    linarith
  | succ N ih =>
    intro s hi hl he hs
    by_cases hc : |s.fun0 - s.fun1| > eps
    · rcases hm : mlStep opt W X y s with _ | s'
      · exact ⟨none, .raise s hc hm⟩
      · have hi' := step_inv hi hm
        obtain ⟨e, -, k1, -, -, k4, k5⟩ := mlStep_some hm
        obtain ⟨q1, q2⟩ := step_le ho hN hi hl hm
        obtain ⟨e0, he0⟩ := Option.ne_none_iff_exists'.1 he
        obtain ⟨-, h2, -⟩ := hi.est e0 he0
        rw [← h2] at q1
        by_cases hc' : |s'.fun0 - s'.fun1| > eps
        · have h3 : s'.fun1 - B < N * eps := by
            rw [k4, abs_of_nonneg (by linarith)] at hc'
            push_cast at hs
            linarith
          obtain ⟨o, ho⟩ := ih s' hi' q2 (by rw [k1]; simp) h3
          exact ⟨o, .pass s s' o hc hm ho⟩
        · exact ⟨some s', .pass s s' _ hc hm (.stop s' hc')⟩
    · exact ⟨some s, .stop s hc⟩

/-- C118: if the optimiser never returns a worse point than the one it starts from and the objective is bounded below, the
iterations stop: the constructor returns or raises, and never runs forever. -/
theorem C118_terminates (optS : (ℝ → ℝ) → ℝ) (opt : ((R → ℝ) → ℝ) → (R → ℝ) → R → ℝ) (W : Matrix n n ℝ)
    (X : ∀ r, Matrix n (K r) ℝ) (y : R → n → ℝ) (eps : ℝ) (heps : 0 < eps) (L : Set ℝ) (hS : ∀ g, optS g ∈ L)
    (ho : Improves L opt) (hN : NoPerfectFit W X y L) (B : ℝ)
    (hB : ∀ lam : R → ℝ, (∀ r, lam r ∈ L) → ∀ b, B ≤ clikSur W (surResids y X b) lam) :
    ∃ res, BaseSURerrorML optS opt W X y eps res := by
  unfold BaseSURerrorML
  rcases h0 : baseSUR X y true 5 (1 / 100000) with _ | reg0
  · exact ⟨_, rfl⟩
  · have hi := init_inv optS W X y 5 _ reg0 h0
    have hl : ∀ r, (mlInit optS W X y reg0).lam r ∈ L := fun r => hS _
    set s := mlInit optS W X y reg0
    suffices ∃ o, MLRun opt W X y eps s o by
      obtain ⟨o, h⟩ := this; exact ⟨_, o, h, rfl⟩
    by_cases hc : |s.fun0 - s.fun1| > eps
    · rcases hm : mlStep opt W X y s with _ | s'
      · exact ⟨none, .raise s hc hm⟩
      · obtain ⟨e, -, k1, -⟩ := mlStep_some hm
        obtain ⟨N, hN'⟩ := exists_nat_gt ((s'.fun1 - B) / eps)
        rw [div_lt_iff₀ heps] at hN'
        obtain ⟨o, ho⟩ := loop_stops heps ho hN B hB N s' (step_inv hi hm) (step_le ho hN hi hl hm).2 (by rw [k1]; simp) hN'
        exact ⟨o, .pass s s' o hc hm ho⟩
    · exact ⟨some s, .stop s hc⟩

omit [Fintype R] [DecidableEq n] in
/-- The outcome of the loop is unique. -/
theorem run_unique [Fintype R] [DecidableEq n] {opt : ((R → ℝ) → ℝ) → (R → ℝ) → R → ℝ} {W : Matrix n n ℝ}
    {X : ∀ r, Matrix n (K r) ℝ} {y : R → n → ℝ} {eps : ℝ} {s : StML n R K} {o o' : Option (StML n R K)}
    (h : MLRun opt W X y eps s o) (h' : MLRun opt W X y eps s o') : o = o' := by
  induction h with
  | stop s h =>
    cases h' with
    | stop => rfl
    | raise _ h1 => exact absurd h1 h
    | pass _ _ _ h1 => exact absurd h1 h
  | raise s h hm =>
    cases h' with
    | stop _ h1 => exact absurd h h1
    | raise => rfl
    | pass _ s' _ _ hm' => rw [hm] at hm'; cases hm'
  | pass s s1 o h hm _ ih =>
    cases h' with
    | stop _ h1 => exact absurd h h1
    | raise _ _ hm' => rw [hm] at hm'; cases hm'
    | pass _ s' _ _ hm' hr =>
      rw [hm] at hm'
      obtain rfl := Option.some.inj hm'
      exact ih hr

/-- C118: the same data, options and optimisers always give the same result. -/
theorem C118_deterministic (optS : (ℝ → ℝ) → ℝ) (opt : ((R → ℝ) → ℝ) → (R → ℝ) → R → ℝ) (W : Matrix n n ℝ)
    (X : ∀ r, Matrix n (K r) ℝ) (y : R → n → ℝ) (eps : ℝ) (res res' : Py (FitML n R K))
    (h : BaseSURerrorML optS opt W X y eps res) (h' : BaseSURerrorML optS opt W X y eps res') : res = res' := by
  unfold BaseSURerrorML at h h'
  split at h
  · next h0 => rw [h0] at h'; exact h.trans h'.symm
  · next reg0 h0 =>
    rw [h0] at h'
    obtain ⟨o, h1, rfl⟩ := h
    obtain ⟨o', h1', rfl⟩ := h'
    rw [run_unique h1 h1']

end Spreg.SUR
