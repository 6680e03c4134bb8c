import Verif.Props.SURUnits
/-
C121: units of measurement in SURerrorML.
-/
namespace Spreg.SUR
open Matrix Spreg.Lin Spreg.Gauss

variable {n R : Type} [Fintype n] [Fintype R] [DecidableEq R] [DecidableEq n] {K : R → Type} [∀ r, Fintype (K r)]
  [∀ r, DecidableEq (K r)]

/-- What is assumed of the optimisers here: values searched lie in `L`, and the result does not depend on a constant added to
the objective. -/
structure Shift (L : Set ℝ) (optS : (ℝ → ℝ) → ℝ) (opt : ((R → ℝ) → ℝ) → (R → ℝ) → R → ℝ) : Prop where
  memS : ∀ g : ℝ → ℝ, optS g ∈ L
  mem : ∀ (g : (R → ℝ) → ℝ) (l : R → ℝ), (∀ r, l r ∈ L) → ∀ r, opt g l r ∈ L
  shiftS : ∀ (g h : ℝ → ℝ) (k : ℝ), (∀ l ∈ L, h l = g l + k) → optS h = optS g
  shift : ∀ (g h : (R → ℝ) → ℝ) (k : ℝ) (l : R → ℝ), (∀ m : R → ℝ, (∀ r, m r ∈ L) → h m = g m + k) → opt h l = opt g l

omit [Fintype R] [DecidableEq R] [DecidableEq n] in
theorem filtY_sc (c : R → ℝ) (W : Matrix n n ℝ) (lam : R → ℝ) (y : R → n → ℝ) :
    filtY W lam (scY c y) = scY c (filtY W lam y) := by
  funext r i
  simp only [filtY, scY_eq, mulVec_smul, Pi.sub_apply, Pi.smul_apply, smul_eq_mul]
  ring

omit [Fintype R] [DecidableEq R] [DecidableEq n] in
theorem filtE_sc (c : R → ℝ) (W : Matrix n n ℝ) (lam : R → ℝ) (E : Matrix n R ℝ) :
    filtE W lam (scE c E) = scE c (filtE W lam E) := by
  ext i r
  have : (W * scE c E) i r = c r * (W * E) i r := by
    simp only [Matrix.mul_apply, scE, Matrix.of_apply, Finset.mul_sum]
    exact Finset.sum_congr rfl fun j _ => by ring
  have h1 : filtE W lam (scE c E) i r = scE c E i r - (W * scE c E) i r * lam r := rfl
  have h2 : scE c (filtE W lam E) i r = c r * (E i r - (W * E) i r * lam r) := rfl
  have h3 : scE c E i r = c r * E i r := rfl
  rw [h1, h2, this, h3]
  ring

theorem clik_sc (c : R → ℝ) (hc : ∀ r, c r ≠ 0) (W : Matrix n n ℝ) (E : Matrix n R ℝ) (lam : R → ℝ)
    (h : IsUnit (sigOf (filtE W lam E)).det) :
    clikSur W (scE c E) lam = clikSur W E lam + (Fintype.card n : ℝ) / 2 * shiftDet c := by
  unfold clikSur
  dsimp only
  rw [filtE_sc, sigOf_scE, slogdet_rescale c hc _ h.ne_zero]
  ring

theorem errObj_sc [Nonempty n] (c : R → ℝ) (hc : ∀ r, c r ≠ 0) (W : Matrix n n ℝ) (X : ∀ r, Matrix n (K r) ℝ) (y : R → n → ℝ)
    (L : Set ℝ) (hN : NoPerfectFit W X y L) (r : R) (l : ℝ) (hl : l ∈ L) :
    errObjSur W X (scY c y) r l = errObjSur W X y r l + (Fintype.card n : ℝ) * Real.log |c r| := by
  have hn : (Fintype.card n : ℝ) ≠ 0 := Nat.cast_ne_zero.2 Fintype.card_ne_zero
  have e1 := errObjSur_eq W (fun _ => l) X y r
  have e2 := errObjSur_eq W (fun _ => l) X (scY c y) r
  rw [e1, e2]
  have hu : (filtOls W (fun _ => l) X (scY c y) r).u = c r • (filtOls W (fun _ => l) X y r).u := by
    unfold filtOls olsWith
    dsimp only
    rw [filtY_sc, scY_eq]
    simp only [mulVec_smul, smul_sub]
  have hp : utu (filtOls W (fun _ => l) X y r).u ≠ 0 := by
    intro h0
    have hz := (utu_eq_zero _).1 h0
    have hpd := sig_posDef _ (hN (fun _ => l) (fun _ => hl) fun r => (filtOls W (fun _ => l) X y r).betas)
    have := hpd.diag_pos (i := r)
    have hE : ∀ i, filtE W (fun _ => l) (surResids y X fun r => (filtOls W (fun _ => l) X y r).betas) i r = 0 := by
      intro i
      rw [← filt_resid]
      exact congrFun hz i
    simp [sigOf, Matrix.mul_apply, hE] at this
  have hs : utu (c r • (filtOls W (fun _ => l) X y r).u) = c r * utu (filtOls W (fun _ => l) X y r).u * c r := by
    rw [utu_eq_dot, utu_eq_dot, smul_dotProduct, dotProduct_smul, smul_eq_mul, smul_eq_mul]; ring
  rw [hu, hs, mul_div_right_comm, mul_div_assoc, log_sq_mul _ _ (hc r) (div_ne_zero hp hn)]
  ring

/-- State of the loop in other units. -/
noncomputable def scML (c : R → ℝ) (s : StML n R K) : StML n R K :=
  { lam := s.lam, est := s.est.map (scEst c), bigE := scE c s.bigE, fun0 := s.fun0 + (Fintype.card n : ℝ) / 2 * shiftDet c,
    fun1 := s.fun1 + (Fintype.card n : ℝ) / 2 * shiftDet c }

variable {W : Matrix n n ℝ} {X : ∀ r, Matrix n (K r) ℝ} {y : R → n → ℝ} {L : Set ℝ} {optS : (ℝ → ℝ) → ℝ}
  {opt : ((R → ℝ) → ℝ) → (R → ℝ) → R → ℝ} {eps : ℝ}

theorem mlStep_sc (ho : Shift L optS opt) (hN : NoPerfectFit W X y L) (c : R → ℝ) (hc : ∀ r, c r ≠ 0) (s s' : StML n R K)
    (hl : ∀ r, s.lam r ∈ L) (h1 : s'.lam = s.lam) (h2 : s'.bigE = scE c s.bigE)
    (h3 : s'.fun1 = s.fun1 + (Fintype.card n : ℝ) / 2 * shiftDet c) :
    mlStep opt W X (scY c y) s' = (mlStep opt W X y s).map (scML c) := by
  unfold mlStep
  dsimp only
  rw [h1, h2, h3, filtY_sc, filtE_sc, surEst_sc c hc]
  rcases surEst (crossXX (filtX W s.lam X)) (crossXy (filtX W s.lam X) (filtY W s.lam y)) (filtE W s.lam s.bigE) with _ | e
  · rw [Option.map_none, Option.map_none, Option.map_none, Option.map_none]
  rw [Option.map_some, Option.map_some, Option.map_some, Option.map_some]
  have hE : surResids (scY c y) X (scEst c e).b = scE c (surResids y X e.b) := resids_sc c X y e.b
  rw [hE]
  have ho' : opt (clikSur W (scE c (surResids y X e.b))) s.lam = opt (clikSur W (surResids y X e.b)) s.lam :=
    ho.shift _ _ _ _ fun m hm => clik_sc c hc W _ m (hN m hm _)
  rw [ho', clik_sc c hc W _ _ (hN _ (ho.mem _ _ hl) _)]
  rfl

omit [Fintype R] [DecidableEq R] [DecidableEq n] [∀ r, DecidableEq (K r)] [∀ r, Fintype (K r)] in
theorem scML_crit [Fintype R] (c : R → ℝ) (s : StML n R K) : (scML c s).fun0 - (scML c s).fun1 = s.fun0 - s.fun1 := by
  simp only [scML]; ring

theorem run_sc (ho : Shift L optS opt) (hN : NoPerfectFit W X y L) (c : R → ℝ) (hc : ∀ r, c r ≠ 0) {s : StML n R K}
    {o : Option (StML n R K)} (h : MLRun opt W X y eps s o) :
    (∀ r, s.lam r ∈ L) → MLRun opt W X (scY c y) eps (scML c s) (o.map (scML c)) := by
  induction h with
  | stop s hs => intro _; exact .stop _ (by rwa [scML_crit])
  | raise s hs hm =>
    intro hl
    refine .raise _ (by rwa [scML_crit]) ?_
    rw [mlStep_sc ho hN c hc s (scML c s) hl rfl rfl rfl, hm]; rfl
  | pass s s1 o hs hm _ ih =>
    intro hl
    refine .pass _ (scML c s1) _ (by rwa [scML_crit]) ?_ (ih ?_)
    · rw [mlStep_sc ho hN c hc s (scML c s) hl rfl rfl rfl, hm]; rfl
    · obtain ⟨e, -, -, -, h3, -⟩ := mlStep_some hm
      rw [h3]
      exact ho.mem _ _ hl

theorem init_sc [Nonempty n] (ho : Shift L optS opt) (hN : NoPerfectFit W X y L) (c : R → ℝ) (hc : ∀ r, c r ≠ 0)
    (reg0 : Fit n R K) :
    (mlInit optS W X (scY c y) (scFit c reg0)).lam = (mlInit optS W X y reg0).lam ∧
    (mlInit optS W X (scY c y) (scFit c reg0)).fun1 = (mlInit optS W X y reg0).fun1 + (Fintype.card n : ℝ) / 2 * shiftDet c := by
  have h1 : ∀ r, optS (errObjSur W X (scY c y) r) = optS (errObjSur W X y r) := fun r =>
    ho.shiftS _ _ _ fun l hl => errObj_sc c hc W X y L hN r l hl
  refine ⟨funext h1, ?_⟩
  simp only [mlInit, h1]
  have h2 : ∀ r, errObjSur W X (scY c y) r (optS (errObjSur W X y r)) = errObjSur W X y r (optS (errObjSur W X y r)) +
      (Fintype.card n : ℝ) * Real.log |c r| := fun r => errObj_sc c hc W X y L hN r _ (ho.memS _)
  simp only [h2]
  rw [Finset.sum_add_distrib, shiftDet, ← Finset.mul_sum]
  ring

/-- C121, proved part: if SURerrorML fits the data, it also fits them in other units (equation `r` multiplied by `c r`),
provided that the sum of the single-equation concentrated log-likelihoods in the new units exceeds `eps` in absolute value;
the autoregressive parameters and both tests are the same, coefficients and residuals are multiplied by `c r`, the
log-likelihood is shifted by `-n Σ log |c r|`. Missing: the proviso, without which it is false (`C121_units_violated`). -/
theorem C121_units_partial [Nonempty n] (ho : Shift L optS opt) (hN : NoPerfectFit W X y L) (c : R → ℝ) (hc : ∀ r, c r ≠ 0)
    (f : FitML n R K) (h : BaseSURerrorML optS opt W X y eps (.ok f))
    (hp : |f.clikerr - Fintype.card n * ∑ r, Real.log (|c r|)| > eps) :
    ∃ g, BaseSURerrorML optS opt W X (fun r i => c r * y r i) eps (.ok g) ∧ g.lam = f.lam ∧ g.lamols = f.lamols ∧
      (∀ r j, g.est.b r j = c r * f.est.b r j) ∧ (∀ i r, g.bigE i r = c r * f.bigE i r) ∧
      (∀ p q, g.est.varb p q = c p.1 * c q.1 * f.est.varb p q) ∧
      g.surerrllik = f.surerrllik - Fintype.card n * ∑ r, Real.log |c r| ∧
      g.lrtest = f.lrtest ∧ g.likrlambda = f.likrlambda := by
  unfold BaseSURerrorML at h
  split at h
  · cases h
  next reg0 h0 =>
  obtain ⟨o, hr, hf⟩ := h
  have hb : baseSUR X (scY c y) true 5 (1 / 100000) = some (scFit c reg0) := by rw [base_sc c hc, h0]; rfl
  obtain ⟨i1, i2⟩ := init_sc (X := X) (K := K) ho hN c hc reg0
  have hl : ∀ r, (mlInit optS W X y reg0).lam r ∈ L := fun r => ho.memS _
  unfold mlFinish at hf
  rcases o with _ | s
  · cases hf
  simp only at hf
  rcases he : s.est with _ | e
  · rw [he] at hf; cases hf
  rw [he] at hf
  simp only [Except.ok.injEq] at hf
  have hrun : MLRun opt W X (scY c y) eps (mlInit optS W X (scY c y) (scFit c reg0)) (some (scML c s)) := by
    cases hr with
    | stop _ _ => cases he
    | pass _ s1 _ hs hm hrest =>
      have hcl : f.clikerr = -(mlInit optS W X y reg0).fun1 := by rw [hf]
      refine .pass _ (scML c s1) _ ?_ ?_ (run_sc ho hN c hc hrest ?_)
      · rw [i2]
        have : (mlInit optS W X (scY c y) (scFit c reg0)).fun0 = 0 := rfl
        rw [this, zero_sub, neg_add]
        rw [hcl] at hp
        have e : -(mlInit optS W X y reg0).fun1 + -((Fintype.card n : ℝ) / 2 * shiftDet c) =
          -(mlInit optS W X y reg0).fun1 - (Fintype.card n : ℝ) * ∑ r, Real.log |c r| := by
          rw [shiftDet]; ring
        rwa [e]
      · rw [mlStep_sc ho hN c hc _ _ hl i1 rfl i2, hm]; rfl
      · obtain ⟨e, -, -, -, h3, -⟩ := mlStep_some hm
        rw [h3]
        exact ho.mem _ _ hl
  have hfin : mlFinish (mlInit optS W X (scY c y) (scFit c reg0)) (scFit c reg0) (some (scML c s)) =
      .ok { lamols := f.lamols, clikerr := f.clikerr - (Fintype.card n : ℝ) / 2 * shiftDet c, bSUR0 := scB c f.bSUR0,
            llik := f.llik - (Fintype.card n : ℝ) / 2 * shiftDet c, lam := f.lam, est := scEst c f.est,
            corr := surCorr (scEst c f.est).sig, bigE := scE c f.bigE,
            cliksurerr := f.cliksurerr - (Fintype.card n : ℝ) / 2 * shiftDet c } := by
    have hs : (scML c s).est = some (scEst c e) := by simp only [scML, he, Option.map_some]
    unfold mlFinish
    simp only [hs]
    refine congrArg Except.ok ?_
    rw [hf, FitML.mk.injEq]
    refine ⟨i1, ?_, rfl, rfl, rfl, rfl, rfl, rfl, ?_⟩
    · rw [i2]; ring
    · simp only [scML]; ring
  have hB : ∀ res, mlFinish (mlInit optS W X (scY c y) (scFit c reg0)) (scFit c reg0) (some (scML c s)) = res →
      BaseSURerrorML optS opt W X (scY c y) eps res := by
    rintro res rfl
    unfold BaseSURerrorML
    rw [hb]
    exact ⟨_, hrun, rfl⟩
  refine ⟨_, hB _ hfin, rfl, rfl, fun r j => rfl, fun i r => rfl, ?_, ?_, ?_, ?_⟩
  · intro p q; simp only [scEst, Matrix.of_apply]; ring
  · simp only [FitML.surerrllik, shiftDet]; ring
  · simp only [FitML.lrtest, FitML.surerrllik, FitML.errllik]
    congr 1; ring
  · simp only [FitML.likrlambda, FitML.surerrllik]
    congr 1; ring

/-- C121, the defect: whatever the data SURerrorML can be used on, there is a unit of measurement of the dependent variables in
which it fails with UnboundLocalError and nothing else: the loop is entered only if the sum of the single-equation concentrated
log-likelihoods exceeds `eps` in absolute value, since it is compared with the initial value 0 of `fun0`. -/
theorem C121_units_violated [Nonempty n] [Nonempty R] (ho : Shift L optS opt) (hN : NoPerfectFit W X y L) (heps : 0 ≤ eps)
    (hfit : baseSUR X y true 5 (1 / 100000) ≠ none) :
    ∃ c : ℝ, 0 < c ∧ ∀ res, BaseSURerrorML optS opt W X (fun r i => c * y r i) eps res ↔ res = .error .unboundLocal := by
  obtain ⟨reg0, h0⟩ := Option.ne_none_iff_exists'.1 hfit
  have hn : (Fintype.card n : ℝ) ≠ 0 := Nat.cast_ne_zero.2 Fintype.card_ne_zero
  have hR : (Fintype.card R : ℝ) ≠ 0 := Nat.cast_ne_zero.2 Fintype.card_ne_zero
  set F := (mlInit optS W X y reg0).fun1 with hF
  set c0 := Real.exp (-F / ((Fintype.card n : ℝ) * Fintype.card R)) with hc0
  have hcp : 0 < c0 := Real.exp_pos _
  refine ⟨c0, hcp, ?_⟩
  have hc : ∀ _ : R, c0 ≠ 0 := fun _ => hcp.ne'
  have hb : baseSUR X (scY (fun _ => c0) y) true 5 (1 / 100000) = some (scFit (fun _ => c0) reg0) := by
    rw [base_sc _ hc, h0]; rfl
  obtain ⟨i1, i2⟩ := init_sc (X := X) (K := K) ho hN (fun _ => c0) hc reg0
  have hz : (mlInit optS W X (scY (fun _ => c0) y) (scFit (fun _ => c0) reg0)).fun1 = 0 := by
    rw [i2, ← hF, shiftDet, Finset.sum_const, Finset.card_univ, abs_of_pos hcp, hc0, Real.log_exp, nsmul_eq_mul]
    field_simp
    ring
  intro res
  change BaseSURerrorML optS opt W X (scY (fun _ => c0) y) eps res ↔ _
  unfold BaseSURerrorML
  rw [hb]
  set s := mlInit optS W X (scY (fun _ => c0) y) (scFit (fun _ => c0) reg0) with hs
  have hst : ¬|s.fun0 - s.fun1| > eps := by
    have : s.fun0 = 0 := rfl
    rw [this, hz]
    simpa using heps
  have hfin : mlFinish s (scFit (fun _ => c0) reg0) (some s) = .error .unboundLocal := rfl
  constructor
  · rintro ⟨o, hr, rfl⟩
    have := run_unique hr (.stop s hst)
    rw [this, hfin]
  · rintro rfl
    exact ⟨_, .stop s hst, hfin.symm⟩

end Spreg.SUR
