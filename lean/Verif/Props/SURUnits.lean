import Verif.Props.SURSpatial3
import Verif.Props.SUR3
/-
C120, C121: units of measurement in SUR models. C121: units of measurement in SURerrorML.
-/
namespace Spreg.SUR
open Matrix Spreg.Lin Spreg.Gauss

variable {n R : Type} [Fintype n] [Fintype R] [DecidableEq R] {K : R → Type} [∀ r, Fintype (K r)]

/-- Dependent variables after the unit of equation `r` is multiplied by `c r`. -/
def scY (c : R → ℝ) (y : R → n → ℝ) : R → n → ℝ := fun r i => c r * y r i

/-- Residuals. -/
def scE (c : R → ℝ) (E : Matrix n R ℝ) : Matrix n R ℝ := Matrix.of fun i r => c r * E i r

/-- Coefficients. -/
def scB (c : R → ℝ) (b : ∀ r, K r → ℝ) : ∀ r, K r → ℝ := fun r j => c r * b r j

/-- Estimates: the covariance of coefficients of equations `r` and `t` is multiplied by `c r * c t`. -/
def scEst (c : R → ℝ) (e : Est R K) : Est R K :=
  { b := scB c e.b, varb := Matrix.of fun p q => c p.1 * e.varb p q * c q.1, sig := rescale c e.sig }

theorem scY_eq (c : R → ℝ) (y : R → n → ℝ) (r : R) : scY c y r = c r • y r := rfl

theorem sigOf_scE (c : R → ℝ) (E : Matrix n R ℝ) : sigOf (scE c E) = rescale c (sigOf E) := by
  ext r t
  simp only [sigOf, scE, rescale, Matrix.smul_apply, Matrix.mul_apply, transpose_apply, Matrix.of_apply, smul_eq_mul,
    Finset.mul_sum, Finset.sum_mul]
  exact Finset.sum_congr rfl fun i _ => by ring

theorem resids_sc (c : R → ℝ) (X : ∀ r, Matrix n (K r) ℝ) (y : R → n → ℝ) (b : ∀ r, K r → ℝ) :
    surResids (scY c y) X (scB c b) = scE c (surResids y X b) := by
  ext i r
  have : (X r *ᵥ scB c b r) i = c r * (X r *ᵥ b r) i := by
    have : scB c b r = c r • b r := rfl
    rw [this, mulVec_smul]; rfl
  simp only [surResids, scE, Matrix.of_apply, this, scY]
  ring

section
variable [∀ r, DecidableEq (K r)]

theorem surEst_sc (c : R → ℝ) (hc : ∀ r, c r ≠ 0) (X : ∀ r, Matrix n (K r) ℝ) (y : R → n → ℝ) (E : Matrix n R ℝ) :
    surEst (crossXX X) (crossXy X (scY c y)) (scE c E) = (surEst (crossXX X) (crossXy X y) E).map (scEst c) := by
  unfold surEst
  dsimp only
  rw [sigOf_scE, inv_rescale c hc]
  rcases inv? (sigOf E) with _ | S
  · rw [Option.map_none, Option.bind_none, Option.bind_none, Option.map_none]
  rw [Option.map_some, Option.bind_some, Option.bind_some]
  have hx : (Matrix.of fun p q : Stk K => (Matrix.of fun i j => crossXX X p.1 q.1 i j *
        rescale (fun r => (c r)⁻¹) S p.1 q.1 : Matrix (K p.1) (K q.1) ℝ) p.2 q.2 : Matrix (Stk K) (Stk K) ℝ) =
      rescale (fun p : Stk K => (c p.1)⁻¹) (Matrix.of fun p q : Stk K => (Matrix.of fun i j => crossXX X p.1 q.1 i j *
        S p.1 q.1 : Matrix (K p.1) (K q.1) ℝ) p.2 q.2) := by
    ext p q
    simp only [rescale, Matrix.of_apply]
    ring
  rw [hx, inv_rescale (fun p : Stk K => (c p.1)⁻¹) (fun p => inv_ne_zero (hc p.1))]
  rcases inv? (Matrix.of fun p q : Stk K => (Matrix.of fun i j => crossXX X p.1 q.1 i j *
        S p.1 q.1 : Matrix (K p.1) (K q.1) ℝ) p.2 q.2) with _ | V
  · rw [Option.map_none, Option.map_none, Option.map_none, Option.map_none]
  rw [Option.map_some, Option.map_some, Option.map_some, Option.map_some]
  congr 1
  unfold scEst
  congr 1
  · funext r j
    simp only [scB, mulVec, dotProduct, rescale, Matrix.of_apply, inv_inv, Finset.mul_sum]
    refine Finset.sum_congr rfl fun q _ => ?_
    refine Finset.sum_congr rfl fun t _ => ?_
    have : crossXy X (scY c y) q.1 t q.2 = c t * crossXy X y q.1 t q.2 := by
      unfold crossXy
      rw [scY_eq, mulVec_smul]; rfl
    rw [this]
    have h1 := hc q.1
    have h2 := hc t
    field_simp
  · ext p q
    simp only [rescale, Matrix.of_apply, inv_inv]

theorem eqByEq_sc (c : R → ℝ) (X : ∀ r, Matrix n (K r) ℝ) (y : R → n → ℝ) :
    eqByEq (crossXX X) (crossXy X (scY c y)) = (eqByEq (crossXX X) (crossXy X y)).map (scB c) := by
  unfold eqByEq
  split
  · rw [Option.map_some]
    congr 1
    funext r j
    have : crossXy X (scY c y) r r = c r • crossXy X y r r := by
      unfold crossXy
      rw [scY_eq, mulVec_smul]
    rw [this, mulVec_smul]; rfl
  · rfl

/-- Shift of the logarithm of the determinant. -/
noncomputable def shiftDet (c : R → ℝ) : ℝ := 2 * ∑ r, Real.log |c r|

theorem log_sq_mul (a s : ℝ) (ha : a ≠ 0) (hs : s ≠ 0) : Real.log (a * s * a) = Real.log s + 2 * Real.log |a| := by
  rw [Real.log_mul (mul_ne_zero ha hs) ha, Real.log_mul ha hs, Real.log_abs]; ring

theorem slogdet_rescale (c : R → ℝ) (hc : ∀ r, c r ≠ 0) (S : Matrix R R ℝ) (hS : S.det ≠ 0) :
    slogdet (rescale c S) = slogdet S + shiftDet c := by
  unfold slogdet shiftDet
  have hp : (∏ r, c r) ≠ 0 := Finset.prod_ne_zero_iff.2 fun r _ => hc r
  simp only [Real.log_abs]
  rw [rescale_eq, det_mul, det_mul, det_diagonal, log_sq_mul _ _ hp hS, Real.log_abs, Real.log_prod fun r _ => hc r]

variable [DecidableEq n]

/-- State of the iterations. -/
noncomputable def scSt (c : R → ℝ) (s : St n R K) : St n R K :=
  { est := scEst c s.est, resids := scE c s.resids, det0 := s.det0 + shiftDet c, det1 := s.det1 + shiftDet c, niter := s.niter }

theorem start_sc (c : R → ℝ) (hc : ∀ r, c r ≠ 0) (X : ∀ r, Matrix n (K r) ℝ) (y : R → n → ℝ) :
    surStart X (scY c y) = (surStart X y).map fun p => (scB c p.1, scSt c p.2) := by
  unfold surStart
  rw [eqByEq_sc]
  rcases eqByEq (crossXX X) (crossXy X y) with _ | b
  · rw [Option.map_none, Option.bind_none, Option.bind_none, Option.map_none]
  rw [Option.map_some, Option.bind_some, Option.bind_some, resids_sc, surEst_sc c hc]
  rcases he : surEst (crossXX X) (crossXy X y) (surResids y X b) with _ | e
  · rw [Option.map_none, Option.map_none, Option.map_none, Option.map_none]
  rw [Option.map_some, Option.map_some, Option.map_some, Option.map_some]
  have hp := (slogdet_est _ _ _ _ he).2
  refine congrArg some (Prod.ext rfl ?_)
  dsimp only [scSt]
  rw [St.mk.injEq]
  refine ⟨rfl, resids_sc c X y e.b, ?_, ?_, rfl⟩
  · have : ∀ r, Real.log ((scEst c e).sig r r) = Real.log (e.sig r r) + 2 * Real.log |c r| := fun r =>
      log_sq_mul _ _ (hc r) (hp.diag_pos (i := r)).ne'
    simp only [this]
    rw [Finset.sum_add_distrib, shiftDet, Finset.mul_sum]
  · exact slogdet_rescale c hc _ hp.det_pos.ne'

theorem loop_sc (c : R → ℝ) (hc : ∀ r, c r ≠ 0) (X : ∀ r, Matrix n (K r) ℝ) (y : R → n → ℝ) (eps : ℝ) (m : ℕ)
    (s : St n R K) : surLoop X (scY c y) eps m (scSt c s) = (surLoop X y eps m s).map (scSt c) := by
  induction hm : m + 1 - s.niter using Nat.strong_induction_on generalizing s with
  | _ k ih =>
    rw [surLoop, surLoop]
    have h1 : (scSt c s).det1 - (scSt c s).det0 = s.det1 - s.det0 := by simp only [scSt]; ring
    have h2 : (scSt c s).niter = s.niter := rfl
    rw [h1, h2]
    split
    · next hcnd =>
      have h3 : (scSt c s).resids = scE c s.resids := rfl
      rw [h3, surEst_sc c hc]
      rcases he : surEst (crossXX X) (crossXy X y) s.resids with _ | e
      · rw [Option.map_none, Option.bind_none, Option.bind_none, Option.map_none]
      rw [Option.map_some, Option.bind_some, Option.bind_some]
      have hp := (slogdet_est _ _ _ _ he).2
      rw [← ih (m + 1 - (s.niter + 1)) (by omega) _ rfl]
      refine congrArg (surLoop X (scY c y) eps m) ?_
      dsimp only [scSt]
      rw [St.mk.injEq]
      exact ⟨rfl, resids_sc c X y e.b, rfl, slogdet_rescale c hc _ hp.det_pos.ne', rfl⟩
    · rfl

/-- Results of `BaseSUR`. -/
noncomputable def scFit (c : R → ℝ) (f : Fit n R K) : Fit n R K :=
  { est := scEst c f.est, bOLS := scB c f.bOLS, sigOLS := rescale c f.sigOLS, bigE := scE c f.bigE, bigYP := scE c f.bigYP,
    ldetS0 := f.ldetS0 + shiftDet c, ldetS1 := f.ldetS1 + shiftDet c, niter := f.niter,
    llik := f.llik - (Fintype.card n : ℝ) / 2 * shiftDet c }

theorem predict_sc (c : R → ℝ) (X : ∀ r, Matrix n (K r) ℝ) (b : ∀ r, K r → ℝ) :
    surPredict X (scB c b) = scE c (surPredict X b) := by
  ext i r
  have : scB c b r = c r • b r := rfl
  simp only [surPredict, scE, Matrix.of_apply, this, mulVec_smul]; rfl

theorem base_sc (c : R → ℝ) (hc : ∀ r, c r ≠ 0) (X : ∀ r, Matrix n (K r) ℝ) (y : R → n → ℝ) (iter : Bool) (m : ℕ) (eps : ℝ) :
    baseSUR X (scY c y) iter m eps = (baseSUR X y iter m eps).map (scFit c) := by
  unfold baseSUR
  rw [start_sc c hc]
  rcases surStart X y with _ | ⟨b, s0⟩
  · rw [Option.map_none, Option.bind_none, Option.bind_none, Option.map_none]
  rw [Option.map_some, Option.bind_some, Option.bind_some]
  dsimp only
  cases iter with
  | true =>
    simp only [if_true]
    rw [loop_sc c hc, Option.map_map, Option.map_map]
    rcases surLoop X y eps m s0 with _ | s
    · rw [Option.map_none, Option.map_none]
    rw [Option.map_some, Option.map_some]
    refine congrArg some ?_
    simp only [Function.comp, scFit, scSt]
    rw [Fit.mk.injEq]
    exact ⟨rfl, rfl, rfl, resids_sc c X y s.est.b, predict_sc c X s.est.b, rfl, rfl, rfl, by ring⟩
  | false =>
    simp only [Bool.false_eq_true, if_false, Option.map_some]
    refine congrArg some ?_
    simp only [scFit, scSt]
    rw [Fit.mk.injEq]
    exact ⟨rfl, rfl, rfl, rfl, predict_sc c X s0.est.b, rfl, rfl, rfl, by ring⟩

/-- C120: when the dependent variables are measured in other units (equation `r` multiplied by `c r`), SUR fails or succeeds
as before, takes the same number of iterations, coefficients and residuals are multiplied by `c r`, covariances by
`c r * c t`, the log-likelihood is shifted by the Jacobian `-n Σ log |c r|`; the LR and Breusch-Pagan tests of a diagonal
covariance matrix, the correlations (up to the signs of `c`) and the squared t statistics are the same. -/
theorem C120_units (c : R → ℝ) (hc : ∀ r, c r ≠ 0) (X : ∀ r, Matrix n (K r) ℝ) (y : R → n → ℝ) (iter : Bool) (m : ℕ) (eps : ℝ) :
    (baseSUR X y iter m eps = none ↔ baseSUR X (fun r i => c r * y r i) iter m eps = none) ∧
    ∀ f, baseSUR X y iter m eps = some f → ∃ g, baseSUR X (fun r i => c r * y r i) iter m eps = some g ∧
      g.niter = f.niter ∧ (∀ r j, g.est.b r j = c r * f.est.b r j) ∧ (∀ i r, g.bigE i r = c r * f.bigE i r) ∧
      (∀ r t, g.est.sig r t = c r * c t * f.est.sig r t) ∧ (∀ p q, g.est.varb p q = c p.1 * c q.1 * f.est.varb p q) ∧
      g.llik = f.llik - Fintype.card n * ∑ r, Real.log |c r| ∧
      (∀ nobs neq, lrtest nobs neq g.ldetS0 g.ldetS1 = lrtest nobs neq f.ldetS0 f.ldetS1) ∧
      (∀ nobs, lmtest nobs g.sigOLS = lmtest nobs f.sigOLS) ∧
      (∀ r j, g.est.b r j ^ 2 / g.est.varb ⟨r, j⟩ ⟨r, j⟩ = f.est.b r j ^ 2 / f.est.varb ⟨r, j⟩ ⟨r, j⟩) := by
  have hb := base_sc c hc X y iter m eps
  refine ⟨?_, fun f hf => ⟨scFit c f, ?_, rfl, fun _ _ => rfl, fun _ _ => rfl, ?_, ?_, ?_, ?_, ?_, ?_⟩⟩
  · change _ ↔ baseSUR X (scY c y) iter m eps = none
    rw [hb, Option.map_eq_none_iff]
  · change baseSUR X (scY c y) iter m eps = _
    rw [hb, hf]; rfl
  · intro r t; simp only [scFit, scEst, rescale, Matrix.of_apply]; ring
  · intro p q; simp only [scFit, scEst, Matrix.of_apply]; ring
  · simp only [scFit, shiftDet]; ring
  · intro a b; simp only [lrtest, scFit]; congr 1; ring
  · intro a
    simp only [lmtest, scFit]
    have key : ∀ r t, (surCorr (rescale c f.sigOLS) r t) ^ 2 = (surCorr f.sigOLS r t) ^ 2 := by
      intro r t
      have hs : ∀ a s : ℝ, Real.sqrt (a * s * a) = |a| * Real.sqrt s := by
        intro a s
        have : a * s * a = a ^ 2 * s := by ring
        rw [this, Real.sqrt_mul (sq_nonneg a), Real.sqrt_sq_eq_abs]
      simp only [surCorr, rescale, Matrix.of_apply, hs]
      rw [div_pow, div_pow]
      have e1 : (c r * f.sigOLS r t * c t) ^ 2 = (c r * c t) ^ 2 * f.sigOLS r t ^ 2 := by ring
      have e2 : (|c r| * √(f.sigOLS r r) * (|c t| * √(f.sigOLS t t))) ^ 2 =
          (c r * c t) ^ 2 * (√(f.sigOLS r r) * √(f.sigOLS t t)) ^ 2 := by
        rw [mul_pow, mul_pow, mul_pow, sq_abs, sq_abs]; ring
      rw [e1, e2, mul_div_mul_left _ _ (pow_ne_zero 2 (mul_ne_zero (hc r) (hc t)))]
    have tr : ∀ S : Matrix R R ℝ, ((surCorr S)ᵀ * surCorr S).trace = ∑ r, ∑ t, (surCorr S t r) ^ 2 := by
      intro S
      simp only [Matrix.trace, diag_apply, Matrix.mul_apply, transpose_apply]
      exact Finset.sum_congr rfl fun r _ => Finset.sum_congr rfl fun t _ => by ring
    rw [tr, tr]
    simp only [key]
  · intro r j
    simp only [scFit, scEst, scB, Matrix.of_apply]
    have h1 := hc r
    by_cases h : f.est.varb ⟨r, j⟩ ⟨r, j⟩ = 0
    · simp [h]
    · field_simp
end

end Spreg.SUR
