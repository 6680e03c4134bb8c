import Verif.Model.SURSpatial
import Verif.Spec.Gauss
import Verif.Props.SUR2
import Verif.Props.GM
import Mathlib.Data.Matrix.Block
/-
C114, C115, C116: SUR with spatial errors: moments, generalised least squares, likelihood.
-/
namespace Spreg.SUR
open Matrix Spreg.Lin Spreg.Gauss
open scoped Kronecker

variable {n R : Type} [Fintype n] [Fintype R] [DecidableEq R] [DecidableEq n] {K : R → Type} [∀ r, Fintype (K r)]
  [∀ r, DecidableEq (K r)]

/-! ### Block diagonal matrices -/

/-- Block diagonal matrix over equations. -/
def bd (A : R → Matrix n n ℝ) : Matrix (R × n) (R × n) ℝ := Matrix.of fun a b => if a.1 = b.1 then A a.1 a.2 b.2 else 0

omit [Fintype n] [Fintype R] [DecidableEq n] in
theorem bd_eq (A : R → Matrix n n ℝ) : bd A = (blockDiagonal A).submatrix (Equiv.prodComm R n) (Equiv.prodComm R n) := by
  ext a b
  simp only [bd, of_apply, submatrix_apply, Equiv.prodComm_apply, blockDiagonal_apply, Prod.fst_swap, Prod.snd_swap]

theorem bd_det (A : R → Matrix n n ℝ) : (bd A).det = ∏ r, (A r).det := by
  rw [bd_eq, det_submatrix_equiv_self, det_blockDiagonal]

omit [DecidableEq n] in
theorem bd_mul (A B : R → Matrix n n ℝ) : bd A * bd B = bd fun r => A r * B r := by
  rw [bd_eq, bd_eq, bd_eq, submatrix_mul_equiv]
  congr 1
  exact (blockDiagonal_mul A B).symm

omit [Fintype n] [Fintype R] in
theorem bd_one : bd (fun _ : R => (1 : Matrix n n ℝ)) = 1 := by
  rw [bd_eq]
  have : blockDiagonal (fun _ : R => (1 : Matrix n n ℝ)) = 1 := blockDiagonal_one
  rw [this, submatrix_one_equiv]

omit [Fintype n] [Fintype R] [DecidableEq n] in
theorem bd_transpose (A : R → Matrix n n ℝ) : (bd A)ᵀ = bd fun r => (A r)ᵀ := by
  ext a b
  simp only [bd, transpose_apply, of_apply]
  by_cases h : a.1 = b.1
  · rw [if_pos h, if_pos h.symm, h]
  · rw [if_neg h, if_neg (Ne.symm h)]

omit [DecidableEq n] in
theorem bd_mulVec (A : R → Matrix n n ℝ) (v : R × n → ℝ) (a : R × n) :
    (bd A *ᵥ v) a = (A a.1 *ᵥ fun i => v (a.1, i)) a.2 := by
  simp only [mulVec, dotProduct, bd, of_apply, Fintype.sum_prod_type, ite_mul, zero_mul]
  rw [Finset.sum_eq_single a.1]
  · simp
  · intro b _ hb; simp [Ne.symm hb]
  · simp

/-- The spatial filter of each equation. -/
def filtA (W : Matrix n n ℝ) (lam : R → ℝ) (r : R) : Matrix n n ℝ := 1 - lam r • W

theorem bd_bigZ (W : Matrix n n ℝ) (lam : R → ℝ) (X : ∀ r, Matrix n (K r) ℝ) :
    bigZ (filtX W lam X) = bd (filtA W lam) * bigZ X := by
  ext a q
  obtain ⟨ar, ai⟩ := a
  obtain ⟨qr, qi⟩ := q
  rw [Matrix.mul_apply, Fintype.sum_prod_type]
  simp only [bd, bigZ, of_apply, filtX, filtA, ite_mul, zero_mul, mul_ite, mul_zero]
  by_cases h : ar = qr
  · subst h
    rw [if_pos rfl, Finset.sum_eq_single ar]
    · simp only [if_true]
      have : (X ar - lam ar • (W * X ar)) = (1 - lam ar • W) * X ar := by
        rw [Matrix.sub_mul, Matrix.one_mul, Matrix.smul_mul]
      rw [this, Matrix.mul_apply]
    · intro b _ hb; exact Finset.sum_eq_zero fun i _ => by rw [if_neg (Ne.symm hb), ite_self]
    · simp
  · rw [if_neg h]
    symm
    refine Finset.sum_eq_zero fun b _ => Finset.sum_eq_zero fun i _ => ?_
    by_cases h1 : ar = b
    · rw [if_pos h1, if_neg (fun h2 => h (h1.trans h2))]
    · rw [if_neg h1, ite_self]

omit [∀ r, Fintype (K r)] [∀ r, DecidableEq (K r)] in
theorem bd_bigY (W : Matrix n n ℝ) (lam : R → ℝ) (y : R → n → ℝ) : bigY (filtY W lam y) = bd (filtA W lam) *ᵥ bigY y := by
  funext a
  rw [bd_mulVec]
  simp only [bigY, filtY, filtA, sub_mulVec, one_mulVec, smul_mulVec]

/-! ### The covariance of the model -/

theorem surErrCov_eq (W : Matrix n n ℝ) (lam : R → ℝ) (S : Matrix R R ℝ) :
    surErrCov W lam S = bd (fun r => (filtA W lam r)⁻¹) * omega n S * (bd fun r => (filtA W lam r)⁻¹)ᵀ := by
  ext a b
  rw [Matrix.mul_assoc, Matrix.mul_apply, Fintype.sum_prod_type, Finset.sum_eq_single a.1]
  · simp only [bd, of_apply, if_true]
    have : ∀ i, (omega n S * (bd fun r => (filtA W lam r)⁻¹)ᵀ) (a.1, i) b = S a.1 b.1 * (filtA W lam b.1)⁻¹ b.2 i := by
      intro i
      rw [Matrix.mul_apply, Fintype.sum_prod_type, Finset.sum_eq_single b.1]
      · simp [omega, bd, Matrix.one_apply]
      · intro t _ ht
        refine Finset.sum_eq_zero fun j _ => ?_
        simp [bd, Ne.symm ht]
      · simp
    have h2 : ∀ i, (omega n S * (Matrix.of fun a b : R × n => if a.1 = b.1 then (filtA W lam a.1)⁻¹ a.2 b.2 else 0)ᵀ) (a.1, i) b =
      S a.1 b.1 * (filtA W lam b.1)⁻¹ b.2 i := this
    simp only [h2]
    rw [surErrCov, of_apply, Matrix.mul_apply, Finset.mul_sum]
    refine Finset.sum_congr rfl fun i _ => ?_
    simp only [filtA, transpose_apply]
    ring
  · intro t _ ht
    refine Finset.sum_eq_zero fun j _ => ?_
    simp [bd, Ne.symm ht]
  · simp

theorem bd_inv (W : Matrix n n ℝ) (lam : R → ℝ) (hA : ∀ r, IsUnit (1 - lam r • W).det) :
    bd (fun r => (filtA W lam r)⁻¹) * bd (filtA W lam) = 1 ∧ bd (filtA W lam) * bd (fun r => (filtA W lam r)⁻¹) = 1 := by
  rw [bd_mul, bd_mul]
  constructor
  · rw [← bd_one]; congr 1; funext r; exact nonsing_inv_mul _ (hA r)
  · rw [← bd_one]; congr 1; funext r; exact mul_nonsing_inv _ (hA r)

theorem surErrCov_inv (W : Matrix n n ℝ) (lam : R → ℝ) (S : Matrix R R ℝ) (hA : ∀ r, IsUnit (1 - lam r • W).det)
    (hS : IsUnit S.det) : (surErrCov W lam S)⁻¹ = (bd (filtA W lam))ᵀ * omega n S⁻¹ * bd (filtA W lam) := by
  obtain ⟨h1, h2⟩ := bd_inv W lam hA
  have h3 : (bd fun r => (filtA W lam r)⁻¹)ᵀ * (bd (filtA W lam))ᵀ = 1 := by rw [← transpose_mul, h2, transpose_one]
  apply Matrix.inv_eq_right_inv
  rw [surErrCov_eq]
  set B := bd (filtA W lam)
  set Bi := bd fun r => (filtA W lam r)⁻¹
  have h4 : omega n S * omega n S⁻¹ = 1 := by
    unfold omega
    rw [← Matrix.mul_kronecker_mul, mul_nonsing_inv _ hS, Matrix.one_mul, one_kronecker_one]
  calc Bi * omega n S * Biᵀ * (Bᵀ * omega n S⁻¹ * B) = Bi * omega n S * (Biᵀ * Bᵀ) * omega n S⁻¹ * B := by
        simp only [Matrix.mul_assoc]
    _ = Bi * (omega n S * omega n S⁻¹) * B := by rw [h3, Matrix.mul_one]; simp only [Matrix.mul_assoc]
    _ = 1 := by rw [h4, Matrix.mul_one, h1]

theorem omega_det (S : Matrix R R ℝ) : (omega n S).det = S.det ^ Fintype.card n := by
  unfold omega; rw [det_kronecker, det_one, one_pow, mul_one]

theorem surErrCov_det (W : Matrix n n ℝ) (lam : R → ℝ) (S : Matrix R R ℝ) :
    (surErrCov W lam S).det = S.det ^ Fintype.card n / (∏ r, (1 - lam r • W).det) ^ 2 := by
  have h : ∏ r, ((filtA W lam r)⁻¹).det = (∏ r, (1 - lam r • W).det)⁻¹ := by
    rw [← Finset.prod_inv_distrib]
    refine Finset.prod_congr rfl fun r _ => ?_
    rw [det_nonsing_inv, Ring.inverse_eq_inv']; rfl
  rw [surErrCov_eq, det_mul, det_mul, det_transpose, omega_det, bd_det, h]
  rw [div_eq_mul_inv, ← inv_pow]; ring

/-- Residuals as a matrix with one column per equation. -/
def unstack (v : R × n → ℝ) : Matrix n R ℝ := Matrix.of fun i r => v (r, i)

omit [DecidableEq R] in
theorem filtE_eq (W : Matrix n n ℝ) (lam : R → ℝ) (E : Matrix n R ℝ) (i : n) (r : R) :
    filtE W lam E i r = (filtA W lam r *ᵥ fun j => E j r) i := by
  simp only [filtE, filtA, Matrix.sub_apply, of_apply, sub_mulVec, one_mulVec, smul_mulVec, Pi.sub_apply, Pi.smul_apply,
    smul_eq_mul]
  rw [mul_comm]
  rfl

theorem quad_cov (W : Matrix n n ℝ) (lam : R → ℝ) (S : Matrix R R ℝ) (hA : ∀ r, IsUnit (1 - lam r • W).det)
    (hS : IsUnit S.det) (v : R × n → ℝ) :
    v ⬝ᵥ ((surErrCov W lam S)⁻¹ *ᵥ v) =
      (S⁻¹ * ((filtE W lam (unstack v))ᵀ * filtE W lam (unstack v))).trace := by
  rw [surErrCov_inv W lam S hA hS, ← mulVec_mulVec, ← mulVec_mulVec, dotProduct_mulVec, vecMul_transpose, ← omega_trace]
  have e : bd (filtA W lam) *ᵥ v = fun p : R × n => filtE W lam (unstack v) p.2 p.1 := by
    funext p; rw [bd_mulVec, filtE_eq]; rfl
  rw [e]

/-- The log-likelihood of the model in terms of filtered residuals. -/
theorem surErrLL_eq (W : Matrix n n ℝ) (lam : R → ℝ) (S : Matrix R R ℝ) (hA : ∀ r, IsUnit (1 - lam r • W).det)
    (hS : S.PosDef) (m y : R × n → ℝ) :
    normalLL m (surErrCov W lam S) y =
      -((Fintype.card n : ℝ) / 2) * (Fintype.card R * Real.log (2 * Real.pi) + Real.log S.det) + jacobSur W lam
        - 1 / 2 * (S⁻¹ * ((filtE W lam (unstack (y - m)))ᵀ * filtE W lam (unstack (y - m)))).trace := by
  have hd := hS.det_pos
  have hP : (∏ r, (1 - lam r • W).det) ≠ 0 := Finset.prod_ne_zero_iff.2 fun r _ => (hA r).ne_zero
  have hj : jacobSur W lam = Real.log |∏ r, (1 - lam r • W).det| := by
    unfold jacobSur
    rw [Finset.abs_prod, Real.log_prod]
    intro r _; exact abs_ne_zero.2 (hA r).ne_zero
  unfold normalLL
  rw [quad_cov W lam S hA hd.ne'.isUnit, surErrCov_det, hj, Real.log_div (pow_pos hd _).ne' (pow_ne_zero 2 hP), Real.log_pow,
    ← sq_abs (∏ r, _), Real.log_pow, Fintype.card_prod]
  push_cast
  ring

/-! ### C114, C115: generalised moments -/

omit [DecidableEq n] [DecidableEq R] [Fintype R] in
theorem momentsSur_eq (W : Matrix n n ℝ) (u : Matrix n R ℝ) (r : R) :
    momentsSur W u r = GM.momentsGM W fun i => u i r := by
  have e1 : ∀ i, (W * u) i r = (W *ᵥ fun i => u i r) i := fun i => rfl
  have e2 : ∀ i, (W * (W * u)) i r = (W *ᵥ (W *ᵥ fun i => u i r)) i := fun i => rfl
  have htr : ∑ i, ∑ j, W i j * W i j = ∑ i, (Wᵀ * W) i i := by
    simp only [Matrix.mul_apply, transpose_apply]
    exact Finset.sum_comm
  have e3 : ∑ i, (W * (W * u)) i r * (W * u) i r = (W *ᵥ fun i => u i r) ⬝ᵥ (W *ᵥ (W *ᵥ fun i => u i r)) :=
    Finset.sum_congr rfl fun i _ => mul_comm _ _
  unfold momentsSur GM.momentsGM
  simp only [htr, e3]
  rfl

omit [DecidableEq n] [DecidableEq R] [Fintype R] in
/-- C114: the moments of each equation of SURerrorGM, evaluated at `(lam, lam², s2)`, are the three sample moment conditions
of the filtered residuals of that equation: those of GM_Error for the equation alone. -/
theorem C114_moments [Nonempty n] (W : Matrix n n ℝ) (u : Matrix n R ℝ) (r : R) (lam s2 : ℝ) :
    let e : n → ℝ := fun i => u i r - lam * ∑ j, W i j * u j r
    let we : n → ℝ := fun i => ∑ j, W i j * e j
    (∀ i, (momentsSur W u r).g i - ((momentsSur W u r).G *ᵥ ![lam, lam ^ 2, s2]) i =
      ![(∑ i, e i ^ 2) / Fintype.card n - s2,
        (∑ i, we i ^ 2) / Fintype.card n - s2 * (∑ i, ∑ j, W i j ^ 2) / Fintype.card n,
        (∑ i, e i * we i) / Fintype.card n] i) ∧
    momentsSur W u r = GM.momentsGM W fun i => u i r := by
  intro e we
  refine ⟨?_, momentsSur_eq W u r⟩
  rw [momentsSur_eq]
  exact GM.C13_moments W (fun i => u i r) lam s2

theorem baseSURerrorGM_some {opt : GM.Moments (Fin 3) (Fin 3) → ℝ} {W : Matrix n n ℝ}
    {X : ∀ r, Matrix n (K r) ℝ} {y : R → n → ℝ} {f : FitGM n R K} (h : baseSURerrorGM opt W X y = some f) :
    ∃ b, eqByEq (crossXX X) (crossXy X y) = some b ∧ (∀ r, f.lam r = opt (momentsSur W (surResids y X b) r)) ∧
      surEst (crossXX (filtX W f.lam X)) (crossXy (filtX W f.lam X) (filtY W f.lam y)) (filtE W f.lam (surResids y X b)) = some f.est ∧
      f.bigE = surResids y X f.est.b ∧ f.corr = surCorr f.est.sig := by
  unfold baseSURerrorGM at h
  simp only [Option.bind_eq_some_iff, Option.map_eq_some_iff] at h
  obtain ⟨b, hb, e, he, rfl⟩ := h
  exact ⟨b, hb, fun _ => rfl, he, rfl, rfl⟩

/-- Generalised sum of squares of the stacked system (specification). -/
noncomputable def gss (X : ∀ r, Matrix n (K r) ℝ) (y : R → n → ℝ) (C : Matrix (R × n) (R × n) ℝ) (b : ∀ r, K r → ℝ) : ℝ :=
  (bigY y - bigZ X *ᵥ stackB b) ⬝ᵥ (C⁻¹ *ᵥ (bigY y - bigZ X *ᵥ stackB b))

theorem unstack_resid (X : ∀ r, Matrix n (K r) ℝ) (y : R → n → ℝ) (b : ∀ r, K r → ℝ) :
    unstack (bigY y - bigZ X *ᵥ stackB b) = surResids y X b := by
  ext i r
  exact resid_stack X y b (r, i)

omit [DecidableEq R] [∀ r, DecidableEq (K r)] in
theorem filt_resid (W : Matrix n n ℝ) (lam : R → ℝ) (X : ∀ r, Matrix n (K r) ℝ) (y : R → n → ℝ) (b : ∀ r, K r → ℝ) :
    surResids (filtY W lam y) (filtX W lam X) b = filtE W lam (surResids y X b) := by
  ext i r
  rw [filtE_eq]
  have h : (fun j => surResids y X b j r) = y r - X r *ᵥ b r := rfl
  rw [h, mulVec_sub]
  simp only [surResids, of_apply, filtY, filtX, filtA, sub_mulVec, one_mulVec, smul_mulVec, Pi.sub_apply, Pi.smul_apply,
    smul_eq_mul, ← mulVec_mulVec]

/-- Estimation on filtered data is generalised least squares for the covariance matrix of the model. -/
theorem filtered_gls (W : Matrix n n ℝ) (lam : R → ℝ) (X : ∀ r, Matrix n (K r) ℝ) (y : R → n → ℝ) (E : Matrix n R ℝ)
    (e : Est R K) (h : surEst (crossXX (filtX W lam X)) (crossXy (filtX W lam X) (filtY W lam y)) E = some e)
    (hA : ∀ r, IsUnit (1 - lam r • W).det) :
    (bigZ X)ᵀ *ᵥ ((surErrCov W lam e.sig)⁻¹ *ᵥ (bigY y - bigZ X *ᵥ stackB e.b)) = 0 ∧
    (∀ b, gss X y (surErrCov W lam e.sig) e.b ≤ gss X y (surErrCov W lam e.sig) b) ∧
    e.varb * ((bigZ X)ᵀ * (surErrCov W lam e.sig)⁻¹ * bigZ X) = 1 := by
  obtain ⟨g1, g2, g3⟩ := C41_gls _ _ _ _ h
  obtain ⟨-, hS, -⟩ := surEst_some _ _ _ _ h
  rw [omega_inv] at g1 g2
  have hmin := C41_minimises _ _ _ _ h
  refine ⟨?_, ?_, ?_⟩
  · rw [surErrCov_inv W lam _ hA hS]
    rw [bd_bigZ, bd_bigY, transpose_mul, ← mulVec_mulVec _ (bd _) (bigZ X), ← mulVec_sub] at g1
    rw [← g1]
    simp only [mulVec_mulVec, Matrix.mul_assoc]
  · intro b
    unfold gss
    rw [quad_cov W lam _ hA hS, quad_cov W lam _ hA hS, unstack_resid, unstack_resid, ← filt_resid, ← filt_resid]
    exact hmin b
  · rw [surErrCov_inv W lam _ hA hS]
    rw [bd_bigZ, transpose_mul] at g2
    rw [← g2]
    simp only [Matrix.mul_assoc]

/-- C115: the coefficients of SURerrorGM are the generalised least squares coefficients of the stacked system for the
covariance matrix of the SUR model with spatial autoregressive errors, at the reported lambdas and the reported covariance
matrix `sig`; `varb` is the inverse of the cross product, symmetric positive semidefinite. Each lambda comes from the moments
of the OLS residuals of its equation, `sig` is the covariance matrix of the filtered OLS residuals, and the residuals are
those of the reported coefficients. -/
theorem C115_gls (opt : GM.Moments (Fin 3) (Fin 3) → ℝ) (W : Matrix n n ℝ)
    (X : ∀ r, Matrix n (K r) ℝ) (y : R → n → ℝ) (f : FitGM n R K) (h : baseSURerrorGM opt W X y = some f)
    (hA : ∀ r, IsUnit (1 - f.lam r • W).det) :
    (bigZ X)ᵀ *ᵥ ((surErrCov W f.lam f.est.sig)⁻¹ *ᵥ (bigY y - bigZ X *ᵥ stackB f.est.b)) = 0 ∧
    (∀ b, gss X y (surErrCov W f.lam f.est.sig) f.est.b ≤ gss X y (surErrCov W f.lam f.est.sig) b) ∧
    f.est.varb * ((bigZ X)ᵀ * (surErrCov W f.lam f.est.sig)⁻¹ * bigZ X) = 1 ∧ SymPSD f.est.varb ∧
    (∀ i r, f.bigE i r = y r i - ∑ j, X r i j * f.est.b r j) ∧
    ∃ o : ∀ r, OLSFit n (K r), (∀ r, ols (X r) (y r) = some (o r)) ∧ (∀ r, f.lam r = opt (GM.momentsGM W (o r).u)) ∧
      ∀ r t, f.est.sig r t = (∑ i, ((o r).u i - f.lam r * (W *ᵥ (o r).u) i) * ((o t).u i - f.lam t * (W *ᵥ (o t).u) i)) /
        Fintype.card n := by
  obtain ⟨b, hb, hl, he, hE, -⟩ := baseSURerrorGM_some h
  obtain ⟨h1, h2, h3⟩ := filtered_gls W f.lam X y _ f.est he hA
  refine ⟨h1, h2, h3, C41_varb_psd _ _ _ _ he, fun i r => by rw [hE]; rfl, ?_⟩
  unfold eqByEq at hb
  split at hb
  · next hu =>
    injection hb with hb
    refine ⟨fun r => olsWith (X r) (y r) ((X r)ᵀ * X r)⁻¹, fun r => ols_of_isUnit _ _ (hu r), ?_, ?_⟩
    · intro r
      rw [hl, momentsSur_eq, ← hb]; rfl
    · intro r t
      have hs := (surEst_some _ _ _ _ he).1
      rw [hs, sigOf, Matrix.smul_apply, Matrix.mul_apply, smul_eq_mul, one_div, mul_comm, ← div_eq_mul_inv]
      congr 1
      refine Finset.sum_congr rfl fun i _ => ?_
      rw [transpose_apply, filtE_eq, filtE_eq, ← hb]
      simp only [filtA, sub_mulVec, one_mulVec, smul_mulVec, Pi.sub_apply, Pi.smul_apply, smul_eq_mul]
      rfl
  · cases hb

theorem filt_zero (W : Matrix n n ℝ) (X : ∀ r, Matrix n (K r) ℝ) (y : R → n → ℝ) (E : Matrix n R ℝ) (lam : R → ℝ)
    (h : ∀ r, lam r = 0) : filtX W lam X = X ∧ filtY W lam y = y ∧ filtE W lam E = E := by
  refine ⟨?_, ?_, ?_⟩
  · funext r; simp [filtX, h]
  · funext r; simp [filtY, h]
  · ext i r; simp [filtE, h]

/-- C115: when the estimated lambdas are all zero, SURerrorGM reports the coefficients, variances and covariance matrix of
the (two-step) SUR estimator without spatial errors. -/
theorem C115_no_dependence (opt : GM.Moments (Fin 3) (Fin 3) → ℝ) (W : Matrix n n ℝ)
    (X : ∀ r, Matrix n (K r) ℝ) (y : R → n → ℝ) (f : FitGM n R K) (h : baseSURerrorGM opt W X y = some f)
    (h0 : ∀ r, f.lam r = 0) (m : ℕ) (eps : ℝ) :
    ∃ g, baseSUR X y false m eps = some g ∧ g.est = f.est ∧ g.bigE = f.bigE := by
  obtain ⟨b, hb, hl, he, hE, -⟩ := baseSURerrorGM_some h
  obtain ⟨e1, e2, e3⟩ := filt_zero W X y (surResids y X b) f.lam h0
  rw [e1, e2, e3] at he
  unfold baseSUR surStart
  rw [hb, Option.bind_some, he, Option.map_some, Option.bind_some]
  exact ⟨_, rfl, rfl, hE.symm⟩

end Spreg.SUR
