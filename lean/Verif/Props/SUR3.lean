import Verif.Props.SUR2
import Verif.Props.TSLS
import Mathlib.Tactic
import Mathlib.Data.List.GetD
/-
C71, C72: LM tests in SUR models, three-stage least squares.
-/
namespace Spreg.SUR
open Matrix Spreg.Lin
open scoped Kronecker

variable {n R : Type} [Fintype n] [Fintype R] [DecidableEq R] [DecidableEq n] {K : R → Type} [∀ r, Fintype (K r)]
  [∀ r, DecidableEq (K r)]

/-- Specification: the covariance matrix after the unit of equation `r` is multiplied by `c r`. -/
def rescale (c : R → ℝ) (S : Matrix R R ℝ) : Matrix R R ℝ := Matrix.of fun r t => c r * S r t * c t

theorem rescale_eq (c : R → ℝ) (S : Matrix R R ℝ) : rescale c S = Matrix.diagonal c * S * Matrix.diagonal c := by
  ext r t; simp [rescale]

theorem inv_rescale (c : R → ℝ) (hc : ∀ r, c r ≠ 0) (S : Matrix R R ℝ) :
    inv? (rescale c S) = (inv? S).map (rescale fun r => (c r)⁻¹) := by
  have hD : (Matrix.diagonal c).det ≠ 0 := by
    rw [Matrix.det_diagonal]; exact Finset.prod_ne_zero_iff.2 fun r _ => hc r
  by_cases hu : IsUnit S.det
  · rw [inv?_of_isUnit hu]
    have hu' : IsUnit (rescale c S).det := by
      rw [rescale_eq, Matrix.det_mul, Matrix.det_mul]
      exact ((isUnit_iff_ne_zero.2 hD).mul hu).mul (isUnit_iff_ne_zero.2 hD)
    rw [inv?_of_isUnit hu']
    simp only [Option.map_some]
    congr 1
    have hDi : Matrix.diagonal c * Matrix.diagonal (fun r => (c r)⁻¹) = 1 := by
      rw [Matrix.diagonal_mul_diagonal, ← Matrix.diagonal_one]
      congr 1; funext r; exact mul_inv_cancel₀ (hc r)
    apply Matrix.inv_eq_right_inv
    rw [rescale_eq, rescale_eq]
    calc Matrix.diagonal c * S * Matrix.diagonal c *
          (Matrix.diagonal (fun r => (c r)⁻¹) * S⁻¹ * Matrix.diagonal (fun r => (c r)⁻¹))
        = Matrix.diagonal c * (S * ((Matrix.diagonal c * Matrix.diagonal (fun r => (c r)⁻¹)) * S⁻¹)) *
            Matrix.diagonal (fun r => (c r)⁻¹) := by simp only [Matrix.mul_assoc]
      _ = 1 := by rw [hDi, Matrix.one_mul, Matrix.mul_nonsing_inv _ hu, Matrix.mul_one, hDi]
  · have hu' : ¬ IsUnit (rescale c S).det := by
      rw [rescale_eq, Matrix.det_mul, Matrix.det_mul, isUnit_iff_ne_zero]
      rw [isUnit_iff_ne_zero, not_not] at hu
      simp [hu]
    unfold inv?
    rw [if_neg hu, if_neg hu']; rfl

/-- The statistic as a function of its two elementwise products. -/
noncomputable def lmeCore (W : Matrix n n ℝ) (SEWE SiS : Matrix R R ℝ) : Option ℝ :=
  (inv? ((W * W).trace • (1 : Matrix R R ℝ) + (Wᵀ * W).trace • SiS)).map fun idenom =>
    (fun t => ∑ r, SEWE r t) ⬝ᵥ (idenom *ᵥ fun t => ∑ r, SEWE r t)

theorem lme_eq (W : Matrix n n ℝ) (E : Matrix n R ℝ) (sig : Matrix R R ℝ) :
    surLMe W E sig = (inv? sig).bind fun sigi =>
      lmeCore W (Matrix.of fun r t => sigi r t * (Eᵀ * (W * E)) r t) (Matrix.of fun r t => sigi r t * sig r t) := rfl

/-- C71: the LM test for spatial error autocorrelation in a SUR model does not depend on the units in which
the dependent variables are measured. -/
theorem C71_LMe_unit_free (W : Matrix n n ℝ) (E : Matrix n R ℝ) (sig : Matrix R R ℝ) (c : R → ℝ)
    (hc : ∀ r, c r ≠ 0) :
    surLMe W (Matrix.of fun i r => E i r * c r) (rescale c sig) = surLMe W E sig := by
  have hE : (Matrix.of fun i r => E i r * c r : Matrix n R ℝ) = E * Matrix.diagonal c := by ext i r; simp
  rw [hE, lme_eq, lme_eq, inv_rescale c hc]
  rcases inv? sig with _ | sigi
  · rw [Option.map_none, Option.bind_none, Option.bind_none]
  · rw [Option.map_some, Option.bind_some, Option.bind_some]
    have h1 : (Matrix.of fun r t => (rescale (fun r => (c r)⁻¹) sigi) r t *
        ((E * Matrix.diagonal c)ᵀ * (W * (E * Matrix.diagonal c))) r t : Matrix R R ℝ) =
        Matrix.of fun r t => sigi r t * (Eᵀ * (W * E)) r t := by
      ext r t
      rw [Matrix.of_apply, Matrix.of_apply, transpose_mul, Matrix.diagonal_transpose, Matrix.mul_assoc,
        ← Matrix.mul_assoc W, ← Matrix.mul_assoc Eᵀ, Matrix.diagonal_mul, Matrix.mul_diagonal]
      simp only [rescale, Matrix.of_apply]
      have := hc r; have := hc t
      field_simp
    have h2 : (Matrix.of fun r t => (rescale (fun r => (c r)⁻¹) sigi) r t * (rescale c sig) r t : Matrix R R ℝ) =
        Matrix.of fun r t => sigi r t * sig r t := by
      ext r t
      simp only [rescale, Matrix.of_apply]
      have := hc r; have := hc t
      field_simp
    rw [h1, h2]

theorem symPSD_of_posSemidef {A : Matrix R R ℝ} (h : A.PosSemidef) : SymPSD A := by
  refine ⟨by have := h.1; rwa [IsHermitian, conjTranspose_eq_transpose_of_trivial] at this, fun v => ?_⟩
  rw [quad_eq]
  have := h.dotProduct_mulVec_nonneg v
  simpa using this

/-- The information matrix term `tr(WW) I + tr(W'W) (Sigma⁻¹ ∘ Sigma)` is positive semidefinite for
nonnegative weights. -/
theorem firstHalf_psd (W : Matrix n n ℝ) (hW : ∀ i j, 0 ≤ W i j) {sig : Matrix R R ℝ} (h : SymPSD sig)
    (hu : IsUnit sig.det) :
    SymPSD ((W * W).trace • (1 : Matrix R R ℝ) +
      (Wᵀ * W).trace • Matrix.of fun r t => sig⁻¹ r t * sig r t) := by
  have hp := posDef_of h hu
  have t1 : 0 ≤ (W * W).trace :=
    Finset.sum_nonneg fun i _ => Finset.sum_nonneg fun j _ => mul_nonneg (hW i j) (hW j i)
  have t2 : 0 ≤ (Wᵀ * W).trace :=
    Finset.sum_nonneg fun i _ => Finset.sum_nonneg fun j _ => mul_nonneg (hW j i) (hW j i)
  apply LM.psd_add
  · exact psd_smul (symPSD_of_posSemidef PosSemidef.one) _ t1
  · apply psd_smul _ _ t2
    exact symPSD_of_posSemidef (hp.inv.posSemidef.hadamard hp.posSemidef)

/-- C71: for nonnegative weights the LM error statistic is nonnegative whenever it is defined. -/
theorem C71_LMe_nonneg (W : Matrix n n ℝ) (hW : ∀ i j, 0 ≤ W i j) (E F : Matrix n R ℝ) (s : ℝ)
    (h : surLMe W E (sigOf F) = some s) : 0 ≤ s := by
  unfold surLMe at h
  simp only [Option.bind_eq_some_iff, Option.map_eq_some_iff] at h
  obtain ⟨sigi, h1, id, h2, rfl⟩ := h
  obtain ⟨hu, rfl, -, -⟩ := inv?_eq_some h1
  obtain ⟨-, -, h3, -⟩ := inv?_eq_some h2
  exact (LM.psd_inv (firstHalf_psd W hW (sig_psd F) hu) h3 _).1

/-- C71: for nonnegative weights the LM lag statistic of a SUR fit is nonnegative whenever it is defined. -/
theorem C71_LMlag_nonneg (W : Matrix n n ℝ) (hW : ∀ i j, 0 ≤ W i j) (X : ∀ r, Matrix n (K r) ℝ) (y : R → n → ℝ)
    (F E YP : Matrix n R ℝ) (e : Est R K) (he : surEst (crossXX X) (crossXy X y) F = some e) (s : ℝ)
    (h : surLMlag W y X E YP e.sig e.varb = some s) : 0 ≤ s := by
  unfold surLMlag at h
  simp only [Option.bind_eq_some_iff, Option.map_eq_some_iff] at h
  obtain ⟨sigi, h1, ip, h2, rfl⟩ := h
  obtain ⟨hu, rfl, -, -⟩ := inv?_eq_some h1
  obtain ⟨-, -, h3, -⟩ := inv?_eq_some h2
  obtain ⟨e1, -, e3, e4, -⟩ := surEst_some X y F e he
  have hps : SymPSD e.sig := by rw [e1]; exact sig_psd F
  have hvar := C41_varb_psd X y F e he
  have hsi := inv_psd hps hu
  refine (LM.psd_inv ?_ h3 _).1
  unfold lagInner
  simp only
  rw [add_sub_assoc]
  apply LM.psd_add (firstHalf_psd W hW hps hu)
  set WYP := W * YP
  set bp : Matrix (Stk K) R ℝ := Matrix.of fun p t => e.sig⁻¹ p.1 t * ((X p.1)ᵀ * WYP) p.2 t with hbp
  refine ⟨?_, fun v => ?_⟩
  · have hb2 : (bpᵀ * e.varb * bp)ᵀ = bpᵀ * e.varb * bp := by
      have := hvar.1
      clear_value bp
      rw [transpose_mul, transpose_mul, transpose_transpose, this, Matrix.mul_assoc]
    rw [transpose_sub, hb2]
    congr 1
    ext r t
    simp only [Matrix.transpose_apply, Matrix.of_apply]
    have a1 : e.sig⁻¹ t r = e.sig⁻¹ r t := by conv_lhs => rw [← hsi.1]
                                              rfl
    have a2 : (WYPᵀ * WYP) t r = (WYPᵀ * WYP) r t := by
      have := (psd_gram WYP).1
      conv_lhs => rw [← this]
      rfl
    rw [a1, a2]
  · rw [quad_eq, sub_mulVec, dotProduct_sub]
    set S := omega n e.sig⁻¹
    set a : R × n → ℝ := fun p => v p.1 * WYP p.2 p.1 with ha
    have q1 : v ⬝ᵥ ((Matrix.of fun r t => e.sig⁻¹ r t * (WYPᵀ * WYP) r t : Matrix R R ℝ) *ᵥ v) = a ⬝ᵥ (S *ᵥ a) := by
      rw [omega_quad]
      simp only [dotProduct, mulVec, Matrix.of_apply, Matrix.mul_apply, Matrix.transpose_apply, ha, Finset.mul_sum,
        Finset.sum_mul]
      rw [Finset.sum_comm' (t' := Finset.univ) (s' := fun _ => Finset.univ) (by simp)]
      conv_rhs => rw [Finset.sum_comm]
      rw [Finset.sum_comm]
      refine Finset.sum_congr rfl fun r _ => ?_
      conv_rhs => rw [Finset.sum_comm]
      refine Finset.sum_congr rfl fun t _ => Finset.sum_congr rfl fun i _ => by ring
    have q2 : bp *ᵥ v = (bigZ X)ᵀ *ᵥ (S *ᵥ a) := by
      funext p
      rw [Zt_mulVec]
      simp only [S, omega_mulVec]
      simp only [hbp, mulVec, dotProduct, Matrix.of_apply, Matrix.mul_apply, Matrix.transpose_apply, ha,
        Finset.mul_sum, Finset.sum_mul]
      rw [Finset.sum_comm]
      refine Finset.sum_congr rfl fun i _ => Finset.sum_congr rfl fun t _ => by ring
    have q3 : v ⬝ᵥ ((bpᵀ * e.varb * bp) *ᵥ v) = (bp *ᵥ v) ⬝ᵥ (e.varb *ᵥ (bp *ᵥ v)) := by
      rw [Matrix.mul_assoc, ← mulVec_mulVec, ← mulVec_mulVec, dotProduct_mulVec v, vecMul_transpose]
    rw [q1, q3, q2]
    have hS : Sᵀ = S := omega_symm hsi.1
    set g := (bigZ X)ᵀ *ᵥ (S *ᵥ a) with hg
    set b := e.varb *ᵥ g with hb
    have r1 : 0 ≤ (a - bigZ X *ᵥ b) ⬝ᵥ (S *ᵥ (a - bigZ X *ᵥ b)) := by
      rw [omega_quad]; exact Finset.sum_nonneg fun i _ => (inv_quad hps hu _).1
    have r2 : (bigZ X *ᵥ b) ⬝ᵥ (S *ᵥ a) = g ⬝ᵥ b := by
      rw [dotProduct_comm, dotProduct_mulVec, ← mulVec_transpose]
    have r3 : a ⬝ᵥ (S *ᵥ (bigZ X *ᵥ b)) = g ⬝ᵥ b := by
      rw [dotProduct_mulVec, ← mulVec_transpose, hS, dotProduct_comm, r2]
    have r4 : (bigZ X *ᵥ b) ⬝ᵥ (S *ᵥ (bigZ X *ᵥ b)) = g ⬝ᵥ b := by
      have : (bigZ X)ᵀ *ᵥ (S *ᵥ (bigZ X *ᵥ b)) = g := by
        rw [hb, e4]
        simp only [mulVec_mulVec]
        rw [← Matrix.mul_assoc, ← Matrix.mul_assoc, Matrix.mul_nonsing_inv _ e3, one_mulVec]
      rw [dotProduct_comm, dotProduct_mulVec, ← mulVec_transpose]
      have h5 : (bigZ X)ᵀ *ᵥ (S *ᵥ (bigZ X *ᵥ b)) = g := this
      rw [h5]
    rw [mulVec_sub, sub_dotProduct, dotProduct_sub, dotProduct_sub, r2, r3, r4] at r1
    linarith

/-- Specification: the score of the log-likelihood with respect to the lag coefficient of equation `t` at
zero: `Σ_r σ^{rt} e_r' W y_t`. -/
def lagGradient (W : Matrix n n ℝ) (y : R → n → ℝ) (E : Matrix n R ℝ) (sigi : Matrix R R ℝ) (t : R) : ℝ :=
  ∑ r, sigi r t * ((fun i => E i r) ⬝ᵥ (W *ᵥ y t))

/-- C71 (lag score), proved part: with a single equation the score used by the LM lag test is the
gradient. Missing: two or more equations, where it is false (see `C71_lag_score_violated`). -/
theorem C71_lag_score_partial [Subsingleton R] (W : Matrix n n ℝ) (y : R → n → ℝ) (E : Matrix n R ℝ)
    (sigi : Matrix R R ℝ) (t : R) : lagScore W y E sigi t = lagGradient W y E sigi t := by
  have hu : (Finset.univ : Finset R) = {t} := by ext a; simp [Subsingleton.elim a t]
  simp only [lagScore, lagGradient, hu, Finset.sum_singleton, Matrix.mul_apply, Matrix.transpose_apply,
    dotProduct, mulVec, Matrix.of_apply]

theorem ones_base {N : ℕ} (hN : 0 < N) (y : R → Fin N → ℝ) (h0 : ∀ r, ∑ i, y r i = 0)
    (Y : Matrix (Fin N) R ℝ) (hY : ∀ i r, Y i r = y r i) (hs : IsUnit (sigOf Y).det) (m : ℕ) (eps : ℝ) :
    ∃ f, baseSUR (fun _ : R => (Matrix.of fun _ _ => 1 : Matrix (Fin N) Unit ℝ)) y false m eps = some f ∧
      f.bigE = Y ∧ f.bigYP = 0 ∧ f.est.sig = sigOf Y := by
  obtain ⟨e, hb, hsg, he, hst⟩ := ones_start hN y h0 Y hY hs
  unfold baseSUR
  rw [hst]
  refine ⟨_, rfl, rfl, ?_, hsg⟩
  ext i r
  simp [surPredict, hb, mulVec, dotProduct]

theorem lag_noYP (W : Matrix n n ℝ) (X : ∀ r, Matrix n (K r) ℝ) (sig sigi : Matrix R R ℝ)
    (varb : Matrix (Stk K) (Stk K) ℝ) :
    lagInner W X 0 sig sigi varb =
      (W * W).trace • (1 : Matrix R R ℝ) + (Wᵀ * W).trace • Matrix.of fun r t => sigi r t * sig r t := by
  unfold lagInner
  have h1 : (Matrix.of fun (p : Stk K) (t : R) => sigi p.1 t * ((X p.1)ᵀ * (W * (0 : Matrix n R ℝ))) p.2 t :
      Matrix (Stk K) R ℝ) = 0 := by ext p t; simp
  have h2 : (Matrix.of fun (r t : R) => sigi r t * ((W * (0 : Matrix n R ℝ))ᵀ * (W * (0 : Matrix n R ℝ))) r t :
      Matrix R R ℝ) = 0 := by ext r t; simp
  simp only [h1, h2]
  simp

/-- Data of the counterexample: four regions in two pairs. -/
def wPairs : Matrix (Fin 4) (Fin 4) ℝ := !![0, 1, 0, 0; 1, 0, 0, 0; 0, 0, 0, 1; 0, 0, 1, 0]

/-- Two uncorrelated variables with mean zero; the second is measured in units of `1 / c`. -/
def yPairs (c : ℝ) : Fin 2 → Fin 4 → ℝ := ![![1, 0, -1, 0], ![0, c, 0, -c]]

theorem pairs_fit (c : ℝ) (hc : c ≠ 0) (m : ℕ) (eps : ℝ) : ∃ f,
    baseSUR (fun _ : Fin 2 => (Matrix.of fun _ _ => 1 : Matrix (Fin 4) Unit ℝ)) (yPairs c) false m eps = some f ∧
      f.est.sig = !![1 / 2, 0; 0, c ^ 2 / 2] ∧
      (∀ t, lagScore wPairs (yPairs c) f.bigE f.est.sig⁻¹ t = ![4 / c, 4 * c] t) ∧
      (∀ t, lagGradient wPairs (yPairs c) f.bigE f.est.sig⁻¹ t = 0) ∧
      surLMlag wPairs (yPairs c) (fun _ : Fin 2 => (Matrix.of fun _ _ => 1 : Matrix (Fin 4) Unit ℝ)) f.bigE
        f.bigYP f.est.sig f.est.varb = some (2 / c ^ 2 + 2 * c ^ 2) := by
  let Y : Matrix (Fin 4) (Fin 2) ℝ := Matrix.of fun i r => yPairs c r i
  have hsig : sigOf Y = !![1 / 2, 0; 0, c ^ 2 / 2] := by
    ext i j
    fin_cases i <;> fin_cases j <;>
      simp [sigOf, Y, yPairs, Matrix.mul_apply, Fin.sum_univ_four] <;> ring
  have hdet : (sigOf Y).det = c ^ 2 / 4 := by rw [hsig, Matrix.det_fin_two_of]; ring
  have hu : IsUnit (sigOf Y).det := by
    rw [hdet]; exact isUnit_iff_ne_zero.2 (by positivity)
  obtain ⟨f, hf, hE, hYP, hs⟩ := ones_base (R := Fin 2) (by norm_num : 0 < 4) (yPairs c)
    (by intro r; fin_cases r <;> simp [yPairs, Fin.sum_univ_four]) Y (by intro i r; rfl) hu m eps
  have hinv : f.est.sig⁻¹ = !![2, 0; 0, 2 / c ^ 2] := by
    rw [hs, hsig]
    apply Matrix.inv_eq_right_inv
    ext i j
    fin_cases i <;> fin_cases j <;> simp [Matrix.mul_apply, Fin.sum_univ_two]
    field_simp
  have hsc : ∀ t, lagScore wPairs (yPairs c) f.bigE f.est.sig⁻¹ t = ![4 / c, 4 * c] t := by
    intro t
    rw [hinv, hE]
    fin_cases t <;>
      simp [lagScore, Y, yPairs, wPairs, Matrix.mul_apply, Fin.sum_univ_four, Fin.sum_univ_two, vecHead, vecTail]
    · field_simp; ring
    · ring
  refine ⟨f, hf, hs.trans hsig, hsc, ?_, ?_⟩
  · intro t
    rw [hinv, hE]
    fin_cases t <;>
      simp [lagGradient, Y, yPairs, wPairs, dotProduct, mulVec, Fin.sum_univ_four, Fin.sum_univ_two]
  · have hin : lagInner wPairs (fun _ : Fin 2 => (Matrix.of fun _ _ => 1 : Matrix (Fin 4) Unit ℝ)) f.bigYP
        f.est.sig f.est.sig⁻¹ f.est.varb = !![8, 0; 0, 8] := by
      rw [hYP, lag_noYP, hinv, hs, hsig]
      have t1 : (wPairs * wPairs).trace = 4 := by
        simp [Matrix.trace, Matrix.mul_apply, wPairs, Fin.sum_univ_four]; norm_num
      have t2 : (wPairsᵀ * wPairs).trace = 4 := by
        simp [Matrix.trace, Matrix.mul_apply, wPairs, Fin.sum_univ_four]; norm_num
      rw [t1, t2]
      ext i j
      fin_cases i <;> fin_cases j <;> simp
      · norm_num
      · field_simp; norm_num
    have hinn : (!![8, 0; 0, 8] : Matrix (Fin 2) (Fin 2) ℝ)⁻¹ = !![1 / 8, 0; 0, 1 / 8] := by
      apply Matrix.inv_eq_right_inv
      ext i j
      fin_cases i <;> fin_cases j <;> simp [Matrix.mul_apply, Fin.sum_univ_two]
    unfold surLMlag
    rw [inv?_of_isUnit (by rw [hs]; exact hu), Option.bind_some]
    simp only
    rw [hin, inv?_of_isUnit (by rw [Matrix.det_fin_two_of]; exact isUnit_iff_ne_zero.2 (by norm_num)), hinn]
    rw [Option.map_some]
    congr 1
    have : lagScore wPairs (yPairs c) f.bigE f.est.sig⁻¹ = ![4 / c, 4 * c] := funext hsc
    rw [this]
    simp [dotProduct, mulVec, Fin.sum_univ_two]
    field_simp
    ring

/-- C71 is violated for the LM lag test: on a fit with two uncorrelated equations the score of the
likelihood is zero, but the test uses a nonzero score and reports 4; and after changing the unit of the
second variable the same test reports 17/2. -/
theorem C71_lag_score_violated (m : ℕ) (eps : ℝ) : ∃ f g,
    baseSUR (fun _ : Fin 2 => (Matrix.of fun _ _ => 1 : Matrix (Fin 4) Unit ℝ)) (yPairs 1) false m eps = some f ∧
    baseSUR (fun _ : Fin 2 => (Matrix.of fun _ _ => 1 : Matrix (Fin 4) Unit ℝ)) (yPairs 2) false m eps = some g ∧
      (∀ t, lagGradient wPairs (yPairs 1) f.bigE f.est.sig⁻¹ t = 0) ∧
      (∀ t, lagScore wPairs (yPairs 1) f.bigE f.est.sig⁻¹ t = 4) ∧
      surLMlag wPairs (yPairs 1) (fun _ : Fin 2 => (Matrix.of fun _ _ => 1 : Matrix (Fin 4) Unit ℝ)) f.bigE
        f.bigYP f.est.sig f.est.varb = some 4 ∧
      surLMlag wPairs (yPairs 2) (fun _ : Fin 2 => (Matrix.of fun _ _ => 1 : Matrix (Fin 4) Unit ℝ)) g.bigE
        g.bigYP g.est.sig g.est.varb = some (17 / 2) := by
  obtain ⟨f, h1, -, h2, h3, h4⟩ := pairs_fit 1 (by norm_num) m eps
  obtain ⟨g, h5, -, -, -, h6⟩ := pairs_fit 2 (by norm_num) m eps
  refine ⟨f, g, h1, h5, h3, fun t => ?_, ?_, ?_⟩
  · rw [h2 t]; fin_cases t <;> simp
  · rw [h4]; norm_num
  · rw [h6]; norm_num

/-! ### C72: three-stage least squares -/

variable {A B Q : R → Type} [∀ r, Fintype (A r)] [∀ r, Fintype (B r)] [∀ r, Fintype (Q r)]
  [∀ r, DecidableEq (A r)] [∀ r, DecidableEq (B r)] [∀ r, DecidableEq (Q r)]

/-- The first-stage regressors are the projection of `[x, yend]` on the instruments. -/
theorem zhat_proj {a b q : Type} [Fintype a] [Fintype b] [Fintype q] [DecidableEq a] [DecidableEq q]
    (x : Matrix n a ℝ) (yend : Matrix n b ℝ) (qq : Matrix n q ℝ)
    (hu : IsUnit ((fromCols x qq)ᵀ * fromCols x qq).det) :
    zhat x yend qq ((fromCols x qq)ᵀ * fromCols x qq)⁻¹ =
      fromCols x qq * (((fromCols x qq)ᵀ * fromCols x qq)⁻¹ * ((fromCols x qq)ᵀ * fromCols x yend)) := by
  set h := fromCols x qq with hh
  have hx : h * ((hᵀ * h)⁻¹ * (hᵀ * x)) = x := by
    have e : x = h * fromRows (1 : Matrix a a ℝ) 0 := by
      rw [hh, fromCols_mul_fromRows]; simp
    conv_lhs => rw [e]
    rw [← Matrix.mul_assoc hᵀ, ← Matrix.mul_assoc (hᵀ * h)⁻¹, Matrix.nonsing_inv_mul _ hu, Matrix.one_mul, ← e]
  unfold zhat
  simp only
  rw [← hh]
  clear_value h
  rw [Matrix.mul_fromCols, Matrix.mul_fromCols, Matrix.mul_fromCols, hx]

/-- C72: in a three-stage fit the first two stages are the two-stage least squares estimates of each
equation (as the single-equation estimator computes them), the covariance matrix of the errors is
computed from the residuals with respect to the original regressors, and if that covariance matrix is
diagonal the three-stage coefficients are the two-stage ones. -/
theorem C72_threesls (x : ∀ r, Matrix n (A r) ℝ) (yend : ∀ r, Matrix n (B r) ℝ) (q : ∀ r, Matrix n (Q r) ℝ)
    (y : R → n → ℝ) (f : Fit3 n R fun r => A r ⊕ B r) (h : baseThreeSLS x yend q y = some f) (r : R) :
    ∃ t, tsls (x r) (yend r) (q r) (y r) = some t ∧ t.betas = f.b2SLS r ∧
      (∀ i, f.tslsE i r = t.u i) ∧ f.est.sig = (1 / (Fintype.card n : ℝ)) • (f.tslsEᵀ * f.tslsE) ∧
      ((∀ a b, a ≠ b → f.est.sig a b = 0) → f.est.b r = t.betas) := by
  unfold baseThreeSLS at h
  simp only at h
  split at h
  · next hu =>
    rw [Option.bind_eq_some_iff] at h
    obtain ⟨b2, hb2, h⟩ := h
    rw [Option.map_eq_some_iff] at h
    obtain ⟨e, he, rfl⟩ := h
    unfold eqByEq at hb2
    split at hb2
    · next hz =>
      injection hb2 with hb2
      have hur := hu r
      have hzr := hz r
      set hm := fromCols (x r) (q r) with hhm
      set z := fromCols (x r) (yend r) with hzz
      set zh := zhat (x r) (yend r) (q r) (hmᵀ * hm)⁻¹ with hzh
      have hp : zh = hm * ((hmᵀ * hm)⁻¹ * (hmᵀ * z)) := zhat_proj (x r) (yend r) (q r) hur
      have hsym := xtxi_symm hm
      have hzt : zhᵀ = zᵀ * hm * (hmᵀ * hm)⁻¹ * hmᵀ := by
        rw [hp, transpose_mul, transpose_mul, transpose_mul, transpose_transpose, hsym]
      have hzz' : zhᵀ * zh = zᵀ * hm * (hmᵀ * hm)⁻¹ * (zᵀ * hm)ᵀ := by
        rw [hzt, hp, transpose_mul, transpose_transpose]
        calc zᵀ * hm * (hmᵀ * hm)⁻¹ * hmᵀ * (hm * ((hmᵀ * hm)⁻¹ * (hmᵀ * z)))
            = zᵀ * hm * (hmᵀ * hm)⁻¹ * ((hmᵀ * hm) * ((hmᵀ * hm)⁻¹ * (hmᵀ * z))) := by
              simp only [Matrix.mul_assoc]
          _ = _ := by rw [← Matrix.mul_assoc (hmᵀ * hm), Matrix.mul_nonsing_inv _ hur, Matrix.one_mul]
      have hzr' : IsUnit (zᵀ * hm * (hmᵀ * hm)⁻¹ * (zᵀ * hm)ᵀ).det := by
        rw [← hzz']; exact hzr
      have hbr : b2 r = ((zᵀ * hm * (hmᵀ * hm)⁻¹ * (zᵀ * hm)ᵀ)⁻¹ * (zᵀ * hm * (hmᵀ * hm)⁻¹)) *ᵥ (hmᵀ *ᵥ y r) := by
        rw [← hb2]
        show (zhᵀ * zh)⁻¹ *ᵥ (zhᵀ *ᵥ y r) = _
        rw [hzz', hzt]
        simp only [mulVec_mulVec, Matrix.mul_assoc]
      obtain ⟨t, ht, htb, htu⟩ : ∃ t, tsls (x r) (yend r) (q r) (y r) = some t ∧ t.betas = b2 r ∧
          t.u = y r - z *ᵥ b2 r := by
        have key : ∃ t, some t = tsls (x r) (yend r) (q r) (y r) ∧
            t.betas = ((zᵀ * hm * (hmᵀ * hm)⁻¹ * (zᵀ * hm)ᵀ)⁻¹ * (zᵀ * hm * (hmᵀ * hm)⁻¹)) *ᵥ (hmᵀ *ᵥ y r) ∧
            t.u = y r - z *ᵥ t.betas := by
          unfold tsls tslsZH
          rw [inv?_of_isUnit hur, Option.bind_some]
          simp only
          rw [inv?_of_isUnit hzr', Option.map_some]
          exact ⟨_, rfl, rfl, rfl⟩
        obtain ⟨t, k1, k2, k3⟩ := key
        exact ⟨t, k1.symm, by rw [k2, hbr], by rw [k3, k2, hbr]⟩
      refine ⟨t, ht, htb, fun i => ?_, (surEst_some _ _ _ e he).1, fun hd => ?_⟩
      · rw [htu]; rfl
      · obtain ⟨o, ho, ho'⟩ := C41_diagonal_ols _ y _ e he hd r
        show e.b r = _
        rw [htb, hbr, ← ho', (ols_eq_some ho).2]
        show (zhᵀ * zh)⁻¹ *ᵥ (zhᵀ *ᵥ y r) = _
        rw [hzz', hzt]
        simp only [mulVec_mulVec, Matrix.mul_assoc]
    · cases hb2
  · cases h

/-- A three-stage fit exists: two equations, each with a constant and one endogenous regressor. -/
example : ∃ (x yend q : Matrix (Fin 4) Unit ℝ) (y : Fin 2 → Fin 4 → ℝ) (f : Fit3 (Fin 4) (Fin 2) fun _ => Unit ⊕ Unit),
    baseThreeSLS (A := fun _ => Unit) (B := fun _ => Unit) (Q := fun _ => Unit) (fun _ => x) (fun _ => yend)
      (fun _ => q) y = some f := by
  let x : Matrix (Fin 4) Unit ℝ := Matrix.of fun _ _ => 1
  let v : Matrix (Fin 4) Unit ℝ := Matrix.of fun i _ => ![1, 0, -1, 0] i
  let y : Fin 2 → Fin 4 → ℝ := ![![0, 1, 0, -1], ![1, -1, 1, -1]]
  let Y : Matrix (Fin 4) (Fin 2) ℝ := Matrix.of fun i r => y r i
  have hz : IsUnit ((fromCols x v)ᵀ * fromCols x v).det := by
    rw [xtx_isUnit_iff]
    intro w hw
    have h0 := congrFun hw 0
    have h1 := congrFun hw 1
    simp [mulVec, dotProduct, x, v] at h0 h1
    funext j
    rcases j with j | j
    · simpa using h1
    · simp only [Pi.zero_apply]
      have e1 : w (.inl ()) = 0 := h1
      have e2 : w (.inr ()) = 0 := by rw [e1] at h0; simpa using h0
      exact e2
  have hzh : zhat x v v ((fromCols x v)ᵀ * fromCols x v)⁻¹ = fromCols x v := by
    rw [zhat_proj x v v hz, Matrix.nonsing_inv_mul _ hz, Matrix.mul_one]
  have hzy : ∀ r, (fromCols x v)ᵀ *ᵥ y r = 0 := by
    intro r
    funext j
    rcases j with j | j <;> fin_cases r <;>
      simp [mulVec, dotProduct, x, v, y, Fin.sum_univ_four]
  have hres : surResids (K := fun _ => Unit ⊕ Unit) y (fun _ => fromCols x v) 0 = Y := by
    ext i r; simp [surResids, Y, mulVec, dotProduct]
  have hsig : sigOf Y = !![1 / 2, 0; 0, 1] := by
    ext i j
    fin_cases i <;> fin_cases j <;>
      simp [sigOf, Y, y, Matrix.mul_apply, Fin.sum_univ_four] <;> norm_num
  have hu : IsUnit (sigOf Y).det := by
    rw [hsig, Matrix.det_fin_two_of]; exact isUnit_iff_ne_zero.2 (by norm_num)
  refine ⟨x, v, v, y, ?_⟩
  unfold baseThreeSLS
  simp only
  rw [if_pos fun _ => hz]
  simp only [hzh]
  have hE : eqByEq (K := fun _ : Fin 2 => Unit ⊕ Unit) (crossXX fun _ => fromCols x v)
      (crossXy (fun _ => fromCols x v) y) = some 0 := by
    unfold eqByEq
    rw [if_pos (show ∀ r : Fin 2, IsUnit (crossXX (K := fun _ : Fin 2 => Unit ⊕ Unit)
      (fun _ => fromCols x v) r r).det from fun _ => hz)]
    congr 1
    funext r
    show ((fromCols x v)ᵀ * fromCols x v)⁻¹ *ᵥ ((fromCols x v)ᵀ *ᵥ y r) = 0
    rw [hzy, mulVec_zero]
  rw [hE, Option.bind_some, hres]
  obtain ⟨e, he⟩ := (C41_exists_iff (K := fun _ : Fin 2 => Unit ⊕ Unit) (fun _ => fromCols x v) y Y).2
    ⟨hu, fun _ => hz⟩
  rw [he, Option.map_some]
  exact ⟨_, rfl⟩

/-- C72: the residuals of the third stage are, equation by equation, `y` minus the fitted values from the original
regressors and endogenous variables (not from their projections). -/
theorem C72_residuals (x : ∀ r, Matrix n (A r) ℝ) (yend : ∀ r, Matrix n (B r) ℝ) (q : ∀ r, Matrix n (Q r) ℝ)
    (y : R → n → ℝ) (f : Fit3 n R fun r => A r ⊕ B r) (h : baseThreeSLS x yend q y = some f) (r : R) (i : n) :
    f.bigE i r = y r i - (∑ a, x r i a * f.est.b r (.inl a) + ∑ b, yend r i b * f.est.b r (.inr b)) := by
  unfold baseThreeSLS at h
  simp only at h
  split at h
  · rw [Option.bind_eq_some_iff] at h
    obtain ⟨b2, hb2, h⟩ := h
    rw [Option.map_eq_some_iff] at h
    obtain ⟨e, he, rfl⟩ := h
    simp [surResids, mulVec, dotProduct, Fintype.sum_sum_type]
  · cases h

/-- C70: the degrees of freedom of the likelihood ratio test are the number of pairs of different equations. -/
theorem C70_lr_df (nobs neq : ℕ) (a b : ℝ) :
    (lrtest nobs neq a b).2 = (Finset.univ.filter fun p : Fin neq × Fin neq => p.1 < p.2).card := by
  have h1 : (lrtest nobs neq a b).2 = neq.choose 2 := by
    unfold lrtest; rw [Nat.choose_two_right]
  rw [h1]
  have h2 : (Finset.univ.filter fun p : Fin neq × Fin neq => p.1 < p.2).card
      = ∑ j : Fin neq, (j : ℕ) := by
    rw [Finset.card_filter, Fintype.sum_prod_type, Finset.sum_comm]
    refine Finset.sum_congr rfl fun j _ => ?_
    rw [← Finset.card_filter]
    have : (Finset.univ.filter fun i : Fin neq => i < j) = Finset.Iio j := by ext i; simp
    rw [this, Fin.card_Iio]
  rw [h2, Fin.sum_univ_eq_sum_range (fun j => j) neq, Finset.sum_range_id, Nat.choose_two_right]

/-- C40: `check_k` says exactly whether all equations have the same number of variables. -/
theorem C40_check_k (l : List ℕ) (b : Bool) (h : checkK l = .ok b) :
    b = true ↔ ∀ i ∈ l, ∀ j ∈ l, i = j := by
  cases l with
  | nil => cases h
  | cons k t =>
    injection h with h
    rw [← h, List.all_eq_true]
    simp only [beq_iff_eq]
    constructor
    · intro hh i hi j hj; rw [← hh i hi, ← hh j hj]
    · intro hh c hc; exact hh k (by simp) c hc

example : checkK [3, 3, 2] = .ok false := rfl

/-- C40: `filter_dict` returns `Z - lambda_r * WZ` for every equation and raises when the numbers of equations differ. -/
theorem C40_filter_dict (lam : List ℚ) (Z Zlag : List (List ℚ)) :
    (Z.length = lam.length ∧ Zlag.length = lam.length → ∃ F, filterDict lam Z Zlag = .ok F ∧ F.length = lam.length ∧
      ∀ r < lam.length, ∀ i < (Z.getD r []).length, (Z.getD r []).length = (Zlag.getD r []).length →
        (F.getD r []).getD i 0 = (Z.getD r []).getD i 0 - lam.getD r 0 * (Zlag.getD r []).getD i 0) ∧
    (¬ (Z.length = lam.length ∧ Zlag.length = lam.length) → filterDict lam Z Zlag = .error .exception) := by
  constructor
  · rintro ⟨h1, h2⟩
    unfold filterDict
    rw [if_pos ⟨h1, h2⟩]
    refine ⟨_, rfl, by simp [h1, h2], ?_⟩
    intro r hr i hi hl
    have hr1 : r < Z.length := by omega
    have hr2 : r < Zlag.length := by omega
    rw [List.getD_eq_getElem _ _ hr1] at hi hl ⊢
    rw [List.getD_eq_getElem _ _ hr2] at hl ⊢
    have hrz : r < ((lam.zip (Z.zip Zlag)).map fun p => (p.2.1.zip p.2.2).map fun q => q.1 - p.1 * q.2).length := by
      simp [h1, h2, hr]
    rw [List.getD_eq_getElem _ _ hrz, List.getElem_map, List.getElem_zip, List.getElem_zip]
    have hi2 : i < (Zlag[r]).length := by omega
    have hiz : i < ((Z[r].zip Zlag[r]).map fun q => q.1 - lam[r] * q.2).length := by simp [hi, hi2]
    rw [List.getD_eq_getElem _ _ hiz, List.getElem_map, List.getElem_zip, List.getD_eq_getElem _ _ hi,
      List.getD_eq_getElem _ _ hi2, List.getD_eq_getElem _ _ hr]
  · intro h
    unfold filterDict
    rw [if_neg h]

end Spreg.SUR
