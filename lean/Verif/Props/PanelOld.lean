import Verif.Props.PanelMLEx
import Verif.Props.PanelML4
import Verif.Model.PanelOld
/-
C151: the deprecated classes Panel_FE_Lag, Panel_FE_Error, Panel_RE_Lag, Panel_RE_Error and their successors ML_LagFE,
ML_ErrorFE, ML_LagRE, ML_ErrorRE.
-/
namespace Spreg.PanelML
open Matrix Spreg.Lin Spreg.ML Spreg.Gauss

variable {τ n k : Type} [Fintype τ] [Fintype n] [Fintype k] [DecidableEq τ] [DecidableEq n] [DecidableEq k]

/-- For symmetric weights both square roots (of the objective and of the final step of ML_ErrorRE) are roots of the inverse
covariance of the means. -/
theorem re_roots [Nonempty τ] (W : Matrix n n ℝ) (ev : n → ℝ)
    (E : Matrix n n ℝ) (d : n → ℝ) (U : Matrix n n ℝ) (lam phi0 : ℝ)
    (hE : Eᵀ * E = 1) (hW : W = E * diagonal ev * Eᵀ) (hlam : ∀ i, 0 < 1 - lam * ev i)
    (hU : Uᵀ * U = 1) (hd : omegaBetween τ W lam (phi0 ^ 2) = U * diagonal d * Uᵀ) :
    IsUnit (1 - lam • W).det ∧ omegaBetween τ W lam (phi0 ^ 2) * ((objP τ ev E lam phi0)ᵀ * objP τ ev E lam phi0) = 1 ∧
    omegaBetween τ W lam (phi0 ^ 2) * ((U * (diagonal (fun i => (Real.sqrt (d i))⁻¹) * Uᵀ))ᵀ *
      (U * (diagonal (fun i => (Real.sqrt (d i))⁻¹) * Uᵀ))) = 1 := by
  have hB : 1 - lam • W = E * diagonal (fun i => 1 - lam * ev i) * Eᵀ := by
    have : diagonal (fun i => 1 - lam * ev i) = diagonal (fun _ => (1 : ℝ)) - lam • diagonal ev := by
      ext i j; by_cases hij : i = j <;> simp [hij]
    rw [this, Matrix.mul_sub, Matrix.sub_mul, cj_one E hE, Matrix.mul_smul, Matrix.smul_mul, hW]
  have hBt : (1 - lam • W)ᵀ = 1 - lam • W := by
    rw [hB, transpose_mul, transpose_mul, transpose_transpose, diagonal_transpose, Matrix.mul_assoc]
  have hdet : (1 - lam • W).det = ∏ i, (1 - lam * ev i) := by rw [hB, cj_det E hE]
  have hAu : IsUnit (1 - lam • W).det := by
    rw [hdet]; exact isUnit_iff_ne_zero.2 (Finset.prod_ne_zero_iff.2 fun i _ => (hlam i).ne')
  have hBi : ((1 - lam • W)ᵀ * (1 - lam • W))⁻¹ = E * diagonal (fun i => 1 / (1 - lam * ev i) ^ 2) * Eᵀ := by
    apply Matrix.inv_eq_right_inv
    rw [hBt, hB, cj_mul E hE, cj_mul E hE, ← cj_one E hE]
    congr 3
    funext i
    have := (hlam i).ne'
    field_simp
  let g : n → ℝ := fun i => Fintype.card τ * phi0 ^ 2 + 1 / (1 - lam * ev i) ^ 2
  have hg : ∀ i, 0 < g i := fun i => by
    have : 0 < 1 / (1 - lam * ev i) ^ 2 := by have := hlam i; positivity
    have : (0 : ℝ) ≤ Fintype.card τ * phi0 ^ 2 := by positivity
    simp only [g]; linarith
  have hO : omegaBetween τ W lam (phi0 ^ 2) = E * diagonal g * Eᵀ := by
    unfold omegaBetween
    rw [hBi, ← cj_one E hE, ← Matrix.smul_mul, ← Matrix.mul_smul, ← Matrix.add_mul, ← Matrix.mul_add]
    congr 2
    ext i j; by_cases hij : i = j <;> simp [hij, g]
  have hPP : (objP τ ev E lam phi0)ᵀ * objP τ ev E lam phi0 = E * diagonal (fun i => (g i)⁻¹) * Eᵀ := by
    unfold objP
    rw [transpose_mul, transpose_transpose, diagonal_transpose, Matrix.mul_assoc, ← Matrix.mul_assoc (diagonal _),
      diagonal_mul_diagonal, Matrix.mul_assoc]
    congr 3
    funext i
    rw [← mul_inv, Real.mul_self_sqrt (hg i).le]
  have hP : omegaBetween τ W lam (phi0 ^ 2) * ((objP τ ev E lam phi0)ᵀ * objP τ ev E lam phi0) = 1 := by
    rw [hPP, hO, cj_mul E hE, ← cj_one E hE]
    congr 3
    funext i
    exact mul_inv_cancel₀ (hg i).ne'
  have hdpos : ∀ i, 0 < d i := by
    intro i
    have e1 : diagonal d = (Eᵀ * U)ᵀ * diagonal g * (Eᵀ * U) := by
      rw [transpose_mul, transpose_transpose]
      calc diagonal d = (Uᵀ * U) * diagonal d * (Uᵀ * U) := by rw [hU, Matrix.one_mul, Matrix.mul_one]
        _ = Uᵀ * (U * diagonal d * Uᵀ) * U := by simp only [Matrix.mul_assoc]
        _ = Uᵀ * (E * diagonal g * Eᵀ) * U := by rw [← hd, hO]
        _ = _ := by simp only [Matrix.mul_assoc]
    have e2 : d i = ∑ j, g j * (Eᵀ * U) j i ^ 2 := by
      have := congrFun (congrFun e1 i) i
      rw [diagonal_apply_eq] at this
      rw [this, Matrix.mul_apply]
      refine Finset.sum_congr rfl fun j _ => ?_
      rw [mul_diagonal, transpose_apply]; ring
    have e3 : ∑ j, (Eᵀ * U) j i ^ 2 = 1 := by
      have : ((Eᵀ * U)ᵀ * (Eᵀ * U)) i i = 1 := by
        rw [transpose_mul, transpose_transpose, Matrix.mul_assoc, ← Matrix.mul_assoc E, mul_eq_one_comm.1 hE,
          Matrix.one_mul, hU, one_apply_eq]
      rw [← this, Matrix.mul_apply]
      exact Finset.sum_congr rfl fun j _ => by rw [transpose_apply, sq]
    rw [e2]
    obtain ⟨j, hj⟩ : ∃ j, (Eᵀ * U) j i ≠ 0 := by
      by_contra hc
      push Not at hc
      rw [Finset.sum_congr rfl fun j _ => by rw [hc j]] at e3
      simp at e3
    exact Finset.sum_pos' (fun j _ => mul_nonneg (hg j).le (sq_nonneg _)) ⟨j, Finset.mem_univ _, mul_pos (hg j) (by positivity)⟩
  have hP2 : omegaBetween τ W lam (phi0 ^ 2) * ((U * (diagonal (fun i => (Real.sqrt (d i))⁻¹) * Uᵀ))ᵀ *
      (U * (diagonal (fun i => (Real.sqrt (d i))⁻¹) * Uᵀ))) = 1 := by
    have et : (U * (diagonal (fun i => (Real.sqrt (d i))⁻¹) * Uᵀ))ᵀ = U * diagonal (fun i => (Real.sqrt (d i))⁻¹) * Uᵀ := by
      rw [transpose_mul, transpose_mul, transpose_transpose, diagonal_transpose]
    rw [et, ← Matrix.mul_assoc U, cj_mul U hU, hd, cj_mul U hU, ← cj_one U hU]
    congr 3
    funext i
    have hdi := hdpos i
    rw [← mul_inv, Real.mul_self_sqrt hdi.le, mul_inv_cancel₀ hdi.ne']
  exact ⟨hAu, hP, hP2⟩

/-! ### Objectives: the same up to a constant -/

/-- **C151** (what is optimised, fixed effects): the objective of Panel_FE_Lag is that of ML_LagFE plus a constant. -/
theorem C151_lagFE_objective (W : Matrix n n ℝ) (p : LagPre (τ × n) k) (rho : ℝ) (h : p.e0 - rho • p.e1 ≠ 0) :
    lagObjOld W p rho = lagObj W p rho + NT τ n / 2 * Real.log (NT τ n) := by
  have h2 : (p.e0 - rho • p.e1) ⬝ᵥ (p.e0 - rho • p.e1) ≠ 0 := by
    rw [← utu_eq_dot]; exact fun e => h ((utu_eq_zero _).1 e)
  have h3 : NT τ n ≠ 0 := by
    rw [← card_prod]
    intro e
    have h0 : Fintype.card (τ × n) = 0 := by exact_mod_cast e
    haveI := Fintype.card_eq_zero_iff.1 h0
    exact h (Subsingleton.elim _ _)
  unfold lagObjOld lagObj
  have h4 : (Fintype.card n : ℝ) * Fintype.card τ = NT τ n := rfl
  dsimp only
  rw [h4, Real.log_div h2 h3]
  ring

/-- **C151** (what is optimised, random effects): the objective of Panel_RE_Error is that of ML_ErrorRE plus a constant, for the
same eigenvalues and eigenvectors. -/
theorem C151_errRE_objective (y : τ × n → ℝ) (x : Matrix (τ × n) k ℝ) (W : Matrix n n ℝ) (ev : n → ℝ) (E : Matrix n n ℝ)
    (lam phi : ℝ)
    (h : ∀ c : k → ℝ, reTrans τ W (objP τ ev E lam phi) lam *ᵥ y ≠ (reTrans τ W (objP τ ev E lam phi) lam * x) *ᵥ c) :
    errREObjOld y x W ev E lam phi = (errREObj y x W ev E lam phi).map (· + NT τ n / 2 * Real.log (NT τ n)) := by
  unfold errREObjOld errREObj
  dsimp only
  rw [Option.map_map]
  set A := reTrans τ W (objP τ ev E lam phi) lam
  cases hB : inv? ((A * x)ᵀ * (A * x)) with
  | none => rw [Option.map_none, Option.map_none]
  | some B =>
    obtain ⟨hu, rfl, -⟩ := inv?_eq_some hB
    rw [Option.map_some, Option.map_some]
    congr 1
    have hne : (olsWith (A * x) (A *ᵥ y) ((A * x)ᵀ * (A * x))⁻¹).u ≠ 0 := fun e => h _ (sub_eq_zero.1 e)
    have h2 : utu (olsWith (A * x) (A *ᵥ y) ((A * x)ᵀ * (A * x))⁻¹).u ≠ 0 := fun e => hne ((utu_eq_zero _).1 e)
    have h3 : NT τ n ≠ 0 := by
      rw [← card_prod]
      intro e
      have h0 : Fintype.card (τ × n) = 0 := by exact_mod_cast e
      haveI := Fintype.card_eq_zero_iff.1 h0
      exact hne (Subsingleton.elim _ _)
    have h4 : (Fintype.card n : ℝ) * Fintype.card τ = NT τ n := rfl
    simp only [Function.comp_apply]
    rw [errSS_eq _ _ hu, h4, Real.log_div h2 h3]
    ring

/-! ### Estimates -/

/-- **C151** (fixed effects): at the same value of the parameter the deprecated and the new class return the same coefficients,
residuals, predictions, variances, and exist for the same data. -/
theorem C151_FE (y : τ × n → ℝ) (x : Matrix (τ × n) k ℝ) (W : Matrix n n ℝ) (p : ℝ) :
    (lagFEOld y x W p).map (fun f => (f.b, f.rho, f.u, f.predy, f.sig2)) =
      (lagFE y x W p).map (fun f => (f.b, f.rho, f.u, f.predy, f.sig2)) ∧
    (errFE false y x W p).map (fun f => (f.b, f.lam, f.u, f.predy, f.eFiltered, f.sig2, f.varb)) =
      (errFE true y x W p).map (fun f => (f.b, f.lam, f.u, f.predy, f.eFiltered, f.sig2, f.varb)) ∧
    (errFE false y x W p).bind (errFEVm W) = (errFE true y x W p).bind (errFEVm W) := by
  refine ⟨?_, ?_, ?_⟩
  · unfold lagFEOld lagFE; rw [Option.map_map, Option.map_map]; rfl
  · unfold errFE; rw [Option.map_map, Option.map_map]; rfl
  · unfold errFE
    dsimp only
    cases inv? ((quasi τ n 0 * x - p • (bigW τ W * (quasi τ n 0 * x)))ᵀ * (quasi τ n 0 * x - p • (bigW τ W * (quasi τ n 0 * x)))) with
    | none => rfl
    | some B => rfl

/-- **C151** (random effects, lag): with the same optimiser the deprecated and the new class make the same passes and return the
same coefficients, residuals, predictions and variances, and exist for the same data. -/
theorem C151_lagRE (optPhi : ℝ → (k → ℝ) → ℝ) (optRho : LagPre (τ × n) k → ℝ)
    (y : τ × n → ℝ) (x : Matrix (τ × n) k ℝ) (W : Matrix n n ℝ) :
    (lagREFullOld optPhi optRho y x W).map (fun f => (f.1.b, f.1.rho, f.1.phi, f.1.u, f.1.predy, f.1.sig2, f.2)) =
      (lagREFull optPhi optRho y x W).map (fun f => (f.1.b, f.1.rho, f.1.phi, f.1.u, f.1.predy, f.1.sig2, f.2)) := by
  unfold lagREFullOld lagREFull
  cases ols x y with
  | none => rfl
  | some o =>
    rw [Option.bind_some, Option.bind_some]
    cases reLoop optPhi optRho y x W 100 1 ⟨1 / 10, 1 / 10, o.betas⟩ with
    | none => rfl
    | some q =>
      rw [Option.bind_some, Option.bind_some]
      unfold lagREOld lagRE
      cases rePre y x W q.1.phi with
      | none => rfl
      | some p => rfl

/-- **C151** (random effects, error), partial: for symmetric weights that symmetrising leaves alone, at the same values of the
parameters Panel_RE_Error and ML_ErrorRE return the same coefficients, residuals, predictions, variances and information matrix, and
exist for the same data; the log-likelihoods differ by a constant. Missing: other weights (`C151_weights_violated`). -/
theorem C151_errRE_partial [Nonempty τ] (y : τ × n → ℝ) (x : Matrix (τ × n) k ℝ) (W : Matrix n n ℝ) (ev : n → ℝ)
    (E : Matrix n n ℝ) (d : n → ℝ) (U : Matrix n n ℝ) (lam phi : ℝ) (hphi : 0 ≤ phi)
    (hE : Eᵀ * E = 1) (hW : W = E * diagonal ev * Eᵀ) (hlam : ∀ i, 0 < 1 - lam * ev i)
    (hU : Uᵀ * U = 1) (hd : omegaBetween τ W lam (phi ^ 2) = U * diagonal d * Uᵀ) :
    ((errREOld y x W W ev E lam phi).isSome ↔ (errRE y x W ev E d U lam phi).isSome) ∧
    ∀ f g, errREOld y x W W ev E lam phi = some g → errRE y x W ev E d U lam phi = some f →
      g.b = f.b ∧ g.lam = f.lam ∧ g.u = f.u ∧ g.predy = f.predy ∧ g.sig2 = f.sig2 ∧ g.varb = f.varb ∧
      oldSig2u g = newSig2u f ∧ errREOldInfo W g = errREFitInfo W f ∧
      (f.eFiltered ≠ 0 → g.logll = f.logll - NT τ n / 2 * Real.log (NT τ n)) := by
  obtain ⟨hAu, hP, hP2⟩ := re_roots (τ := τ) W ev E d U lam phi hE hW hlam hU hd
  set Po := objP τ ev E lam phi with hPo
  set P := U * (diagonal (fun i => (Real.sqrt (d i))⁻¹) * Uᵀ) with hPd
  set Ao := reTrans τ W Po lam with hAo
  set A := reTrans τ W P lam with hAd
  have hgram : Aᵀ * A = Aoᵀ * Ao := by
    have e : Pᵀ * P = Poᵀ * Po := by
      have h3 := Matrix.inv_eq_right_inv hP
      have h4 := Matrix.inv_eq_right_inv hP2
      rw [← h3, ← h4]
    rw [hAd, hAo, reTrans_eq, reTrans_eq, mix_transpose, mix_transpose, mix_mul, mix_mul, e]
  have hxx : (A * x)ᵀ * (A * x) = (Ao * x)ᵀ * (Ao * x) := by
    rw [transpose_mul A x, transpose_mul Ao x, Matrix.mul_assoc, ← Matrix.mul_assoc Aᵀ, hgram, Matrix.mul_assoc,
      Matrix.mul_assoc]
  have hxy : (A * x)ᵀ *ᵥ (A *ᵥ y) = (Ao * x)ᵀ *ᵥ (Ao *ᵥ y) := by
    rw [transpose_mul A x, transpose_mul Ao x, mulVec_mulVec _ _ A, mulVec_mulVec _ _ Ao, Matrix.mul_assoc, hgram,
      Matrix.mul_assoc]
  have hdot : ∀ v : τ × n → ℝ, (A *ᵥ v) ⬝ᵥ (A *ᵥ v) = (Ao *ᵥ v) ⬝ᵥ (Ao *ᵥ v) := by
    intro v
    have key : ∀ M : Matrix (τ × n) (τ × n) ℝ, (M *ᵥ v) ⬝ᵥ (M *ᵥ v) = v ⬝ᵥ ((Mᵀ * M) *ᵥ v) := by
      intro M
      rw [dotProduct_mulVec, ← mulVec_transpose, dotProduct_comm, mulVec_mulVec]
    rw [key, key, hgram]
  have hold : errREOld y x W W ev E lam phi = (errREObjOld y x W ev E lam phi).bind fun f =>
      (inv? ((Ao * x)ᵀ * (Ao * x))).map fun xsxsi =>
        let b := xsxsi *ᵥ ((Ao * x)ᵀ *ᵥ (Ao *ᵥ y))
        let ef := Ao *ᵥ y - (Ao * x) *ᵥ b
        let sig2 := (ef ⬝ᵥ ef) / NT τ n
        { b := b, lam := lam, phi := phi, u := y - x *ᵥ b, predy := y - (y - x *ᵥ b), eFiltered := ef, sig2 := sig2
          varb := sig2 • xsxsi, logll := addConst τ n f } := rfl
  have hnew : errRE y x W ev E d U lam phi = (errREObj y x W ev E lam phi).bind fun f =>
      (inv? ((A * x)ᵀ * (A * x))).map fun xsxsi =>
        let b := xsxsi *ᵥ ((A * x)ᵀ *ᵥ (A *ᵥ y))
        let ef := A *ᵥ y - (A * x) *ᵥ b
        let sig2 := (ef ⬝ᵥ ef) / NT τ n
        { b := b, lam := lam, phi := phi ^ 2, u := y - x *ᵥ b, predy := y - (y - x *ᵥ b), eFiltered := ef, sig2 := sig2
          varb := sig2 • xsxsi, logll := addConst τ n f } := rfl
  have hoo : errREObjOld y x W ev E lam phi = (inv? ((Ao * x)ᵀ * (Ao * x))).map fun xsxsi =>
      (Fintype.card n : ℝ) * Fintype.card τ / 2 * Real.log (errSS xsxsi (Ao * x) (Ao *ᵥ y)) +
        1 / 2 * ∑ i, Real.log (1 + Fintype.card τ * phi ^ 2 * (1 - lam * ev i) ^ 2) -
        Fintype.card τ * ∑ i, Real.log (1 - lam * ev i) := rfl
  have hno : errREObj y x W ev E lam phi = (inv? ((Ao * x)ᵀ * (Ao * x))).map fun xsxsi =>
      (Fintype.card n : ℝ) * Fintype.card τ / 2 * Real.log (errSS xsxsi (Ao * x) (Ao *ᵥ y) / (Fintype.card n * Fintype.card τ)) +
        1 / 2 * ∑ i, Real.log (1 + Fintype.card τ * phi ^ 2 * (1 - lam * ev i) ^ 2) -
        Fintype.card τ * ∑ i, Real.log (1 - lam * ev i) := rfl
  have hobj := C151_errRE_objective y x W ev E lam phi
  rw [← hPo, ← hAo] at hobj
  rw [hold, hnew, hxx, hxy]
  cases hB : inv? ((Ao * x)ᵀ * (Ao * x)) with
  | none =>
    rw [hB, Option.map_none] at hoo hno
    rw [hoo, hno, Option.bind_none, Option.bind_none]
    exact ⟨Iff.rfl, fun f g h => absurd h (by simp)⟩
  | some B =>
    rw [hB, Option.map_some] at hoo hno
    rw [hoo, hno, Option.bind_some, Option.bind_some, Option.map_some, Option.map_some]
    refine ⟨by simp, fun f g hg hf => ?_⟩
    obtain rfl := Option.some.inj hg
    obtain rfl := Option.some.inj hf
    dsimp only
    have hs : ∀ b : k → ℝ, (A *ᵥ y - (A * x) *ᵥ b) ⬝ᵥ (A *ᵥ y - (A * x) *ᵥ b) =
        (Ao *ᵥ y - (Ao * x) *ᵥ b) ⬝ᵥ (Ao *ᵥ y - (Ao * x) *ᵥ b) := fun b => by
      rw [← mulVec_mulVec b A x, ← mulVec_mulVec b Ao x, ← mulVec_sub, ← mulVec_sub, hdot]
    refine ⟨rfl, rfl, rfl, rfl, by rw [hs], by rw [hs], ?_, ?_, fun hne => ?_⟩
    · unfold oldSig2u newSig2u; dsimp only; rw [hs]
    · unfold errREOldInfo errREFitInfo; dsimp only; rw [hs, Real.sqrt_sq hphi]
    · have hc : ∀ c : k → ℝ, Ao *ᵥ y ≠ (Ao * x) *ᵥ c := by
        intro c hc
        obtain ⟨hu, rfl, -⟩ := inv?_eq_some hB
        apply hne
        have h0 : (A *ᵥ y - (A * x) *ᵥ (((Ao * x)ᵀ * (Ao * x))⁻¹ *ᵥ ((Ao * x)ᵀ *ᵥ (Ao *ᵥ y)))) ⬝ᵥ
            (A *ᵥ y - (A * x) *ᵥ (((Ao * x)ᵀ * (Ao * x))⁻¹ *ᵥ ((Ao * x)ᵀ *ᵥ (Ao *ᵥ y)))) = 0 := by
          rw [hs, hc, mulVec_mulVec _ (Ao * x)ᵀ (Ao * x), mulVec_mulVec _ _ ((Ao * x)ᵀ * (Ao * x)), nonsing_inv_mul _ hu,
            one_mulVec, sub_self, dotProduct_zero]
        exact dotProduct_self_eq_zero.1 h0
      have := hobj hc
      rw [hoo, hno, Option.map_some] at this
      have := Option.some.inj this
      rw [this]
      unfold addConst
      ring

/-- The hypotheses of `C151_errRE_partial` are met: two neighbours, two periods; symmetrising leaves their weights alone. -/
example : symmetrize exW = exW ∧ ∃ f d, exEᵀ * exE = 1 ∧ exW = exE * diagonal ![1, -1] * exEᵀ ∧
    (∀ i, 0 < 1 - (1 / 2 : ℝ) * (![1, -1] : Fin 2 → ℝ) i) ∧
    omegaBetween (Fin 2) exW (1 / 2) (1 ^ 2) = exE * diagonal d * exEᵀ ∧
    errRE exY exX exW ![1, -1] exE d exE (1 / 2) 1 = some f ∧ f.eFiltered ≠ 0 := by
  refine ⟨?_, ex_errRE⟩
  unfold symmetrize
  ext i j
  simp only [mul_diagonal, diagonal_mul, rowStd, binary, Matrix.of_apply, Fin.sum_univ_two]
  fin_cases i <;> fin_cases j <;> simp [exW]

/-! ### Weights that symmetrising changes -/

/-- Two neighbours with weight one half. -/
noncomputable def halfW : Matrix (Fin 2) (Fin 2) ℝ := !![0, 1/2; 1/2, 0]
/-- A regressor that is one for the first unit. -/
def halfX : Matrix (Fin 2 × Fin 2) Unit ℝ := Matrix.of fun a _ => (![1, 0] : Fin 2 → ℝ) a.2
/-- A variable that is one for the second unit. -/
def halfY : Fin 2 × Fin 2 → ℝ := fun a => (![0, 1] : Fin 2 → ℝ) a.2

theorem half_symm : oldREW halfW .o = exW := by
  have hb : binary halfW = exW := by
    ext i j
    fin_cases i <;> fin_cases j <;> simp [binary, halfW, exW]
  have hp : patternSymm halfW := by
    unfold patternSymm
    rw [hb]
    ext i j
    fin_cases i <;> fin_cases j <;> simp [exW]
  rw [oldREW, if_pos hp]
  unfold symmetrize
  rw [hb]
  ext i j
  simp only [mul_diagonal, diagonal_mul, rowStd, Matrix.of_apply, Fin.sum_univ_two]
  fin_cases i <;> fin_cases j <;> simp [exW, halfW]

theorem gram_unit2 (v w : Fin 2 → ℝ) :
    (Matrix.of fun (a : Fin 2 × Fin 2) (_ : Unit) => v a.2)ᵀ * (Matrix.of fun (a : Fin 2 × Fin 2) (_ : Unit) => w a.2) =
      Matrix.of fun _ _ => 2 * (v ⬝ᵥ w) := by
  ext i j
  simp only [Matrix.mul_apply, transpose_apply, of_apply, Fintype.sum_prod_type, dotProduct, Fin.sum_univ_two]
  ring

theorem gram_unit_vec2 (v w : Fin 2 → ℝ) :
    (Matrix.of fun (a : Fin 2 × Fin 2) (_ : Unit) => v a.2)ᵀ *ᵥ (fun a => w a.2) = fun _ => 2 * (v ⬝ᵥ w) := by
  ext i
  simp only [mulVec, dotProduct, transpose_apply, of_apply, Fintype.sum_prod_type, Fin.sum_univ_two]
  ring

theorem ex_half : (Real.sqrt 2)⁻¹ * (Real.sqrt 2)⁻¹ = 1 / 2 := by
  rw [← mul_inv, Real.mul_self_sqrt (by norm_num)]; norm_num

theorem ex_cj (a b : ℝ) : exE * diagonal ![a, b] * exEᵀ = !![(a + b) / 2, (a - b) / 2; (a - b) / 2, (a + b) / 2] := by
  ext i j
  rw [Matrix.mul_apply, Fin.sum_univ_two, mul_diagonal, mul_diagonal]
  fin_cases i <;> fin_cases j <;> simp [exE] <;>
    first | linear_combination (a + b) * ex_half | linear_combination (a - b) * ex_half

theorem ex_orth : exEᵀ * exE = 1 := by
  ext i j
  rw [Matrix.mul_apply, Fin.sum_univ_two]
  fin_cases i <;> fin_cases j <;> simp [exE, ex_half] <;> norm_num

/-- `A x` and `A y` for data that are the same in both periods, and the coefficient. -/
theorem half_trans (W P : Matrix (Fin 2) (Fin 2) ℝ) (lam : ℝ) :
    reTrans (Fin 2) W P lam * halfX = (Matrix.of fun a _ => (P *ᵥ ![1, 0]) a.2) ∧
    reTrans (Fin 2) W P lam *ᵥ halfY = fun a => (P *ᵥ ![0, 1]) a.2 := by
  rw [reTrans_eq]
  exact ⟨mix_unit_mul P _ _, mix_unit P _ _⟩

theorem half_P (a b : ℝ) (ha : 0 < 1 - 1 / 2 * a) (hb : 0 < 1 - 1 / 2 * b) :
    objP (Fin 2) ![a, b] exE (1 / 2) 0 = diagonal ![1 - 1 / 2 * a, 1 - 1 / 2 * b] * exEᵀ := by
  have key : ∀ c : ℝ, 0 < 1 - 1 / 2 * c → (Real.sqrt ((Fintype.card (Fin 2) : ℝ) * 0 ^ 2 + 1 / (1 - 1 / 2 * c) ^ 2))⁻¹ = 1 - 1 / 2 * c := by
    intro c hc
    rw [show (Fintype.card (Fin 2) : ℝ) * 0 ^ 2 + 1 / (1 - 1 / 2 * c) ^ 2 = ((1 - 1 / 2 * c)⁻¹) ^ 2 by
      rw [inv_pow]; ring, Real.sqrt_sq (inv_pos.2 hc).le, inv_inv]
  unfold objP
  congr 2
  funext i
  fin_cases i
  · exact key a ha
  · exact key b hb

/-- C151 fails for other weights: for two neighbours with weight one half, lambda = 1/2 and no random effects, Panel_RE_Error and
ML_ErrorRE return different coefficients. Panel_RE_Error's last step uses the symmetrised (row-standardised) weights next to the
given ones. -/
theorem C151_weights_violated :
    exEᵀ * exE = 1 ∧ oldREW halfW .o = exE * diagonal ![1, -1] * exEᵀ ∧ halfW = exE * diagonal ![1 / 2, -1 / 2] * exEᵀ ∧
    omegaBetween (Fin 2) halfW (1 / 2) (0 ^ 2) = exE * diagonal ![16 / 9, 16 / 25] * exEᵀ ∧
    ∃ f g, errREOld halfY halfX halfW (oldREW halfW .o) ![1, -1] exE (1 / 2) 0 = some g ∧
      errRE halfY halfX halfW ![1 / 2, -1 / 2] exE ![16 / 9, 16 / 25] exE (1 / 2) 0 = some f ∧ g.b ≠ f.b := by
  have hO : omegaBetween (Fin 2) halfW (1 / 2) (0 ^ 2) = exE * diagonal ![16 / 9, 16 / 25] * exEᵀ := by
    unfold omegaBetween
    rw [ex_cj]
    have hB : (1 - (1 / 2 : ℝ) • halfW)ᵀ * (1 - (1 / 2 : ℝ) • halfW) = !![17/16, -1/2; -1/2, 17/16] := by
      ext i j
      rw [Matrix.mul_apply, Fin.sum_univ_two]
      fin_cases i <;> fin_cases j <;> simp [halfW] <;> norm_num
    rw [hB, show (Fintype.card (Fin 2) : ℝ) * 0 ^ 2 = 0 by norm_num, zero_smul, zero_add]
    apply Matrix.inv_eq_right_inv
    ext i j; fin_cases i <;> fin_cases j <;> simp [Matrix.mul_apply, Fin.sum_univ_two] <;> norm_num
  have hs : (0 : ℝ) < (Real.sqrt 2)⁻¹ := inv_pos.2 (Real.sqrt_pos.2 (by norm_num))
  have hs1 : (Real.sqrt 2)⁻¹ < 1 := by nlinarith [ex_half]
  have hPn : exE * (diagonal (fun i => (Real.sqrt ((![16 / 9, 16 / 25] : Fin 2 → ℝ) i))⁻¹) * exEᵀ) = !![1, -1/4; -1/4, 1] := by
    have h1 : (fun i => (Real.sqrt ((![16 / 9, 16 / 25] : Fin 2 → ℝ) i))⁻¹) = ![3/4, 5/4] := by
      have e1 : Real.sqrt (16 / 9) = 4 / 3 := by
        rw [show (16 / 9 : ℝ) = (4 / 3) ^ 2 by norm_num]; exact Real.sqrt_sq (by norm_num)
      have e2 : Real.sqrt (16 / 25) = 4 / 5 := by
        rw [show (16 / 25 : ℝ) = (4 / 5) ^ 2 by norm_num]; exact Real.sqrt_sq (by norm_num)
      funext i
      fin_cases i
      · show (Real.sqrt (16 / 9))⁻¹ = 3 / 4
        rw [e1]; norm_num
      · show (Real.sqrt (16 / 25))⁻¹ = 5 / 4
        rw [e2]; norm_num
    rw [h1, ← Matrix.mul_assoc, ex_cj]
    ext i j; fin_cases i <;> fin_cases j <;> norm_num
  refine ⟨ex_orth, ?_, ?_, hO, ?_⟩
  · rw [half_symm, ex_cj]; ext i j; fin_cases i <;> fin_cases j <;> simp [exW]
  · rw [ex_cj]; ext i j; fin_cases i <;> fin_cases j <;> simp [halfW] <;> norm_num
  set s := (Real.sqrt 2)⁻¹ with hsd
  have hP1 := half_P 1 (-1) (by norm_num) (by norm_num)
  have hP2 := half_P (1 / 2) (-1 / 2) (by norm_num) (by norm_num)
  have hv : ∀ a b : ℝ, (diagonal ![a, b] * exEᵀ) *ᵥ ![1, 0] = ![a * s, b * s] := by
    intro a b
    funext i
    rw [← mulVec_mulVec, mulVec_diagonal]
    fin_cases i <;> simp [exE, mulVec, dotProduct, Fin.sum_univ_two, hsd]
  have hw : ∀ a b : ℝ, (diagonal ![a, b] * exEᵀ) *ᵥ ![0, 1] = ![a * s, -(b * s)] := by
    intro a b
    funext i
    rw [← mulVec_mulVec, mulVec_diagonal]
    fin_cases i <;> simp [exE, mulVec, dotProduct, Fin.sum_univ_two, hsd]
  have hold : (1 : Matrix (Fin 2 × Fin 2) (Fin 2 × Fin 2) ℝ) +
      tileMean (Fin 2) (objP (Fin 2) ![1, -1] exE (1 / 2) 0 - (1 - (1 / 2 : ℝ) • oldREW halfW .o)) - (1 / 2 : ℝ) • bigW (Fin 2) halfW =
      reTrans (Fin 2) halfW (objP (Fin 2) ![1, -1] exE (1 / 2) 0 + (1 / 2 : ℝ) • (exW - halfW)) (1 / 2) := by
    unfold reTrans
    rw [half_symm]
    congr 3
    ext i j
    simp only [Matrix.sub_apply, Matrix.add_apply, Matrix.smul_apply, smul_eq_mul]
    ring
  have hd : ∀ i : Fin 2, (((1 / 2 : ℝ) • (exW - halfW)) *ᵥ ![1, 0]) i = (![0, 1/4] : Fin 2 → ℝ) i := by
    intro i
    fin_cases i <;> simp [exW, halfW, mulVec, dotProduct, Fin.sum_univ_two] <;> norm_num
  have hd2 : ∀ i : Fin 2, (((1 / 2 : ℝ) • (exW - halfW)) *ᵥ ![0, 1]) i = (![1/4, 0] : Fin 2 → ℝ) i := by
    intro i
    fin_cases i <;> simp [exW, halfW, mulVec, dotProduct, Fin.sum_univ_two] <;> norm_num
  have hQ1 : (objP (Fin 2) ![1, -1] exE (1 / 2) 0 + (1 / 2 : ℝ) • (exW - halfW)) *ᵥ ![1, 0] = ![1/2 * s, 3/2 * s + 1/4] := by
    rw [add_mulVec, hP1, hv]
    funext i
    rw [Pi.add_apply, hd]
    fin_cases i <;> simp <;> norm_num
  have hQ2 : (objP (Fin 2) ![1, -1] exE (1 / 2) 0 + (1 / 2 : ℝ) • (exW - halfW)) *ᵥ ![0, 1] = ![1/2 * s + 1/4, -(3/2 * s)] := by
    rw [add_mulVec, hP1, hw]
    funext i
    rw [Pi.add_apply, hd2]
    fin_cases i <;> simp <;> norm_num
  have hN1 : (!![1, -1/4; -1/4, 1] : Matrix (Fin 2) (Fin 2) ℝ) *ᵥ ![1, 0] = ![1, -1/4] := by
    funext i; fin_cases i <;> simp [mulVec, dotProduct, Fin.sum_univ_two]
  have hN2 : (!![1, -1/4; -1/4, 1] : Matrix (Fin 2) (Fin 2) ℝ) *ᵥ ![0, 1] = ![-1/4, 1] := by
    funext i; fin_cases i <;> simp [mulVec, dotProduct, Fin.sum_univ_two]
  unfold errREOld errRE errREObjOld errREObj
  dsimp only
  rw [hold, hPn]
  simp only [(half_trans _ _ _).1, (half_trans _ _ _).2, hQ1, hQ2, hN1, hN2]
  simp only [hP1, hP2, hv, hw, gram_unit2, gram_unit_vec2]
  rw [inv_unit _ ?_, inv_unit _ ?_, inv_unit _ ?_, inv_unit _ ?_]
  · simp only [Option.map_some, Option.bind_some]
    refine ⟨_, _, rfl, rfl, fun e => ?_⟩
    have := congrFun e ()
    simp only [mulVec, dotProduct, Fin.sum_univ_two, Matrix.of_apply, Finset.univ_unique, Finset.sum_singleton, cons_val_zero,
      cons_val_one] at this
    field_simp at this
    nlinarith [ex_half]
  all_goals
    simp only [dotProduct, Fin.sum_univ_two, cons_val_zero, cons_val_one]
    positivity

/-- C151 fails for the log-likelihood: whenever there is more than one observation, `logll` (and with it AIC and the Schwarz
criterion) of the deprecated fixed effects classes is smaller; that of the random effects lag class is larger. -/
theorem C151_logll_violated [Nonempty τ] [Nonempty n] (y : τ × n → ℝ) (x : Matrix (τ × n) k ℝ) (W : Matrix n n ℝ) (p : ℝ)
    (hNT : 1 < Fintype.card (τ × n)) :
    (∀ f g, lagFE y x W p = some f → lagFEOld y x W p = some g → f.u ≠ 0 → g.logll < f.logll) ∧
    (∀ f g, errFE true y x W p = some f → errFE false y x W p = some g → g.logll < f.logll) ∧
    (∀ phi f g, 0 < phi → phi < 1 → lagRE y x W phi p = some f → lagREOld y x W phi p = some g → f.logll < g.logll) := by
  obtain ⟨h1, h2⟩ := C95_deprecated_violated y x W p hNT
  exact ⟨fun f g hf hg hu => (h1 f g hf hg hu).2, fun f g hf hg => (h2 f g hf hg).2,
    fun phi f g h0 h1 hf hg => (C96_deprecated_violated y x W phi p f g hf hg h0 h1).2⟩

end Spreg.PanelML
