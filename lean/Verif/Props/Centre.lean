import Verif.Spec.Centre
import Verif.Props.GMOptim
import Verif.Props.MLEquiv
import Verif.Props.PanelGLS3
import Verif.Model.SUR
import Verif.Props.ExactSize
/-
Under errors that are as likely as their opposites the estimators of spatial error models, of seemingly unrelated regressions and of random
effects are centred at the true coefficients (C175).
-/
set_option linter.unusedSectionVars false
namespace Spreg.Centre
open Matrix MeasureTheory ProbabilityTheory Spreg Spreg.Lin Spreg.GM

/-- If opposite errors give estimates reflected at the truth and the same other results, the estimator is centred. -/
theorem centred_of {Ω κ α : Type} [MeasurableSpace Ω] [AddCommGroup Ω] [MeasurableNeg Ω] {P : Measure Ω} (hP : SymmetricErrors P)
    (est : Ω → Option ((κ → ℝ) × α)) (beta : κ → ℝ)
    (h : ∀ e, est (-e) = (est e).map fun f => (2 • beta - f.1, f.2)) : Centred P est beta := by
  have hP' : P.map (MeasurableEquiv.neg Ω) = P := hP
  constructor
  · intro S
    conv_lhs => rw [← hP', MeasurableEquiv.map_apply]
    congr 1
    ext e
    have hn : (MeasurableEquiv.neg Ω) e = -e := rfl
    simp only [Set.mem_preimage, Set.mem_ofPred_eq, hn, h]
    constructor
    · rintro ⟨f, hf, hs⟩
      obtain ⟨g, hg, rfl⟩ := Option.map_eq_some_iff.1 hf
      refine ⟨g, hg, ?_⟩
      convert hs using 2
      simp only [two_smul]; abel
    · rintro ⟨f, hf, hs⟩
      refine ⟨_, by rw [hf]; rfl, ?_⟩
      convert hs using 2
      simp only [two_smul]; abel
  · intro g j err herr _
    have h1 : ∫ e, err e ∂P = ∫ e, err (-e) ∂P := by
      conv_lhs => rw [← hP', integral_map_equiv]
      rfl
    have h2 : ∀ e, err (-e) = -err e := by
      intro e
      rw [herr, herr, h]
      cases est e with
      | none => simp
      | some f => simp; ring
    rw [integral_congr_ae (Filter.Eventually.of_forall h2), integral_neg] at h1
    linarith

variable {n k : Type} [Fintype n] [Fintype k] [DecidableEq n] [DecidableEq k]

/-- The change of data that turns `x beta + e` into `x beta - e`. -/
noncomputable def reflect (beta : k → ℝ) : Tr n n k where
  σ := Equiv.refl n
  T := 1
  Ti := 1
  c := -1
  d := 2 • beta
  hT := by simp
  hTi := by simp
  hc := by norm_num

theorem reflect_x (beta : k → ℝ) (x : Matrix n k ℝ) : (reflect (n := n) beta).x x = x := by
  unfold Tr.x reflect; simp
theorem reflect_w (beta : k → ℝ) (W : Matrix n n ℝ) : (reflect (n := n) beta).w W = W := by
  unfold Tr.w reflect; simp
theorem reflect_y (beta : k → ℝ) (x : Matrix n k ℝ) (e : n → ℝ) : (reflect (n := n) beta).y x (x *ᵥ beta + e) = x *ᵥ beta + -e := by
  funext i
  simp only [Tr.y, reflect, Equiv.refl_apply, Pi.add_apply, Pi.neg_apply, two_smul, mulVec_add]
  ring
theorem reflect_b (beta b : k → ℝ) : (reflect (n := n) beta).b b = 2 • beta - b := by
  simp only [Tr.b, reflect, one_mulVec]
  funext j; simp; ring
theorem reflect_v (beta : k → ℝ) (V : Matrix k k ℝ) : (reflect (n := n) beta).v V = V := by
  simp [Tr.v, reflect]

/-- **C175 (GM_Error).** -/
theorem C175_gm_error {P : Measure (n → ℝ)} (hP : SymmetricErrors P) (opt : Moments (Fin 3) (Fin 3) → ℝ) (W : Matrix n n ℝ) (x : Matrix n k ℝ)
    (beta : k → ℝ) :
    Centred P (fun e => (gmError opt W x (x *ᵥ beta + e)).map fun f => (f.betas, f.lam, f.sig2, f.vm)) beta := by
  refine centred_of hP _ _ fun e => ?_
  have hm : ∀ M : Moments (Fin 3) (Fin 3), Tr.mom3 ((reflect (n := n) beta).c ^ 2) M = M := fun M => by
    show Tr.mom3 ((-1 : ℝ) ^ 2) M = M
    rw [neg_one_sq]; simp [Tr.mom3]; rfl
  have h := C141_error (t := reflect (n := n) beta) (opt3 := opt) (fun M => by rw [hm]) W x (x *ᵥ beta + e)
  rw [reflect_x, reflect_w, reflect_y] at h
  rw [h, Option.map_map, Option.map_map]
  congr 1
  funext f
  simp only [Function.comp, Tr.fit1, reflect_b, reflect_v]
  simp [reflect]

theorem reflect_v2 (beta : k → ℝ) (V : Matrix (k ⊕ Unit) (k ⊕ Unit) ℝ) :
    ((reflect (n := n) beta).v2 V).toBlocks₁₁ = V.toBlocks₁₁ ∧ ((reflect (n := n) beta).v2 V).toBlocks₂₂ = V.toBlocks₂₂ := by
  have h : (reflect (n := n) beta).v2 V = fromBlocks V.toBlocks₁₁ (-V.toBlocks₁₂) (-V.toBlocks₂₁) V.toBlocks₂₂ := by
    conv_lhs => rw [← fromBlocks_toBlocks V]
    simp [Tr.v2, reflect, fromBlocks_multiply, fromBlocks_transpose]
  rw [h]
  exact ⟨toBlocks_fromBlocks₁₁ .., toBlocks_fromBlocks₂₂ ..⟩

/-- What is reported beside the coefficients by the iterated models: lambda, the variance matrix of the coefficients, the variance of lambda and the
number of iterations. -/
noncomputable def sides (f : IterFit n k) : (k → ℝ) × ℝ × Matrix k k ℝ × Matrix Unit Unit ℝ × ℕ :=
  (f.betas, f.lam, f.vm.toBlocks₁₁, f.vm.toBlocks₂₂, f.iteration)

theorem sides_reflect (beta : k → ℝ) (x : Matrix n k ℝ) (f : IterFit n k) :
    sides ((reflect (n := n) beta).fit x f) = (2 • beta - (sides f).1, (sides f).2) := by
  simp only [sides, Tr.fit, reflect_b, (reflect_v2 beta f.vm).1, (reflect_v2 beta f.vm).2]

theorem toOption_map {α β : Type} (f : α → β) (p : Py α) : (p.map f).toOption = p.toOption.map f := by cases p <;> rfl

/-- **C175 (GM_Error_Het).** -/
theorem C175_gm_het {P : Measure (n → ℝ)} (hP : SymmetricErrors P) (opt : Moments (Fin 2) (Fin 2) → Option (Matrix (Fin 2) (Fin 2) ℝ) → Py ℝ)
    (W : Matrix n n ℝ) (x : Matrix n k ℝ) (beta : k → ℝ) (maxIter : ℕ) (epsilon : ℝ) (step1c hardBound : Bool) :
    Centred P (fun e => (gmErrorHet opt W x (x *ᵥ beta + e) maxIter epsilon step1c hardBound).toOption.map sides) beta := by
  refine centred_of hP _ _ fun e => ?_
  have h := C141_error_het (t := reflect (n := n) beta) (opt := opt) (unitFree_one opt (by norm_num [reflect])) W x (x *ᵥ beta + e)
    maxIter epsilon step1c hardBound
  rw [reflect_x, reflect_w, reflect_y] at h
  rw [h, toOption_map, Option.map_map, Option.map_map]
  congr 1
  funext f
  simp only [Function.comp, sides_reflect]

/-- **C175 (GM_Error_Hom).** -/
theorem C175_gm_hom {P : Measure (n → ℝ)} (hP : SymmetricErrors P) (opt : Moments (Fin 2) (Fin 2) → Option (Matrix (Fin 2) (Fin 2) ℝ) → Py ℝ)
    (W : Matrix n n ℝ) (x : Matrix n k ℝ) (beta : k → ℝ) (maxIter : ℕ) (epsilon : ℝ) (a1 : String) :
    Centred P (fun e => (gmErrorHom opt W x (x *ᵥ beta + e) maxIter epsilon a1).toOption.map sides) beta := by
  refine centred_of hP _ _ fun e => ?_
  have h := C141_error_hom (t := reflect (n := n) beta) (opt := opt) (unitFree_one opt (by norm_num [reflect])) W x (x *ᵥ beta + e)
    maxIter epsilon a1
  rw [reflect_x, reflect_w, reflect_y] at h
  rw [h, toOption_map, Option.map_map, Option.map_map]
  congr 1
  funext f
  simp only [Function.comp, sides_reflect]

/-! ### Maximum likelihood -/

theorem errSig2_reflect (W : Matrix n n ℝ) (x : Matrix n k ℝ) (beta : k → ℝ) (e : n → ℝ) (lam : ℝ) (xi : Matrix k k ℝ)
    (h : inv? ((x - lam • (W * x))ᵀ * (x - lam • (W * x))) = some xi) (s : ℝ) (hs : s ^ 2 = 1) :
    ML.errSig2 xi (x - lam • (W * x)) (x *ᵥ beta + s • e - lam • (W *ᵥ (x *ᵥ beta + s • e))) =
      ML.errSig2 xi (x - lam • (W * x)) (e - lam • (W *ᵥ e)) := by
  obtain ⟨hu, rfl, -, -⟩ := inv?_eq_some h
  set xs := x - lam • (W * x) with hxs
  set es := e - lam • (W *ᵥ e) with hes
  have hy : x *ᵥ beta + s • e - lam • (W *ᵥ (x *ᵥ beta + s • e)) = xs *ᵥ beta + s • es := by
    rw [hxs, hes, sub_mulVec x, smul_mulVec, mulVec_add, mulVec_mulVec, mulVec_smul, smul_sub, smul_add, smul_comm s lam]
    abel
  rw [hy]
  unfold ML.errSig2
  simp only
  congr 1
  have h1 : xsᵀ *ᵥ (xs *ᵥ beta + s • es) = (xsᵀ * xs) *ᵥ beta + s • (xsᵀ *ᵥ es) := by
    rw [mulVec_add, mulVec_mulVec, mulVec_smul]
  have h2 : (xsᵀ * xs)⁻¹ *ᵥ ((xsᵀ * xs) *ᵥ beta + s • (xsᵀ *ᵥ es)) = beta + s • ((xsᵀ * xs)⁻¹ *ᵥ (xsᵀ *ᵥ es)) := by
    rw [mulVec_add, mulVec_mulVec, nonsing_inv_mul _ hu, one_mulVec, mulVec_smul]
  rw [h1, h2]
  set w := xsᵀ *ᵥ es with hw
  have h3 : xs *ᵥ beta ⬝ᵥ es = beta ⬝ᵥ w := by rw [hw, dotProduct_mulVec, vecMul_transpose]
  have h4 : es ⬝ᵥ xs *ᵥ beta = beta ⬝ᵥ w := by rw [dotProduct_comm, h3]
  have h5 : xs *ᵥ beta ⬝ᵥ xs *ᵥ beta = beta ⬝ᵥ ((xsᵀ * xs) *ᵥ beta) := by
    rw [← mulVec_mulVec, dotProduct_mulVec beta xsᵀ, vecMul_transpose]
  have h6 : ((xsᵀ * xs) *ᵥ beta) ⬝ᵥ ((xsᵀ * xs)⁻¹ *ᵥ w) = beta ⬝ᵥ w := by
    rw [dotProduct_comm, ← dotProduct_transpose_mulVec, transpose_mul, transpose_transpose, mulVec_mulVec, mul_nonsing_inv _ hu, one_mulVec]
  simp only [dotProduct_add, add_dotProduct, smul_dotProduct, dotProduct_smul, h3, h4, h5, h6, smul_eq_mul, dotProduct_comm _ beta]
  linear_combination (es ⬝ᵥ es - w ⬝ᵥ ((xsᵀ * xs)⁻¹ *ᵥ w)) * hs

theorem errObj_reflect (W : Matrix n n ℝ) (x : Matrix n k ℝ) (beta : k → ℝ) (e : n → ℝ) (jac : ℝ → ℝ) (s : ℝ) (hs : s ^ 2 = 1) :
    ML.errObj (x *ᵥ beta + s • e) x W jac = ML.errObj e x W jac := by
  funext lam
  unfold ML.errObj
  simp only
  rcases h : inv? ((x - lam • (W * x))ᵀ * (x - lam • (W * x))) with _ | xi
  · rfl
  · rw [Option.map_some, Option.map_some, errSig2_reflect W x beta e lam xi h s hs]

theorem errFit_reflect (W : Matrix n n ℝ) (x : Matrix n k ℝ) (beta : k → ℝ) (e : n → ℝ) (lam jac : ℝ) (s : ℝ) (hs : s ^ 2 = 1) :
    ML.errFit (x *ᵥ beta + s • e) x W lam jac = (ML.errFit e x W lam jac).map fun f =>
      { b := beta + s • f.b, lam := f.lam, xsxsi := f.xsxsi, u := s • f.u, predy := x *ᵥ beta + s • f.predy, eFiltered := s • f.eFiltered,
        sig2 := f.sig2, logll := f.logll } := by
  unfold ML.errFit
  simp only
  rcases h : inv? ((x - lam • (W * x))ᵀ * (x - lam • (W * x))) with _ | xi
  · rfl
  simp only [Option.map_some, errSig2_reflect W x beta e lam xi h s hs]
  obtain ⟨hu, rfl, -, -⟩ := inv?_eq_some h
  set xs := x - lam • (W * x) with hxs
  set es := e - lam • (W *ᵥ e) with hes
  have hy : x *ᵥ beta + s • e - lam • (W *ᵥ (x *ᵥ beta + s • e)) = xs *ᵥ beta + s • es := by
    rw [hxs, hes, sub_mulVec x, smul_mulVec, mulVec_add, mulVec_mulVec, mulVec_smul, smul_sub, smul_add, smul_comm s lam]
    abel
  have hb : (xsᵀ * xs)⁻¹ *ᵥ (xsᵀ *ᵥ (xs *ᵥ beta + s • es)) = beta + s • ((xsᵀ * xs)⁻¹ *ᵥ (xsᵀ *ᵥ es)) := by
    rw [mulVec_add, mulVec_mulVec, mulVec_add, mulVec_mulVec, nonsing_inv_mul _ hu, one_mulVec, mulVec_smul, mulVec_smul]
  rw [hy, hb]
  set b := (xsᵀ * xs)⁻¹ *ᵥ (xsᵀ *ᵥ es) with hbd
  have hu' : x *ᵥ beta + s • e - x *ᵥ (beta + s • b) = s • (e - x *ᵥ b) := by
    rw [mulVec_add, mulVec_smul, smul_sub]; abel
  have hp : x *ᵥ beta + s • e - s • (e - x *ᵥ b) = x *ᵥ beta + s • (e - (e - x *ᵥ b)) := by
    rw [smul_sub, smul_sub, smul_sub]; abel
  have hf : s • (e - x *ᵥ b) - lam • (W *ᵥ (s • (e - x *ᵥ b))) = s • (e - x *ᵥ b - lam • (W *ᵥ (e - x *ᵥ b))) := by
    rw [mulVec_smul, smul_sub s (e - x *ᵥ b), smul_comm s lam]
  have hd : ∀ v : n → ℝ, (s • v) ⬝ᵥ (s • v) = v ⬝ᵥ v := fun v => by
    rw [smul_dotProduct, dotProduct_smul, smul_eq_mul, smul_eq_mul, ← mul_assoc, ← sq, hs, one_mul]
  rw [hu', hp, hf, hd]

/-- **C175 (ML_Error).** The optimiser is any function of the objective that is minimised. -/
theorem C175_ml_error {P : Measure (n → ℝ)} (hP : SymmetricErrors P) (opt : (ℝ → Option ℝ) → ℝ) (jac : ℝ → ℝ) (W : Matrix n n ℝ)
    (x : Matrix n k ℝ) (beta : k → ℝ) :
    Centred P (fun e => let lam := opt (ML.errObj (x *ᵥ beta + e) x W jac)
      (ML.errFit (x *ᵥ beta + e) x W lam (jac lam)).bind fun f => (ML.mlErrVm W f).map fun V => (f.b, f.lam, f.sig2, f.logll, V)) beta := by
  refine centred_of hP _ _ fun e => ?_
  have h1 := fun (s : ℝ) (hs : s ^ 2 = 1) => errObj_reflect W x beta e jac s hs
  have h2 := fun (s : ℝ) (hs : s ^ 2 = 1) lam => errFit_reflect W x beta e lam (jac lam) s hs
  have a1 := h1 1 (by norm_num)
  have a2 := h1 (-1) (by norm_num)
  have b1 := h2 1 (by norm_num)
  have b2 := h2 (-1) (by norm_num)
  simp only [one_smul, neg_one_smul] at a1 a2 b1 b2
  simp only [a1, a2, b1, b2]
  cases ML.errFit e x W (opt (ML.errObj e x W jac)) (jac (opt (ML.errObj e x W jac))) with
  | none => rfl
  | some f =>
    simp only [Option.map_some, Option.bind_some, Option.map_map, ML.mlErrVm]
    congr 1
    funext V
    simp only [Function.comp, Prod.mk.injEq, and_true]
    rw [two_smul]; abel

/-! ### Seemingly unrelated regressions -/

section sur
open Spreg.SUR
variable {R : Type} [Fintype R] [DecidableEq R] {K : R → Type} [∀ r, Fintype (K r)] [∀ r, DecidableEq (K r)]

/-- `X beta + s e`, equation by equation. -/
def gen (X : ∀ r, Matrix n (K r) ℝ) (beta : ∀ r, K r → ℝ) (s : ℝ) (e : R → n → ℝ) : R → n → ℝ := fun r => X r *ᵥ beta r + s • e r

theorem resids_gen (X : ∀ r, Matrix n (K r) ℝ) (beta b : ∀ r, K r → ℝ) (s : ℝ) (e : R → n → ℝ) :
    surResids (gen X beta s e) X (fun r => beta r + s • b r) = s • surResids e X b := by
  ext i r
  simp only [surResids, gen, of_apply, mulVec_add, mulVec_smul, Pi.add_apply, Pi.smul_apply, smul_eq_mul, Matrix.smul_apply]
  ring

theorem sigOf_gen (E : Matrix n R ℝ) (s : ℝ) (hs : s ^ 2 = 1) : sigOf (s • E) = sigOf E := by
  unfold sigOf
  rw [transpose_smul, Matrix.smul_mul, Matrix.mul_smul, smul_smul s s, ← sq, hs, one_smul]

theorem surEst_gen (X : ∀ r, Matrix n (K r) ℝ) (beta : ∀ r, K r → ℝ) (s : ℝ) (hs : s ^ 2 = 1) (e : R → n → ℝ) (E : Matrix n R ℝ) :
    surEst (crossXX X) (crossXy X (gen X beta s e)) (s • E) =
      (surEst (crossXX X) (crossXy X e) E).map fun f => { b := fun r => beta r + s • f.b r, varb := f.varb, sig := f.sig } := by
  unfold surEst
  simp only [sigOf_gen E s hs]
  rcases inv? (sigOf E) with _ | sigi
  · rfl
  simp only [Option.bind_some]
  rcases h : inv? (Matrix.of fun p q : Stk K => crossXX X p.1 q.1 p.2 q.2 * sigi p.1 q.1) with _ | varb
  · simp only [of_apply] at h ⊢
    rw [h]; rfl
  simp only [of_apply] at h ⊢
  rw [h]
  simp only [Option.map_some, Option.some.injEq, Est.mk.injEq, and_true]
  obtain ⟨hu, -, -, hi⟩ := inv?_eq_some h
  have hv : (fun p : Stk K => ∑ t, sigi p.1 t * crossXy X (gen X beta s e) p.1 t p.2) =
      (Matrix.of fun p q : Stk K => crossXX X p.1 q.1 p.2 q.2 * sigi p.1 q.1) *ᵥ (fun q => beta q.1 q.2) +
        s • fun p : Stk K => ∑ t, sigi p.1 t * crossXy X e p.1 t p.2 := by
    funext p
    simp only [Pi.add_apply, Pi.smul_apply, smul_eq_mul, mulVec, dotProduct, of_apply, Finset.mul_sum]
    rw [Fintype.sum_sigma, ← Finset.sum_add_distrib]
    refine Finset.sum_congr rfl fun t _ => ?_
    have : crossXy X (gen X beta s e) p.1 t = crossXX X p.1 t *ᵥ beta t + s • crossXy X e p.1 t := by
      unfold crossXy crossXX gen
      rw [mulVec_add, mulVec_mulVec, mulVec_smul]
    rw [this]
    simp only [Pi.add_apply, Pi.smul_apply, smul_eq_mul, mulVec, dotProduct, mul_add, Finset.mul_sum]
    congr 1
    · exact Finset.sum_congr rfl fun j _ => by ring
    · ring
  rw [hv, mulVec_add, mulVec_mulVec, hi, one_mulVec, mulVec_smul]
  funext r i
  rfl

theorem eqByEq_gen (X : ∀ r, Matrix n (K r) ℝ) (beta : ∀ r, K r → ℝ) (s : ℝ) (e : R → n → ℝ) :
    eqByEq (crossXX X) (crossXy X (gen X beta s e)) = (eqByEq (crossXX X) (crossXy X e)).map fun b r => beta r + s • b r := by
  unfold eqByEq
  split_ifs with h
  · rw [Option.map_some]
    congr 1
    funext r
    unfold crossXy gen
    rw [mulVec_add, mulVec_mulVec, mulVec_smul, mulVec_add, mulVec_smul, mulVec_mulVec]
    change ((crossXX X r r)⁻¹ * crossXX X r r) *ᵥ beta r + _ = _
    rw [nonsing_inv_mul _ (h r), one_mulVec]
  · rfl

/-- What becomes of the state of the iterations. -/
def stGen (beta : ∀ r, K r → ℝ) (s : ℝ) (t : St n R K) : St n R K :=
  { est := { b := fun r => beta r + s • t.est.b r, varb := t.est.varb, sig := t.est.sig }, resids := s • t.resids, det0 := t.det0, det1 := t.det1,
    niter := t.niter }

theorem loop_gen (X : ∀ r, Matrix n (K r) ℝ) (beta : ∀ r, K r → ℝ) (s : ℝ) (hs : s ^ 2 = 1) (e : R → n → ℝ) (eps : ℝ) (m : ℕ) (t : St n R K) :
    surLoop X (gen X beta s e) eps m (stGen beta s t) = (surLoop X e eps m t).map (stGen beta s) := by
  induction hk : m + 1 - t.niter using Nat.strong_induction_on generalizing t with
  | _ k ih =>
    rw [surLoop.eq_def, surLoop.eq_def X e]
    by_cases h : |t.det1 - t.det0| > eps ∧ t.niter ≤ m
    · rw [if_pos h, if_pos (show |(stGen beta s t).det1 - (stGen beta s t).det0| > eps ∧ (stGen beta s t).niter ≤ m from h)]
      simp only [stGen]
      rw [surEst_gen X beta s hs]
      rcases surEst (crossXX X) (crossXy X e) t.resids with _ | f
      · rfl
      simp only [Option.map_some, Option.bind_some, resids_gen]
      exact ih _ (by simp only; omega) { est := f, resids := surResids e X f.b, det0 := t.det1, det1 := slogdet f.sig, niter := t.niter + 1 } rfl
    · rw [if_neg h, if_neg (show ¬(|(stGen beta s t).det1 - (stGen beta s t).det0| > eps ∧ (stGen beta s t).niter ≤ m) from h)]
      rfl

theorem start_gen (X : ∀ r, Matrix n (K r) ℝ) (beta : ∀ r, K r → ℝ) (s : ℝ) (hs : s ^ 2 = 1) (e : R → n → ℝ) :
    surStart X (gen X beta s e) = (surStart X e).map fun p => ((fun r => beta r + s • p.1 r), stGen beta s p.2) := by
  unfold surStart
  rw [eqByEq_gen]
  rcases eqByEq (crossXX X) (crossXy X e) with _ | b
  · rfl
  simp only [Option.map_some, Option.bind_some, resids_gen, surEst_gen X beta s hs]
  rcases surEst (crossXX X) (crossXy X e) (surResids e X b) with _ | f
  · rfl
  simp only [Option.map_some, resids_gen, stGen]

/-- The stacked coefficients and, beside them, their variance matrix, the covariance matrix of the errors, the log-likelihood and the number of
iterations. -/
def surSides (f : Fit n R K) : (Stk K → ℝ) × Matrix (Stk K) (Stk K) ℝ × Matrix R R ℝ × ℝ × ℕ :=
  ((fun p => f.est.b p.1 p.2), f.est.varb, f.est.sig, f.llik, f.niter)

theorem base_gen (X : ∀ r, Matrix n (K r) ℝ) (beta : ∀ r, K r → ℝ) (s : ℝ) (hs : s ^ 2 = 1) (e : R → n → ℝ) (iter : Bool) (m : ℕ) (eps : ℝ) :
    (baseSUR X (gen X beta s e) iter m eps).map surSides =
      (baseSUR X e iter m eps).map fun f => ((fun p => beta p.1 p.2 + s * (surSides f).1 p), (surSides f).2) := by
  unfold baseSUR
  rw [start_gen X beta s hs]
  rcases surStart X e with _ | ⟨b, t⟩
  · rfl
  simp only [Option.map_some, Option.bind_some]
  cases iter
  · rfl
  · simp only [if_true]
    rw [loop_gen X beta s hs]
    rcases surLoop X e eps m t with _ | t'
    · rfl
    · rfl

/-- **C175 (SUR).** The two-step and the iterated estimates. -/
theorem C175_sur {P : Measure (R → n → ℝ)} (hP : SymmetricErrors P) (X : ∀ r, Matrix n (K r) ℝ) (beta : ∀ r, K r → ℝ) (iter : Bool) (m : ℕ)
    (eps : ℝ) :
    Centred P (fun e => (baseSUR X (fun r => X r *ᵥ beta r + e r) iter m eps).map surSides) (fun p => beta p.1 p.2) := by
  refine centred_of hP _ _ fun e => ?_
  have h1 := base_gen X beta 1 (by norm_num) e iter m eps
  have h2 := base_gen X beta (-1) (by norm_num) e iter m eps
  have g1 : gen X beta 1 e = fun r => X r *ᵥ beta r + e r := by funext r; simp [gen]
  have g2 : gen X beta (-1) e = fun r => X r *ᵥ beta r + (-e) r := by funext r; simp [gen]
  rw [g1] at h1
  rw [g2] at h2
  rw [h1, h2, Option.map_map]
  congr 1
  funext f
  simp only [Function.comp, Prod.mk.injEq, and_true]
  funext p
  simp; ring

end sur

/-! ### Panels -/

theorem ols_gen (x : Matrix n k ℝ) (beta : k → ℝ) (s : ℝ) (e : n → ℝ) :
    ols x (x *ᵥ beta + s • e) = (ols x e).map fun o =>
      { xtx := o.xtx, xtxi := o.xtxi, betas := beta + s • o.betas, predy := x *ᵥ beta + s • o.predy, u := s • o.u } := by
  rcases h : ols x e with _ | o
  · rcases h' : ols x (x *ᵥ beta + s • e) with _ | o'
    · rfl
    · rw [ols_of_isUnit x e (ols_eq_some h').1] at h
      cases h
  obtain ⟨hu, rfl⟩ := ols_eq_some h
  rw [ols_of_isUnit _ _ hu, Option.map_some]
  congr 1
  have hb : (xᵀ * x)⁻¹ *ᵥ (xᵀ *ᵥ (x *ᵥ beta + s • e)) = beta + s • ((xᵀ * x)⁻¹ *ᵥ (xᵀ *ᵥ e)) := by
    rw [mulVec_add, mulVec_mulVec, mulVec_add, mulVec_mulVec, nonsing_inv_mul _ hu, one_mulVec, mulVec_smul, mulVec_smul]
  simp only [olsWith]
  rw [hb]
  simp only [OLSFit.mk.injEq, true_and, mulVec_add x, mulVec_smul x, smul_sub]
  abel

section panel
open Spreg.PanelGLS Spreg.PanelML
variable {τ : Type} [Fintype τ] [DecidableEq τ]

theorem kkpEntries_gen (first : Bool) (W : Matrix n n ℝ) (u : τ × n → ℝ) (s : ℝ) (hs : s ^ 2 = 1) :
    kkpEntries first W (s • u) = kkpEntries first W u := by
  have hQ : ∀ v : τ × n → ℝ, kkpQ first (s • v) = s • kkpQ first v := by
    intro v
    have ht : tile τ (unitMean (s • v)) = s • tile τ (unitMean v) := by
      funext a
      simp only [tile, unitMean, Pi.smul_apply, smul_eq_mul, ← Finset.mul_sum]
      ring
    unfold kkpQ
    rw [ht]
    split_ifs
    · rw [smul_sub]
    · rfl
  have hd : ∀ v w : τ × n → ℝ, (s • v) ⬝ᵥ (s • w) = v ⬝ᵥ w := fun v w => by
    rw [smul_dotProduct, dotProduct_smul, smul_eq_mul, smul_eq_mul, ← mul_assoc, ← sq, hs, one_mul]
  unfold kkpEntries
  simp only [mulVec_smul, hQ, hd]

theorem momentsKKP0_gen (W : Matrix n n ℝ) (u : τ × n → ℝ) (s : ℝ) (hs : s ^ 2 = 1) : momentsKKP0 W (s • u) = momentsKKP0 W u := by
  unfold momentsKKP0
  rw [kkpEntries_gen true W u s hs]

theorem moments6_gen (W : Matrix n n ℝ) (u : τ × n → ℝ) (s : ℝ) (hs : s ^ 2 = 1) : moments6 W (s • u) = moments6 W u := by
  unfold moments6 momentsKKP1
  rw [momentsKKP0_gen W u s hs, kkpEntries_gen false W u s hs]

theorem panelFilter_gen (W : Matrix n n ℝ) (lam : ℝ) (x : Matrix (τ × n) k ℝ) (beta : k → ℝ) (e : τ × n → ℝ) (s : ℝ) :
    panelFilter W lam (x *ᵥ beta + s • e) = panelFilterM W lam x *ᵥ beta + s • panelFilter W lam e := by
  unfold panelFilter panelFilterM
  rw [sub_mulVec x, smul_mulVec, mulVec_add, mulVec_mulVec, mulVec_smul, smul_sub, smul_add, smul_comm s lam]
  abel

theorem panelFilter_smul (W : Matrix n n ℝ) (lam : ℝ) (e : τ × n → ℝ) (s : ℝ) : panelFilter W lam (s • e) = s • panelFilter W lam e := by
  unfold panelFilter
  rw [mulVec_smul, smul_sub, smul_comm s lam]

/-- Coefficients and, beside them, lambda, the two variances and the variance matrix. -/
def kkpSides (f : KKPFit τ n k) : (k → ℝ) × ℝ × ℝ × ℝ × Matrix k k ℝ := (f.betas, f.lam, f.sigV, f.sig1, f.vm)

theorem kkpGLS_gen (x : Matrix (τ × n) k ℝ) (beta : k → ℝ) (e : τ × n → ℝ) (s : ℝ) (hs : s ^ 2 = 1) (W : Matrix n n ℝ) (lam sv s1 : ℝ) :
    (kkpGLS (x *ᵥ beta + s • e) x W lam sv s1).map kkpSides =
      (kkpGLS e x W lam sv s1).map fun f => (beta + s • f.betas, (kkpSides f).2) := by
  unfold kkpGLS
  simp only [panelFilter_gen, mulVec_add, mulVec_mulVec, mulVec_smul]
  rw [ols_gen]
  rcases ols _ _ with _ | o
  · rfl
  have hu : sig2nk (s • o.u) (Fintype.card k) = sig2nk o.u (Fintype.card k) := by
    unfold sig2nk
    rw [utu_eq_dot, utu_eq_dot, smul_dotProduct, dotProduct_smul, smul_eq_mul, smul_eq_mul, ← mul_assoc, ← sq, hs, one_mul]
  simp only [Option.map_some, kkpSides, hu]

theorem kkp_gen (opt3 : Moments (Fin 3) (Fin 3) → ℝ × ℝ)
    (opt6 : Moments (Fin 2 × Fin 3) (Fin 4) → Option (Matrix (Fin 2 × Fin 3) (Fin 2 × Fin 3) ℝ) → ℝ × ℝ × ℝ)
    (x : Matrix (τ × n) k ℝ) (beta : k → ℝ) (e : τ × n → ℝ) (s : ℝ) (hs : s ^ 2 = 1) (W : Matrix n n ℝ) (fw : Bool) :
    (kkp opt3 opt6 (x *ᵥ beta + s • e) x W fw).map kkpSides =
      (kkp opt3 opt6 e x W fw).map fun f => (beta + s • f.betas, (kkpSides f).2) := by
  unfold kkp
  rw [ols_gen]
  rcases ols x e with _ | o
  · simp only [Option.map_none, Option.bind_none]
  have hd : ∀ v w : τ × n → ℝ, (s • v) ⬝ᵥ (s • w) = v ⬝ᵥ w := fun v w => by
    rw [smul_dotProduct, dotProduct_smul, smul_eq_mul, smul_eq_mul, ← mul_assoc, ← sq, hs, one_mul]
  simp only [Option.map_some, Option.bind_some, momentsKKP0_gen W o.u s hs, moments6_gen W o.u s hs, panelFilter_smul, mulVec_smul, hd]
  generalize kkpXi _ _ _ _ = Xi
  by_cases h0 : Xi = 0
  · rw [if_pos h0, if_pos h0]
    exact kkpGLS_gen x beta e s hs W _ _ _
  · rw [if_neg h0, if_neg h0]
    rcases inv? Xi with _ | Xii
    · simp only [Option.map_none, Option.bind_none]
    rw [Option.bind_some, Option.bind_some]
    by_cases hq : Xii.PosDef
    · rw [if_pos hq, if_pos hq]
      exact kkpGLS_gen x beta e s hs W _ _ _
    · rw [if_neg hq, if_neg hq, Option.map_none, Option.map_none]

/-- **C175 (GM_ErrorRE).** -/
theorem C175_kkp {P : Measure (τ × n → ℝ)} (hP : SymmetricErrors P) (opt3 : Moments (Fin 3) (Fin 3) → ℝ × ℝ)
    (opt6 : Moments (Fin 2 × Fin 3) (Fin 4) → Option (Matrix (Fin 2 × Fin 3) (Fin 2 × Fin 3) ℝ) → ℝ × ℝ × ℝ)
    (x : Matrix (τ × n) k ℝ) (beta : k → ℝ) (W : Matrix n n ℝ) (fullWeights : Bool) :
    Centred P (fun e => (kkp opt3 opt6 (x *ᵥ beta + e) x W fullWeights).map kkpSides) beta := by
  refine centred_of hP _ _ fun e => ?_
  have h1 := kkp_gen opt3 opt6 x beta e 1 (by norm_num) W fullWeights
  have h2 := kkp_gen opt3 opt6 x beta e (-1) (by norm_num) W fullWeights
  simp only [one_smul, neg_one_smul] at h1 h2
  rw [h1, h2, Option.map_map]
  congr 1
  funext f
  simp only [Function.comp, Prod.mk.injEq, and_true]
  rw [two_smul]; abel

/-! Random effects without spatial effects -/

theorem means_gen (x : Matrix (τ × n) k ℝ) (beta : k → ℝ) (e : τ × n → ℝ) (s : ℝ) :
    unitMean (x *ᵥ beta + s • e) = unitMeanM x *ᵥ beta + s • unitMean e := by
  funext i
  simp only [unitMean, unitMeanM, mulVec, dotProduct, of_apply, Pi.add_apply, Pi.smul_apply, smul_eq_mul, Finset.sum_add_distrib, ← Finset.mul_sum]
  rw [Finset.sum_comm, add_div, Finset.sum_div]
  congr 1
  · exact Finset.sum_congr rfl fun j _ => by rw [← Finset.sum_mul]; ring
  · ring

theorem tile_gen (m : Matrix n k ℝ) (beta : k → ℝ) (e : n → ℝ) (s : ℝ) : tile τ (m *ᵥ beta + s • e) = tileM τ m *ᵥ beta + s • tile τ e := by
  funext a
  simp [tile, tileM, mulVec, dotProduct]

open Classical in
theorem within_gen (xd : Matrix (τ × n) k ℝ) (hv : ∀ j, ¬Valid xd j → ∀ a, xd a j = 0) (beta : k → ℝ) (e : τ × n → ℝ) (s : ℝ) :
    within xd (xd *ᵥ beta + s • e) = (within xd e).map fun p => (p.1.map fun q => ((fun j => beta j.1 + s * q.1 j), q.2), s • p.2) := by
  have hx : xd *ᵥ beta = xd.submatrix id Subtype.val *ᵥ fun j : {j // Valid xd j} => beta j.1 := by
    funext a
    simp only [mulVec, dotProduct, submatrix_apply, id]
    rw [← Finset.sum_subtype (p := fun j => Valid xd j) (Finset.univ.filter fun j => Valid xd j) (by simp) (f := fun j => xd a j * beta j),
      Finset.sum_filter]
    refine Finset.sum_congr rfl fun j _ => ?_
    split_ifs with h
    · rfl
    · rw [hv j h a, zero_mul]
  unfold within
  split_ifs with h
  · simp only
    set xs : Matrix (τ × n) {j // Valid xd j} ℝ := xd.submatrix id Subtype.val with hxs
    rcases hi : inv? (xsᵀ * xs) with _ | xi
    · rfl
    obtain ⟨hu, rfl, -, -⟩ := inv?_eq_some hi
    rw [hx]
    have hb : (xsᵀ * xs)⁻¹ *ᵥ (xsᵀ *ᵥ ((xs *ᵥ fun j : {j // Valid xd j} => beta j.1) + s • e)) =
        (fun j : {j // Valid xd j} => beta j.1) + s • ((xsᵀ * xs)⁻¹ *ᵥ (xsᵀ *ᵥ e)) := by
      rw [mulVec_add, mulVec_mulVec, mulVec_add, mulVec_mulVec, nonsing_inv_mul _ hu, one_mulVec, mulVec_smul, mulVec_smul]
    simp only [Option.map_some, hb, mulVec_add xs, mulVec_smul xs, smul_sub]
    congr 2
    abel
  · have h0 : xd *ᵥ beta = 0 := by
      rw [hx]
      have : IsEmpty {j // Valid xd j} := Fintype.card_eq_zero_iff.1 (by omega)
      funext a; simp [mulVec, dotProduct]
    rw [h0, zero_add]
    rfl

theorem between_gen (pinv : Matrix k k ℝ → Matrix k k ℝ) (hp : ∀ A, IsGInv A (pinv A)) (xm : Matrix n k ℝ) (beta : k → ℝ) (e : n → ℝ) (s : ℝ) :
    xm *ᵥ beta + s • e - xm *ᵥ between pinv xm (xm *ᵥ beta + s • e) = s • (e - xm *ᵥ between pinv xm e) := by
  obtain ⟨G, hG, hb⟩ : ∃ G, IsGInv (xmᵀ * xm) G ∧ ∀ y, between pinv xm y = G *ᵥ (xmᵀ *ᵥ y) := by
    unfold between
    rcases h : inv? (xmᵀ * xm) with _ | xi
    · exact ⟨pinv (xmᵀ * xm), hp _, fun y => by simp⟩
    · obtain ⟨hu, rfl, -, -⟩ := inv?_eq_some h
      exact ⟨_, by unfold IsGInv; rw [mul_nonsing_inv _ hu, Matrix.one_mul], fun y => by simp⟩
  have h1 := ginv_normal xm Gᵀ (by
    unfold IsGInv at hG ⊢
    have := congrArg transpose hG
    simpa [transpose_mul, Matrix.mul_assoc] using this)
  have h2 : xm * (G * (xmᵀ * xm)) = xm := by
    have := congrArg transpose h1
    simpa [transpose_mul, Matrix.mul_assoc] using this
  have h3 : xm *ᵥ (G *ᵥ (xmᵀ *ᵥ (xm *ᵥ beta))) = xm *ᵥ beta := by
    simp only [mulVec_mulVec]
    rw [h2]
  rw [hb, hb]
  simp only [mulVec_add, mulVec_smul, smul_sub]
  rw [h3]
  abel

/-- Coefficients and, beside them, the two variances, theta, `sig2` and the variance matrix. -/
def reSides (f : REFit τ n k) : (k → ℝ) × ℝ × ℝ × ℝ × ℝ × Matrix k k ℝ := (f.betas, f.sigma2e, f.sigma2mu, f.theta, f.sig2, f.vm)

theorem utu_gen {m : Type} [Fintype m] (u : m → ℝ) (s : ℝ) (hs : s ^ 2 = 1) : utu (s • u) = utu u := by
  rw [utu_eq_dot, utu_eq_dot, smul_dotProduct, dotProduct_smul, smul_eq_mul, smul_eq_mul, ← mul_assoc, ← sq, hs, one_mul]

theorem re_gen (pinv : Matrix k k ℝ → Matrix k k ℝ) (hp : ∀ A, IsGInv A (pinv A)) (x : Matrix (τ × n) k ℝ)
    (hv : ∀ j, ¬Valid (x - tileM τ (unitMeanM x)) j → ∀ a, (x - tileM τ (unitMeanM x)) a j = 0) (beta : k → ℝ) (e : τ × n → ℝ) (s : ℝ)
    (hs : s ^ 2 = 1) :
    (panelRE pinv (x *ᵥ beta + s • e) x).map reSides = (panelRE pinv e x).map fun f => (beta + s • f.betas, (reSides f).2) := by
  unfold panelRE
  simp only [means_gen, tile_gen]
  have hd : x *ᵥ beta + s • e - (tileM τ (unitMeanM x) *ᵥ beta + s • tile τ (unitMean e)) =
      (x - tileM τ (unitMeanM x)) *ᵥ beta + s • (e - tile τ (unitMean e)) := by
    rw [sub_mulVec, smul_sub]; abel
  rw [hd, within_gen _ hv]
  rcases within (x - tileM τ (unitMeanM x)) (e - tile τ (unitMean e)) with _ | w
  · simp only [Option.map_none, Option.bind_none]
  simp only [Option.map_some, Option.bind_some, between_gen pinv hp, utu_gen _ s hs]
  set th := 1 - Real.sqrt _ with hth
  have hq : x *ᵥ beta + s • e - th • (tileM τ (unitMeanM x) *ᵥ beta + s • tile τ (unitMean e)) =
      (x - th • tileM τ (unitMeanM x)) *ᵥ beta + s • (e - th • tile τ (unitMean e)) := by
    rw [sub_mulVec, smul_mulVec, smul_sub, smul_add, smul_comm s th]; abel
  rw [hq, ols_gen]
  rcases ols (x - th • tileM τ (unitMeanM x)) (e - th • tile τ (unitMean e)) with _ | o
  · simp only [Option.map_none, Option.bind_none]
  have hu : sig2n (s • o.u) = sig2n o.u := by unfold sig2n; rw [utu_gen _ s hs]
  simp only [Option.map_some, reSides, hu]

/-- **C175 (PanelRE).** Columns without variation within units are exactly constant within units; `pinv` is a generalised inverse. -/
theorem C175_panel_re {P : Measure (τ × n → ℝ)} (hP : SymmetricErrors P) (pinv : Matrix k k ℝ → Matrix k k ℝ) (hp : ∀ A, IsGInv A (pinv A))
    (x : Matrix (τ × n) k ℝ) (hv : ∀ j, ¬Valid (x - tileM τ (unitMeanM x)) j → ∀ a, (x - tileM τ (unitMeanM x)) a j = 0) (beta : k → ℝ) :
    Centred P (fun e => (panelRE pinv (x *ᵥ beta + e) x).map reSides) beta := by
  refine centred_of hP _ _ fun e => ?_
  have h1 := re_gen pinv hp x hv beta e 1 (by norm_num)
  have h2 := re_gen pinv hp x hv beta e (-1) (by norm_num)
  simp only [one_smul, neg_one_smul] at h1 h2
  rw [h1, h2, Option.map_map]
  congr 1
  funext f
  simp only [Function.comp, Prod.mk.injEq, and_true]
  rw [two_smul]; abel

end panel

/-- Independent normal errors are as likely as their opposites, whatever their variances. -/
theorem C175_normal {ι : Type} [Fintype ι] (v : ι → NNReal) : SymmetricErrors (Measure.pi fun i => gaussianReal 0 (v i)) := by
  have := measurePreserving_pi (fun i => gaussianReal 0 (v i)) (fun i => gaussianReal 0 (v i)) (f := fun _ t => -t)
    fun i => ⟨measurable_neg, by rw [gaussianReal_map_neg, neg_zero]⟩
  exact this.map_eq

/-- The next of four observations on a ring. -/
def ringW : Matrix (Fin 4) (Fin 4) ℝ := !![0, 1, 0, 0; 0, 0, 1, 0; 0, 0, 0, 1; 1, 0, 0, 0]

/-- Normal errors on a ring of four, a constant and a trend: the spatial error model is always estimated, and both coefficients fall above and below
the truth with the same probability. -/
theorem C175_example (beta : Fin 2 → ℝ) (j : Fin 2) :
    (∀ e, ∃ f, gmError (fun _ => 1 / 2) ringW Exact.x4 (Exact.x4 *ᵥ beta + e) = some f) ∧
    (Measure.pi fun _ : Fin 4 => gaussianReal 0 1)
      {e | ∃ f, gmError (fun _ => 1 / 2) ringW Exact.x4 (Exact.x4 *ᵥ beta + e) = some f ∧ beta j < f.betas j} =
    (Measure.pi fun _ : Fin 4 => gaussianReal 0 1)
      {e | ∃ f, gmError (fun _ => 1 / 2) ringW Exact.x4 (Exact.x4 *ᵥ beta + e) = some f ∧ f.betas j < beta j} := by
  constructor
  · intro e
    have hu : IsUnit (Exact.x4ᵀ * Exact.x4).det := by
      rw [show Exact.x4ᵀ * Exact.x4 = !![4, 6; 6, 14] by
        ext i j; fin_cases i <;> fin_cases j <;> simp [Exact.x4, mul_apply, Fin.sum_univ_four] <;> norm_num, det_fin_two_of]
      norm_num
    have hxs : spFilterM ringW (1 / 2) Exact.x4 = !![1/2, -1/2; 1/2, 0; 1/2, 1/2; 1/2, 3] := by
      ext i j; fin_cases i <;> fin_cases j <;> simp [spFilterM, ringW, Exact.x4, mul_apply, Fin.sum_univ_four] <;> norm_num
    have hu2 : IsUnit ((spFilterM ringW (1 / 2) Exact.x4)ᵀ * spFilterM ringW (1 / 2) Exact.x4).det := by
      rw [hxs, det_fin_two]
      simp [mul_apply, Fin.sum_univ_four]
      norm_num
    unfold gmError
    rw [ols_of_isUnit _ _ hu]
    simp only [Option.bind_some, Option.map_some, ols_of_isUnit _ _ hu2]
    exact ⟨_, rfl⟩
  · have h := (C175_gm_error (C175_normal fun _ : Fin 4 => 1) (fun _ => 1 / 2) ringW Exact.x4 beta).law {p | 0 < p.1 j}
    convert h using 2
    · ext e
      simp only [Set.mem_ofPred_eq, Option.map_eq_some_iff]
      constructor
      · rintro ⟨f, hf, hl⟩
        exact ⟨_, ⟨f, hf, rfl⟩, by simpa using hl⟩
      · rintro ⟨_, ⟨f, hf, rfl⟩, hl⟩
        exact ⟨f, hf, by simpa using hl⟩
    · ext e
      simp only [Set.mem_ofPred_eq, Option.map_eq_some_iff]
      constructor
      · rintro ⟨f, hf, hl⟩
        exact ⟨_, ⟨f, hf, rfl⟩, by simpa using hl⟩
      · rintro ⟨_, ⟨f, hf, rfl⟩, hl⟩
        exact ⟨f, hf, by simpa using hl⟩

end Spreg.Centre
