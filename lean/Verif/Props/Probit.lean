import Verif.Props.Normal
import Verif.Props.OLS
import Verif.Props.LM
/-
C87-C90: probit likelihood, maximum, Newton iterations, generalised residuals.
-/
namespace Spreg.Probit
open Matrix Spreg.Lin

variable {n k : Type} [Fintype n] [Fintype k]

/-- A binary dependent variable. -/
def Binary (y : n → ℝ) : Prop := ∀ i, y i = 0 ∨ y i = 1

/-- Full column rank. -/
def FullRank (x : Matrix n k ℝ) : Prop := ∀ v, x *ᵥ v = 0 → v = 0

theorem sgn_sq {y : n → ℝ} (hy : Binary y) (i : n) : sgn y i * sgn y i = 1 := by
  rcases hy i with h | h <;> simp [sgn, h] <;> norm_num

theorem lamb_eq (x : Matrix n k ℝ) (y : n → ℝ) (b : k → ℝ) (i : n) :
    lamb x y b i = sgn y i * mr (sgn y i * (x *ᵥ b) i) := by
  unfold lamb mr; rw [mul_div_assoc]

theorem line (x : Matrix n k ℝ) (b v : k → ℝ) (t : ℝ) (i : n) :
    (x *ᵥ (b + t • v)) i = (x *ᵥ b) i + t * (x *ᵥ v) i := by
  rw [mulVec_add, mulVec_smul]; rfl

theorem grad_dot (x : Matrix n k ℝ) (y : n → ℝ) (b v : k → ℝ) :
    gradient x y b ⬝ᵥ v = ∑ i, lamb x y b i * (x *ᵥ v) i := by
  unfold gradient
  rw [← dotProduct_mulVec]; rfl

open Classical in
/-- C87: for binary `y` the function that is maximised is the probit log-likelihood: the outcome 1 has probability
`Phi(x_i'b)`. -/
theorem C87_likelihood (x : Matrix n k ℝ) (y : n → ℝ) (hy : Binary y) (b : k → ℝ) :
    ll x y b = ∑ i, if y i = 1 then Real.log (Phi (∑ j, x i j * b j)) else Real.log (1 - Phi (∑ j, x i j * b j)) := by
  unfold ll
  refine Finset.sum_congr rfl fun i _ => ?_
  have e : (x *ᵥ b) i = ∑ j, x i j * b j := rfl
  rw [e]
  rcases hy i with h | h
  · rw [if_neg (by rw [h]; norm_num)] <;> simp [sgn, h, Phi_neg]
  · rw [if_pos h]; norm_num [sgn, h]

/-- C87: `gradient` is the derivative of the log-likelihood, in every direction and at every parameter. -/
theorem C87_gradient (x : Matrix n k ℝ) (y : n → ℝ) (b v : k → ℝ) :
    HasDerivAt (fun t : ℝ => ll x y (b + t • v)) (gradient x y b ⬝ᵥ v) 0 := by
  rw [grad_dot]
  unfold ll
  have h : ∀ i ∈ (Finset.univ : Finset n), HasDerivAt
      (fun t : ℝ => Real.log (Phi (sgn y i * (x *ᵥ (b + t • v)) i))) (lamb x y b i * (x *ᵥ v) i) 0 := by
    intro i _
    have h1 : HasDerivAt (fun t : ℝ => sgn y i * (x *ᵥ (b + t • v)) i) (sgn y i * (x *ᵥ v) i) 0 := by
      simp only [line]
      have := (((hasDerivAt_id (0 : ℝ)).mul_const ((x *ᵥ v) i)).const_add ((x *ᵥ b) i)).const_mul (sgn y i)
      simpa using this
    have h2 := (logPhi_hasDeriv (sgn y i * (x *ᵥ (b + (0 : ℝ) • v)) i)).comp 0 h1
    rw [zero_smul, add_zero] at h2
    refine h2.congr_deriv ?_
    rw [lamb_eq]; ring
  exact HasDerivAt.fun_sum h

theorem hess_dot (x : Matrix n k ℝ) (y : n → ℝ) (b v w : k → ℝ) :
    v ⬝ᵥ (hessian x y b *ᵥ w)
      = ∑ i, (-(lamb x y b i) * (lamb x y b i + (x *ᵥ b) i)) * ((x *ᵥ v) i * (x *ᵥ w) i) := by
  unfold hessian
  rw [← mulVec_mulVec, dotProduct_mulVec, vecMul_transpose]
  refine Finset.sum_congr rfl fun i _ => ?_
  have : ((Matrix.of fun i j => x i j * (-(lamb x y b i) * (lamb x y b i + (x *ᵥ b) i))) *ᵥ w) i
      = (-(lamb x y b i) * (lamb x y b i + (x *ᵥ b) i)) * (x *ᵥ w) i := by
    simp only [mulVec, dotProduct, of_apply, Finset.mul_sum]
    exact Finset.sum_congr rfl fun j _ => by ring
  rw [this]; ring

/-- The curvature weight of an observation. -/
theorem weight_eq {x : Matrix n k ℝ} {y : n → ℝ} (hy : Binary y) (b : k → ℝ) (i : n) :
    -(lamb x y b i) * (lamb x y b i + (x *ᵥ b) i)
      = -(mr (sgn y i * (x *ᵥ b) i) * (mr (sgn y i * (x *ᵥ b) i) + sgn y i * (x *ᵥ b) i)) := by
  rw [lamb_eq]
  have := sgn_sq hy i
  set q := sgn y i
  set z := (x *ᵥ b) i
  set m := mr (q * z)
  linear_combination (-(m ^ 2)) * this

/-- C87: for binary `y`, `hessian` is the derivative of `gradient`, in every pair of directions. -/
theorem C87_hessian (x : Matrix n k ℝ) (y : n → ℝ) (hy : Binary y) (b v w : k → ℝ) :
    HasDerivAt (fun t : ℝ => gradient x y (b + t • v) ⬝ᵥ w) (v ⬝ᵥ (hessian x y b *ᵥ w)) 0 := by
  simp only [grad_dot, hess_dot]
  have h : ∀ i ∈ (Finset.univ : Finset n), HasDerivAt
      (fun t : ℝ => lamb x y (b + t • v) i * (x *ᵥ w) i)
      ((-(lamb x y b i) * (lamb x y b i + (x *ᵥ b) i)) * ((x *ᵥ v) i * (x *ᵥ w) i)) 0 := by
    intro i _
    have h1 : HasDerivAt (fun t : ℝ => sgn y i * (x *ᵥ (b + t • v)) i) (sgn y i * (x *ᵥ v) i) 0 := by
      simp only [line]
      have := (((hasDerivAt_id (0 : ℝ)).mul_const ((x *ᵥ v) i)).const_add ((x *ᵥ b) i)).const_mul (sgn y i)
      simpa using this
    have h2 := ((mr_hasDeriv (sgn y i * (x *ᵥ (b + (0 : ℝ) • v)) i)).comp 0 h1).const_mul (sgn y i)
    rw [zero_smul, add_zero] at h2
    have h3 := h2.mul_const ((x *ᵥ w) i)
    have e : (fun t : ℝ => lamb x y (b + t • v) i * (x *ᵥ w) i) = fun t =>
        sgn y i * (mr ∘ fun t => sgn y i * (x *ᵥ (b + t • v)) i) t * (x *ᵥ w) i := by
      funext t; rw [lamb_eq]; rfl
    rw [e]
    refine h3.congr_deriv ?_
    rw [weight_eq hy]
    have := sgn_sq hy i
    set q := sgn y i
    set z := (x *ᵥ b) i
    set m := mr (q * z)
    linear_combination (-(m * (m + q * z)) * ((x *ᵥ v) i * (x *ᵥ w) i)) * this
  exact HasDerivAt.fun_sum h

theorem C87_hessian_symm (x : Matrix n k ℝ) (y : n → ℝ) (b : k → ℝ) : (hessian x y b)ᵀ = hessian x y b := by
  unfold hessian
  ext i j
  simp only [transpose_apply, mul_apply, of_apply]
  exact Finset.sum_congr rfl fun l _ => by ring

/-! ### C88: concavity -/

theorem hess_neg {x : Matrix n k ℝ} {y : n → ℝ} (hy : Binary y) (b v : k → ℝ) :
    v ⬝ᵥ (hessian x y b *ᵥ v) ≤ 0 ∧ (x *ᵥ v ≠ 0 → v ⬝ᵥ (hessian x y b *ᵥ v) < 0) := by
  rw [hess_dot]
  have hw : ∀ i, -(lamb x y b i) * (lamb x y b i + (x *ᵥ b) i) < 0 := fun i => by
    rw [weight_eq hy]; exact neg_neg_of_pos (mr_weight_pos _)
  have ht : ∀ i ∈ (Finset.univ : Finset n),
      (-(lamb x y b i) * (lamb x y b i + (x *ᵥ b) i)) * ((x *ᵥ v) i * (x *ᵥ v) i) ≤ 0 := fun i _ =>
    mul_nonpos_of_nonpos_of_nonneg (hw i).le (mul_self_nonneg _)
  refine ⟨Finset.sum_nonpos ht, fun hv => ?_⟩
  obtain ⟨i, hi⟩ := Function.ne_iff.mp hv
  refine Finset.sum_neg' ht ⟨i, Finset.mem_univ _, ?_⟩
  exact mul_neg_of_neg_of_pos (hw i) (mul_self_pos.2 hi)

/-- C88: for binary `y` and regressors of full column rank the Hessian is negative definite at every parameter, so it can
always be inverted. -/
theorem C88_negdef [DecidableEq k] (x : Matrix n k ℝ) (y : n → ℝ) (hy : Binary y) (hx : FullRank x) (b : k → ℝ) :
    (∀ v, v ≠ 0 → v ⬝ᵥ (hessian x y b *ᵥ v) < 0) ∧ IsUnit (hessian x y b).det := by
  have h1 : ∀ v, v ≠ 0 → v ⬝ᵥ (hessian x y b *ᵥ v) < 0 := fun v hv =>
    (hess_neg hy b v).2 fun h => hv (hx v h)
  refine ⟨h1, ?_⟩
  rw [← Matrix.isUnit_iff_isUnit_det, ← Matrix.mulVec_injective_iff_isUnit]
  intro v w hvw
  by_contra hne
  have h2 := h1 (v - w) (sub_ne_zero.2 hne)
  have h3 : hessian x y b *ᵥ (v - w) = 0 := by
    rw [mulVec_sub]; exact sub_eq_zero.2 hvw
  rw [h3, dotProduct_zero] at h2
  exact lt_irrefl _ h2

/-- The log-likelihood lies below its tangents. -/
theorem ll_tangent (x : Matrix n k ℝ) (y : n → ℝ) (hy : Binary y) (b b' : k → ℝ) :
    ll x y b' ≤ ll x y b + gradient x y b ⬝ᵥ (b' - b) ∧
    (x *ᵥ b' ≠ x *ᵥ b → ll x y b' < ll x y b + gradient x y b ⬝ᵥ (b' - b)) := by
  rw [grad_dot]
  have hq : ∀ i, sgn y i ≠ 0 := fun i h => by have := sgn_sq hy i; rw [h] at this; norm_num at this
  have hstrict : ∀ i, (x *ᵥ b') i ≠ (x *ᵥ b) i → Real.log (Phi (sgn y i * (x *ᵥ b') i))
      < Real.log (Phi (sgn y i * (x *ᵥ b) i)) + lamb x y b i * (x *ᵥ (b' - b)) i := by
    intro i hi
    have h := logPhi_tangent (sgn y i * (x *ᵥ b) i) (sgn y i * (x *ᵥ b') i) fun e =>
      hi (mul_left_cancel₀ (hq i) e).symm
    rw [lamb_eq, mulVec_sub]
    simp only [Pi.sub_apply]
    linarith
  have hle : ∀ i ∈ (Finset.univ : Finset n), Real.log (Phi (sgn y i * (x *ᵥ b') i))
      ≤ Real.log (Phi (sgn y i * (x *ᵥ b) i)) + lamb x y b i * (x *ᵥ (b' - b)) i := by
    intro i _
    by_cases hi : (x *ᵥ b') i = (x *ᵥ b) i
    · rw [mulVec_sub]; simp [hi]
    · exact (hstrict i hi).le
  unfold ll
  rw [← Finset.sum_add_distrib]
  refine ⟨Finset.sum_le_sum hle, fun hne => ?_⟩
  obtain ⟨i, hi⟩ := Function.ne_iff.mp hne
  exact Finset.sum_lt_sum hle ⟨i, Finset.mem_univ _, hstrict i hi⟩

/-- C88: the gradient vanishes exactly at the maximum of the log-likelihood. -/
theorem C88_stationary_iff_max (x : Matrix n k ℝ) (y : n → ℝ) (hy : Binary y) (b : k → ℝ) :
    gradient x y b = 0 ↔ ∀ b', ll x y b' ≤ ll x y b := by
  constructor
  · intro h b'
    have := (ll_tangent x y hy b b').1
    rwa [h, zero_dotProduct, add_zero] at this
  · intro h
    have h0 : gradient x y b ⬝ᵥ gradient x y b = 0 := by
      have hm : IsLocalMax (fun t : ℝ => ll x y (b + t • gradient x y b)) 0 :=
        Filter.Eventually.of_forall fun t => by simpa using h _
      exact hm.hasDerivAt_eq_zero (C87_gradient x y b _)
    exact dotProduct_self_eq_zero.1 h0

/-- C88: with full column rank there is at most one maximum. -/
theorem C88_unique (x : Matrix n k ℝ) (y : n → ℝ) (hy : Binary y) (hx : FullRank x) (b b' : k → ℝ)
    (h : gradient x y b = 0) (h' : gradient x y b' = 0) : b = b' := by
  by_contra hne
  have h1 : x *ᵥ b' ≠ x *ᵥ b := fun e => hne (sub_eq_zero.1 (hx (b - b') (by rw [mulVec_sub, e, sub_self])))
  have h2 := (ll_tangent x y hy b b').2 h1
  rw [h, zero_dotProduct, add_zero] at h2
  have h3 := (ll_tangent x y hy b' b).1
  rw [h', zero_dotProduct, add_zero] at h3
  linarith

theorem baseProbit_ok [DecidableEq k] {x : Matrix n k ℝ} {y : n → ℝ} {o : Optim k} {bs : Option (k → ℝ)} {mi : ℕ}
    {f : Fit n k} (h : baseProbit x y o bs mi = .ok f) :
    ∃ p wn, parEst x y o bs mi = .ok (p, wn) ∧ f.betas = p.1 ∧ f.logl = -p.2 ∧ f.warning = wn ∧
      IsUnit (hessian x y f.betas).det ∧ f.vm = -(hessian x y f.betas)⁻¹ ∧ f.xb = x *ᵥ f.betas ∧
      f.predy = (fun i => Phi ((x *ᵥ f.betas) i)) ∧ f.phiy = (fun i => phi ((x *ᵥ f.betas) i)) ∧
      f.uNaive = (fun i => y i - Phi ((x *ᵥ f.betas) i)) ∧
      f.uGen = (fun i => phi ((x *ᵥ f.betas) i) * ((y i - Phi ((x *ᵥ f.betas) i)) /
        (Phi ((x *ᵥ f.betas) i) * (1 - Phi ((x *ᵥ f.betas) i))))) ∧
      (∀ i, f.predybin i = 1 ∨ f.predybin i = 0) ∧ (∀ i, f.predybin i = 1 ↔ 1 / 2 < f.predy i) := by
  classical
  unfold baseProbit at h
  have hc : (fun a b => Classical.propDecidable (a = b)) = (inferInstance : DecidableEq k) := Subsingleton.elim _ _
  cases hp : parEst x y o bs mi with
  | error e => rw [hc] at h; rw [hp] at h; cases h
  | ok pe =>
    obtain ⟨p, wn⟩ := pe
    rw [hc] at h
    rw [hp] at h
    simp only [bind, Except.bind] at h
    split at h
    · cases h
    · next hi hhi =>
      obtain ⟨hu, he, -, -⟩ := inv?_eq_some hhi
      simp only [pure, Except.pure, Except.ok.injEq] at h
      subst h
      subst he
      refine ⟨p, wn, rfl, rfl, rfl, rfl, hu, rfl, rfl, rfl, rfl, rfl, rfl, ?_, ?_⟩
      · intro i; simp only; split <;> simp
      · intro i; simp only; split
        · next h1 => simpa using h1
        · next h1 => simpa using h1

/-- C88: the reported variance matrix is symmetric and positive definite, whatever the optimiser. -/
theorem C88_variance [DecidableEq k] (x : Matrix n k ℝ) (y : n → ℝ) (hy : Binary y) (o : Optim k)
    (bs : Option (k → ℝ)) (mi : ℕ) (f : Fit n k) (h : baseProbit x y o bs mi = .ok f) :
    f.vmᵀ = f.vm ∧ ∀ v, v ≠ 0 → 0 < v ⬝ᵥ (f.vm *ᵥ v) := by
  obtain ⟨p, wn, -, -, -, -, hu, hv, -⟩ := baseProbit_ok h
  rw [hv]
  constructor
  · rw [transpose_neg, transpose_nonsing_inv, C87_hessian_symm]
  · intro v hv0
    set H := hessian x y f.betas with hH
    have h1 : H *ᵥ (H⁻¹ *ᵥ v) = v := by rw [mulVec_mulVec, mul_nonsing_inv _ hu, one_mulVec]
    have hker : ∀ w, x *ᵥ w = 0 → H *ᵥ w = 0 := by
      intro w e
      rw [hH, hessian, ← mulVec_mulVec]
      have e2 : (Matrix.of fun i j => x i j * (-(lamb x y f.betas i) * (lamb x y f.betas i + (x *ᵥ f.betas) i))) *ᵥ
          w = 0 := by
        funext i
        have e3 := congrFun e i
        simp only [mulVec, dotProduct, of_apply, Pi.zero_apply] at e3 ⊢
        rw [← mul_zero (-(lamb x y f.betas i) * (lamb x y f.betas i + ∑ j, x i j * f.betas j)), ← e3, Finset.mul_sum]
        exact Finset.sum_congr rfl fun j _ => by ring
      rw [e2, mulVec_zero]
    have hw0 : x *ᵥ (H⁻¹ *ᵥ v) ≠ 0 := by
      intro e
      apply hv0
      rw [← h1]
      exact hker _ e
    have h2 := (hess_neg (x := x) hy f.betas (H⁻¹ *ᵥ v)).2 hw0
    rw [h1] at h2
    rw [neg_mulVec, dotProduct_neg, dotProduct_comm]
    linarith

/-! ### C89: Newton -/

/-- Specification of the iterations: a chain of Newton steps. -/
inductive Chain [DecidableEq k] (fgrad : (k → ℝ) → k → ℝ) (fhess : (k → ℝ) → Matrix k k ℝ) :
    (k → ℝ) → ℝ → ℕ → (k → ℝ) → ℝ → Prop
  | nil (b m) : Chain fgrad fhess b m 0 b m
  | step (b m it b' m') (hm : 1 / 10000 ≤ m) (hu : IsUnit (fhess b).det)
      (h : Chain fgrad fhess (b - (fhess b)⁻¹ *ᵥ fgrad b) (-(fgrad b ⬝ᵥ ((fhess b)⁻¹ *ᵥ fgrad b))) it b' m') :
      Chain fgrad fhess b m (it + 1) b' m'

theorem newtonLoop_spec [DecidableEq k] (fgrad : (k → ℝ) → k → ℝ) (fhess : (k → ℝ) → Matrix k k ℝ) (r : ℕ) :
    ∀ (m : ℝ) (b b' : k → ℝ) (it : ℕ) (m' : ℝ), newtonLoop fgrad fhess r m b = .ok (b', it, m') →
      Chain fgrad fhess b m it b' m' ∧ it ≤ r ∧ (it < r → m' < 1 / 10000) := by
  induction r with
  | zero =>
    intro m b b' it m' h
    cases h
    exact ⟨.nil _ _, le_refl _, fun h => absurd h (lt_irrefl _)⟩
  | succ r ih =>
    intro m b b' it m' h
    unfold newtonLoop at h
    split at h
    · next hm =>
      split at h
      · cases h
      · next hi hhi =>
        obtain ⟨hu, he, -, -⟩ := inv?_eq_some hhi
        subst he
        simp only at h
        cases hl : newtonLoop fgrad fhess r (fgrad b ⬝ᵥ (-(fhess b)⁻¹ *ᵥ fgrad b)) (b + -(fhess b)⁻¹ *ᵥ fgrad b) with
        | error e => rw [hl] at h; cases h
        | ok q =>
          rw [hl] at h
          obtain ⟨b1, it1, m1⟩ := q
          simp only [Except.map, Except.ok.injEq, Prod.mk.injEq] at h
          obtain ⟨rfl, rfl, rfl⟩ := h
          obtain ⟨h1, h2, h3⟩ := ih _ _ _ _ _ hl
          refine ⟨.step _ _ _ _ _ hm hu ?_, by omega, fun h => h3 (by omega)⟩
          rw [neg_mulVec, dotProduct_neg, ← sub_eq_add_neg] at h1
          exact h1
    · next hm =>
      cases h
      exact ⟨.nil _ _, Nat.zero_le _, fun _ => not_le.1 hm⟩

/-- C89: with `optim="newton"`, a fit is the end of a chain of at most `maxiter` Newton steps that starts at the starting
value; the log-likelihood it reports is the log-likelihood of the reported coefficients; without a warning the last step
was taken at a point where the Newton decrement was below 0.0001. Missing: the converse, see `C89_warning_violated`. -/
theorem C89_newton_partial [DecidableEq k] (x : Matrix n k ℝ) (y : n → ℝ) (bs : Option (k → ℝ)) (mi : ℕ) (f : Fit n k)
    (h : baseProbit x y .newton bs mi = .ok f) :
    ∃ start it m, startVal x y bs = .ok start ∧ Chain (gradient x y) (hessian x y) start 1 it f.betas m ∧ it ≤ mi ∧
      f.logl = ll x y f.betas ∧ (f.warning = true ↔ it = mi) ∧ (f.warning = false → m < 1 / 10000) := by
  obtain ⟨p, wn, hp, hb, hl, hw, -⟩ := baseProbit_ok h
  unfold parEst at hp
  cases hs : startVal x y bs with
  | error e => rw [hs] at hp; cases hp
  | ok start =>
    rw [hs] at hp
    simp only [bind, Except.bind, newton] at hp
    cases hn : newtonLoop (gradient x y) (hessian x y) mi 1 start with
    | error e => rw [hn] at hp; cases hp
    | ok q =>
      rw [hn] at hp
      obtain ⟨b', it, m'⟩ := q
      simp only [Except.map, pure, Except.pure, Except.ok.injEq, Prod.mk.injEq] at hp
      obtain ⟨h1, h2⟩ := hp
      obtain ⟨c1, c2, c3⟩ := newtonLoop_spec _ _ _ _ _ _ _ _ hn
      have hbe : f.betas = b' := by rw [hb, ← h1]
      have hwe : f.warning = true ↔ it = mi := by
        rw [hw, ← h2]
        by_cases e : it = mi <;> simp [e]
      refine ⟨start, it, m', rfl, by rw [hbe]; exact c1, c2, ?_, hwe, ?_⟩
      · rw [hl, ← h1, hb, ← h1, neg_neg]
      · intro hf
        apply c3
        refine lt_of_le_of_ne c2 fun e => ?_
        rw [hwe.2 e] at hf; cases hf

/-- C89: without starting values Newton starts at the OLS coefficients; with `maxiter=0` they are the result. -/
theorem C89_start [DecidableEq k] (x : Matrix n k ℝ) (y : n → ℝ) (o : OLSFit n k) (ho : ols x y = some o) :
    startVal x y none = .ok o.betas ∧ ∀ f, baseProbit x y .newton none 0 = .ok f → f.betas = o.betas := by
  have h1 : startVal x y none = .ok o.betas := by
    unfold startVal
    unfold ols at ho
    rw [Option.map_eq_some_iff] at ho
    obtain ⟨B, hB, rfl⟩ := ho
    simp only [hB]
    rfl
  refine ⟨h1, fun f hf => ?_⟩
  obtain ⟨start, it, m, hs, hc, hi, -⟩ := C89_newton_partial x y none 0 f hf
  rw [h1] at hs
  cases hs
  obtain rfl : it = 0 := by omega
  generalize f.betas = b at hc ⊢
  generalize o.betas = c at hc ⊢
  cases hc
  rfl

/-- C89: Newton never meets a singular Hessian: with binary `y` and full column rank a fit always exists. -/
theorem C89_total [DecidableEq k] (x : Matrix n k ℝ) (y : n → ℝ) (hy : Binary y) (hx : FullRank x)
    (bs : Option (k → ℝ)) (mi : ℕ) : ∃ f, baseProbit x y .newton bs mi = .ok f := by
  classical
  have hloop : ∀ r m b, ∃ p, newtonLoop (gradient x y) (hessian x y) r m b = .ok p := by
    intro r
    induction r with
    | zero => intro m b; exact ⟨_, rfl⟩
    | succ r ih =>
      intro m b
      unfold newtonLoop
      split
      · rw [inv?_of_isUnit (C88_negdef x y hy hx b).2]
        simp only
        obtain ⟨p, hp⟩ := ih (gradient x y b ⬝ᵥ (-(hessian x y b)⁻¹ *ᵥ gradient x y b)) (b + -(hessian x y b)⁻¹ *ᵥ gradient x y b)
        rw [hp]
        exact ⟨_, rfl⟩
      · exact ⟨_, rfl⟩
  have hstart : ∃ s, startVal x y bs = .ok s := by
    unfold startVal
    cases bs with
    | some b => exact ⟨_, rfl⟩
    | none =>
      have : IsUnit (xᵀ * x).det := (xtx_isUnit_iff x).2 hx
      simp only
      rw [inv?_of_isUnit this]
      exact ⟨_, rfl⟩
  obtain ⟨s, hs⟩ := hstart
  obtain ⟨p, hp⟩ := hloop mi 1 s
  have hc : (fun a b => Classical.propDecidable (a = b)) = (inferInstance : DecidableEq k) := Subsingleton.elim _ _
  unfold baseProbit parEst newton
  rw [hc, hs]
  simp only [bind, Except.bind]
  rw [hp]
  simp only [Except.map, pure, Except.pure]
  rw [inv?_of_isUnit (C88_negdef x y hy hx p.1).2]
  exact ⟨_, rfl⟩

/-- C89: started at the maximum, Newton returns it (after one step). -/
theorem C89_fixed_point [DecidableEq k] (x : Matrix n k ℝ) (y : n → ℝ) (b : k → ℝ) (mi : ℕ) (f : Fit n k)
    (hg : gradient x y b = 0) (h : baseProbit x y .newton (some b) (mi + 1) = .ok f) :
    f.betas = b ∧ (f.warning = true ↔ mi = 0) := by
  obtain ⟨start, it, m, hs, hc, hit, -, hw, -⟩ := C89_newton_partial x y _ _ f h
  cases hs
  obtain ⟨p, wn, hp, hb, -, hwn, -⟩ := baseProbit_ok h
  unfold parEst newton newtonLoop at hp
  simp only [startVal, bind, Except.bind] at hp
  rw [if_pos (by norm_num)] at hp
  split at hp
  · cases hp
  · next pe hpe =>
    split at hpe
    · cases hpe
    · next hi hhi =>
      simp only [hg, mulVec_zero, add_zero, dotProduct_zero] at hpe
      have hl : newtonLoop (gradient x y) (hessian x y) mi 0 b = .ok (b, 0, 0) := by
        cases mi with
        | zero => rfl
        | succ r => unfold newtonLoop; rw [if_neg (by norm_num)]
      rw [hl] at hpe
      simp only [Except.map, Except.ok.injEq] at hpe
      subst hpe
      simp only [pure, Except.pure, Except.ok.injEq, Prod.mk.injEq] at hp
      obtain ⟨h1, h2⟩ := hp
      refine ⟨by rw [hb, ← h1], ?_⟩
      rw [hwn, ← h2]
      by_cases e : mi = 0 <;> simp [e]

/-- C89 fails for the warning: a regression that reaches the exact maximum in its last permitted iteration is reported as
not converged. -/
theorem C89_warning_violated : ∃ (x : Matrix (Fin 2) Unit ℝ) (y : Fin 2 → ℝ) (f : Fit (Fin 2) Unit), Binary y ∧
    FullRank x ∧ baseProbit x y .newton (some 0) 1 = .ok f ∧ f.betas = 0 ∧ gradient x y f.betas = 0 ∧
    (∀ b, ll x y b ≤ f.logl) ∧ f.warning = true := by
  set x : Matrix (Fin 2) Unit ℝ := Matrix.of fun _ _ => 1 with hx
  set y : Fin 2 → ℝ := ![0, 1] with hy
  have hb : Binary y := fun i => by fin_cases i <;> simp [hy]
  have hr : FullRank x := fun v hv => by
    funext j
    have := congrFun hv 0
    simpa [hx, mulVec, dotProduct] using this
  have hg : gradient x y 0 = 0 := by
    funext j
    simp [gradient, vecMul, dotProduct, lamb, sgn, hx, hy, Fin.sum_univ_two]
    ring
  obtain ⟨f, hf⟩ := C89_total x y hb hr (some 0) 1
  obtain ⟨h1, h2⟩ := C89_fixed_point x y 0 0 f hg hf
  obtain ⟨-, -, -, -, -, -, hl, -, -⟩ := C89_newton_partial x y _ _ f hf
  refine ⟨x, y, f, hb, hr, hf, h1, by rw [h1]; exact hg, ?_, h2.2 rfl⟩
  rw [hl]
  exact (C88_stationary_iff_max x y hb _).1 (by rw [h1]; exact hg)

/-- C89: an unknown optimiser ends in `UnboundLocalError`. -/
theorem C89_unknown_optimiser [DecidableEq k] (x : Matrix n k ℝ) (y : n → ℝ) (b : k → ℝ) (mi : ℕ) :
    baseProbit x y .other (some b) mi = .error .unboundLocal := by
  unfold baseProbit parEst; rfl

/-! ### C90: residuals -/

theorem gen_resid {x : Matrix n k ℝ} {y : n → ℝ} (hy : Binary y) (b : k → ℝ) (i : n) :
    phi ((x *ᵥ b) i) * ((y i - Phi ((x *ᵥ b) i)) / (Phi ((x *ᵥ b) i) * (1 - Phi ((x *ᵥ b) i)))) = lamb x y b i := by
  unfold lamb
  have h1 := (Phi_pos ((x *ᵥ b) i)).ne'
  have h2 : 1 - Phi ((x *ᵥ b) i) ≠ 0 := by have := Phi_lt_one ((x *ᵥ b) i); linarith
  rcases hy i with h | h
  · have e : sgn y i = -1 := by simp [sgn, h]
    rw [e, h, neg_one_mul, neg_one_mul, phi_neg, Phi_neg]
    field_simp
    ring
  · have e : sgn y i = 1 := by simp [sgn, h]; norm_num
    rw [e, h, one_mul, one_mul]
    field_simp

/-- C90: the generalised residuals are the derivatives of the log-likelihood contributions: `x'u` is the gradient, so at the
maximum they are orthogonal to every regressor and, with a constant, sum to zero. -/
theorem C90_generalised [DecidableEq k] (x : Matrix n k ℝ) (y : n → ℝ) (hy : Binary y) (o : Optim k)
    (bs : Option (k → ℝ)) (mi : ℕ) (f : Fit n k) (h : baseProbit x y o bs mi = .ok f) :
    (∀ v, HasDerivAt (fun t : ℝ => ll x y (f.betas + t • v)) ((xᵀ *ᵥ f.uGen) ⬝ᵥ v) 0) ∧
    ((∀ b, ll x y b ≤ ll x y f.betas) ↔ xᵀ *ᵥ f.uGen = 0) ∧
    ((∀ b, ll x y b ≤ ll x y f.betas) → (∃ j, ∀ i, x i j = 1) → ∑ i, f.uGen i = 0) := by
  obtain ⟨p, wn, -, -, -, -, -, -, -, -, -, -, hgen, -⟩ := baseProbit_ok h
  have hu : f.uGen = lamb x y f.betas := by rw [hgen]; funext i; exact gen_resid hy f.betas i
  have hgr : xᵀ *ᵥ f.uGen = gradient x y f.betas := by rw [hu, mulVec_transpose]; rfl
  refine ⟨fun v => by rw [hgr]; exact C87_gradient x y f.betas v, ?_, ?_⟩
  · rw [hgr]; exact (C88_stationary_iff_max x y hy _).symm
  · rintro hm ⟨j, hj⟩
    have h0 := (C88_stationary_iff_max x y hy _).2 hm
    rw [← hgr] at h0
    have := congrFun h0 j
    simpa [mulVec, dotProduct, hj] using this

/-- C90: predicted probabilities lie strictly between 0 and 1, and the predicted class is 1 exactly when the probability
exceeds one half, i.e. when the index is positive. -/
theorem C90_predictions [DecidableEq k] (x : Matrix n k ℝ) (y : n → ℝ) (o : Optim k)
    (bs : Option (k → ℝ)) (mi : ℕ) (f : Fit n k) (h : baseProbit x y o bs mi = .ok f) (i : n) :
    0 < f.predy i ∧ f.predy i < 1 ∧ (f.predybin i = 1 ∨ f.predybin i = 0) ∧
    (f.predybin i = 1 ↔ 0 < ∑ j, x i j * f.betas j) := by
  obtain ⟨p, wn, -, -, -, -, -, -, -, hp, -, -, -, h1, h2⟩ := baseProbit_ok h
  refine ⟨by rw [hp]; exact Phi_pos _, by rw [hp]; exact Phi_lt_one _, h1 i, ?_⟩
  rw [h2, hp, ← Phi_zero]
  exact Phi_strictMono.lt_iff_lt

/-- C90: recoding the dependent variable to its complement changes the sign of the coefficients and nothing else. -/
theorem C90_recode (x : Matrix n k ℝ) (y : n → ℝ) (b : k → ℝ) :
    ll x (fun i => 1 - y i) (-b) = ll x y b ∧ gradient x (fun i => 1 - y i) (-b) = -gradient x y b ∧
    hessian x (fun i => 1 - y i) (-b) = hessian x y b := by
  have hs : ∀ i, sgn (fun i => 1 - y i) i = -sgn y i := fun i => by simp [sgn]; ring
  have hz : ∀ i, (x *ᵥ (-b)) i = -(x *ᵥ b) i := fun i => by rw [mulVec_neg]; rfl
  have hl : lamb x (fun i => 1 - y i) (-b) = -lamb x y b := by
    funext i
    simp only [lamb, hs, hz, Pi.neg_apply, neg_mul_neg]
    ring
  refine ⟨?_, ?_, ?_⟩
  · unfold ll
    simp only [hs, hz, neg_mul_neg]
  · unfold gradient; rw [hl, neg_vecMul]
  · unfold hessian
    rw [hl]
    congr 1
    ext i j
    simp only [of_apply, Pi.neg_apply, hz]
    ring

end Spreg.Probit
