import Verif.Spec.Fisher
import Mathlib.LinearAlgebra.Matrix.PosDef
import Mathlib.Analysis.Calculus.Deriv.Mul
import Mathlib.Analysis.Calculus.Deriv.Inv
import Mathlib.Analysis.Calculus.Deriv.Add
import Mathlib.Analysis.SpecialFunctions.Log.Deriv
import Mathlib.LinearAlgebra.Matrix.Adjugate
import Mathlib.Tactic
/-
The information of a Gaussian model is `m'' C⁻¹ m' + tr(C⁻¹ C' C⁻¹ C') / 2` (`m'`, `C'` the derivatives of mean and covariance
matrix): derivatives of determinants and inverses along differentiable paths of matrices.
-/
namespace Spreg.Gauss
open Matrix Filter Topology

variable {ι κ μ : Type} [Fintype ι] [Fintype κ] [Fintype μ]

/-- Derivative of a path of matrices, entry by entry. -/
def MD (C : ℝ → Matrix ι κ ℝ) (C' : Matrix ι κ ℝ) (t : ℝ) : Prop := ∀ i j, HasDerivAt (fun s => C s i j) (C' i j) t

/-- Derivative of a path of vectors. -/
def VD (m : ℝ → ι → ℝ) (m' : ι → ℝ) (t : ℝ) : Prop := ∀ i, HasDerivAt (fun s => m s i) (m' i) t

omit [Fintype ι] [Fintype μ] in
theorem MD.mul {A : ℝ → Matrix ι κ ℝ} {B : ℝ → Matrix κ μ ℝ} {A' : Matrix ι κ ℝ} {B' : Matrix κ μ ℝ} {t : ℝ} (hA : MD A A' t)
    (hB : MD B B' t) : MD (fun s => A s * B s) (A' * B t + A t * B') t := by
  intro i j
  simp only [Matrix.mul_apply, Matrix.add_apply]
  refine (HasDerivAt.fun_sum fun k _ => (hA i k).mul (hB k j)).congr_deriv ?_
  rw [← Finset.sum_add_distrib]

omit [Fintype ι] [Fintype κ] in
theorem MD.add {A B : ℝ → Matrix ι κ ℝ} {A' B' : Matrix ι κ ℝ} {t : ℝ} (hA : MD A A' t) (hB : MD B B' t) :
    MD (fun s => A s + B s) (A' + B') t := fun i j => (hA i j).add (hB i j)

omit [Fintype ι] [Fintype κ] in
theorem MD.neg {A : ℝ → Matrix ι κ ℝ} {A' : Matrix ι κ ℝ} {t : ℝ} (hA : MD A A' t) : MD (fun s => -A s) (-A') t :=
  fun i j => (hA i j).neg

omit [Fintype ι] [Fintype κ] in
theorem MD.sub {A B : ℝ → Matrix ι κ ℝ} {A' B' : Matrix ι κ ℝ} {t : ℝ} (hA : MD A A' t) (hB : MD B B' t) :
    MD (fun s => A s - B s) (A' - B') t := fun i j => (hA i j).sub (hB i j)

omit [Fintype ι] [Fintype κ] in
theorem MD.const (A : Matrix ι κ ℝ) (t : ℝ) : MD (fun _ => A) 0 t := fun i j => hasDerivAt_const t (A i j)

omit [Fintype ι] [Fintype κ] in
theorem MD.transpose {A : ℝ → Matrix ι κ ℝ} {A' : Matrix ι κ ℝ} {t : ℝ} (hA : MD A A' t) : MD (fun s => (A s)ᵀ) A'ᵀ t :=
  fun i j => hA j i

omit [Fintype ι] [Fintype κ] in
theorem MD.smul {f : ℝ → ℝ} {f' : ℝ} {A : ℝ → Matrix ι κ ℝ} {A' : Matrix ι κ ℝ} {t : ℝ} (hf : HasDerivAt f f' t)
    (hA : MD A A' t) : MD (fun s => f s • A s) (f' • A t + f t • A') t := fun i j => hf.mul (hA i j)

omit [Fintype ι] [Fintype κ] in
/-- A straight line. -/
theorem MD.line (A B : Matrix ι κ ℝ) (t : ℝ) : MD (fun s => A + s • B) B t := by
  intro i j
  have := ((hasDerivAt_id t).mul_const (B i j)).const_add (A i j)
  simpa using this

omit [Fintype ι] [Fintype κ] in
theorem MD.congr {A : ℝ → Matrix ι κ ℝ} {A' B' : Matrix ι κ ℝ} {t : ℝ} (hA : MD A A' t) (h : A' = B') : MD A B' t := h ▸ hA

theorem MD.trace {A : ℝ → Matrix ι ι ℝ} {A' : Matrix ι ι ℝ} {t : ℝ} (hA : MD A A' t) :
    HasDerivAt (fun s => (A s).trace) A'.trace t := by
  simp only [Matrix.trace, diag_apply]
  exact HasDerivAt.fun_sum fun i _ => hA i i

omit [Fintype ι] in
theorem VD.mulVec {A : ℝ → Matrix ι κ ℝ} {A' : Matrix ι κ ℝ} {v : ℝ → κ → ℝ} {v' : κ → ℝ} {t : ℝ} (hA : MD A A' t)
    (hv : VD v v' t) : VD (fun s => A s *ᵥ v s) (A' *ᵥ v t + A t *ᵥ v') t := by
  intro i
  simp only [Matrix.mulVec, dotProduct, Pi.add_apply]
  refine (HasDerivAt.fun_sum fun k _ => (hA i k).mul (hv k)).congr_deriv ?_
  rw [← Finset.sum_add_distrib]

theorem VD.dot {u v : ℝ → ι → ℝ} {u' v' : ι → ℝ} {t : ℝ} (hu : VD u u' t) (hv : VD v v' t) :
    HasDerivAt (fun s => u s ⬝ᵥ v s) (u' ⬝ᵥ v t + u t ⬝ᵥ v') t := by
  simp only [dotProduct]
  refine (HasDerivAt.fun_sum fun k _ => (hu k).mul (hv k)).congr_deriv ?_
  rw [← Finset.sum_add_distrib]

omit [Fintype ι] in
theorem VD.const (v : ι → ℝ) (t : ℝ) : VD (fun _ => v) 0 t := fun i => hasDerivAt_const t (v i)

omit [Fintype ι] in
theorem VD.line (u v : ι → ℝ) (t : ℝ) : VD (fun s => u + s • v) v t := by
  intro i
  have := ((hasDerivAt_id t).mul_const (v i)).const_add (u i)
  simpa using this

omit [Fintype ι] in
theorem VD.sub {u v : ℝ → ι → ℝ} {u' v' : ι → ℝ} {t : ℝ} (hu : VD u u' t) (hv : VD v v' t) :
    VD (fun s => u s - v s) (u' - v') t := fun i => (hu i).sub (hv i)

omit [Fintype ι] in
theorem VD.add {u v : ℝ → ι → ℝ} {u' v' : ι → ℝ} {t : ℝ} (hu : VD u u' t) (hv : VD v v' t) :
    VD (fun s => u s + v s) (u' + v') t := fun i => (hu i).add (hv i)

omit [Fintype ι] in
theorem VD.congr {u : ℝ → ι → ℝ} {u' v' : ι → ℝ} {t : ℝ} (hu : VD u u' t) (h : u' = v') : VD u v' t := h ▸ hu

variable [DecidableEq ι]

/-- Jacobi's formula. -/
theorem det_path {C : ℝ → Matrix ι ι ℝ} {C' : Matrix ι ι ℝ} {t : ℝ} (h : MD C C' t) :
    HasDerivAt (fun s => (C s).det) ((C t).adjugate * C').trace t := by
  have e : ((C t).adjugate * C').trace = ∑ i, ((C t).updateCol i fun k => C' k i).det := by
    simp only [Matrix.trace, diag_apply]
    refine Finset.sum_congr rfl fun i _ => ?_
    rw [← cramer_apply, cramer_eq_adjugate_mulVec]
    rfl
  rw [e]
  simp only [det_apply]
  have hp : ∀ σ : Equiv.Perm ι, HasDerivAt (fun s => ∏ i, C s (σ i) i)
      (∑ i, ∏ j, (C t).updateCol i (fun k => C' k i) (σ j) j) t := by
    intro σ
    refine (HasDerivAt.fun_finset_prod (u := Finset.univ) fun i _ => h (σ i) i).congr_deriv ?_
    refine Finset.sum_congr rfl fun i _ => ?_
    rw [← Finset.mul_prod_erase Finset.univ _ (Finset.mem_univ i), updateCol_self, smul_eq_mul, mul_comm]
    congr 1
    refine Finset.prod_congr rfl fun j hj => ?_
    rw [updateCol_ne (Finset.ne_of_mem_erase hj)]
  refine (HasDerivAt.fun_sum fun σ _ => (hp σ).const_smul (Equiv.Perm.sign σ)).congr_deriv ?_
  rw [Finset.sum_comm]
  refine Finset.sum_congr rfl fun σ _ => ?_
  rw [Finset.smul_sum]

theorem MD.continuousAt {C : ℝ → Matrix ι κ ℝ} {C' : Matrix ι κ ℝ} {t : ℝ} (h : MD C C' t) (i : ι) (j : κ) :
    ContinuousAt (fun s => C s i j) t := (h i j).continuousAt

theorem det_near {C : ℝ → Matrix ι ι ℝ} {C' : Matrix ι ι ℝ} {t : ℝ} (h : MD C C' t) (hd : (C t).det ≠ 0) :
    ∀ᶠ s in 𝓝 t, (C s).det ≠ 0 := (det_path h).continuousAt.eventually_ne hd

/-- Derivative of the inverse. -/
theorem inv_path {C : ℝ → Matrix ι ι ℝ} {C' : Matrix ι ι ℝ} {t : ℝ} (h : MD C C' t) (hd : (C t).det ≠ 0) :
    MD (fun s => (C s)⁻¹) (-((C t)⁻¹ * C' * (C t)⁻¹)) t := by
  have hadj : ∀ i j, ∃ d, HasDerivAt (fun s => (C s).adjugate i j) d t := by
    intro i j
    simp only [adjugate_apply]
    have : MD (fun s => (C s).updateRow j (Pi.single i 1)) (C'.updateRow j 0) t := by
      intro a b
      by_cases hab : a = j
      · subst hab; simp only [updateRow_self]; exact hasDerivAt_const _ _
      · simp only [updateRow_ne hab]; exact h a b
    exact ⟨_, det_path this⟩
  have hi : ∀ i j, ∃ d, HasDerivAt (fun s => (C s)⁻¹ i j) d t := by
    intro i j
    obtain ⟨d, hd'⟩ := hadj i j
    refine ⟨_, (((det_path h).inv hd).mul hd').congr_of_eventuallyEq ?_⟩
    filter_upwards with s
    rw [inv_def, Ring.inverse_eq_inv', Matrix.smul_apply, smul_eq_mul]; rfl
  choose D hD using hi
  have hM : MD (fun s => (C s)⁻¹) (Matrix.of D) t := hD
  have hmul := h.mul hM
  have hone : MD (fun s => C s * (C s)⁻¹) 0 t := by
    intro i j
    refine (hasDerivAt_const t ((1 : Matrix ι ι ℝ) i j)).congr_of_eventuallyEq ?_
    filter_upwards [det_near h hd] with s hs
    rw [mul_nonsing_inv _ (isUnit_iff_ne_zero.2 hs)]
  have heq : C' * (C t)⁻¹ + C t * Matrix.of D = 0 := by
    ext i j; exact (hmul i j).unique (hone i j)
  have hu := isUnit_iff_ne_zero.2 hd
  have : Matrix.of D = -((C t)⁻¹ * C' * (C t)⁻¹) := by
    have h2 : (C t)⁻¹ * (C' * (C t)⁻¹ + C t * Matrix.of D) = 0 := by rw [heq, Matrix.mul_zero]
    rw [Matrix.mul_add, ← Matrix.mul_assoc, ← Matrix.mul_assoc, nonsing_inv_mul _ hu, Matrix.one_mul] at h2
    exact eq_neg_of_add_eq_zero_right h2
  exact hM.congr this

/-- Derivative of the logarithm of the determinant. -/
theorem logdet_path {C : ℝ → Matrix ι ι ℝ} {C' : Matrix ι ι ℝ} {t : ℝ} (h : MD C C' t) (hd : (C t).det ≠ 0) :
    HasDerivAt (fun s => Real.log (C s).det) ((C t)⁻¹ * C').trace t := by
  refine ((det_path h).log hd).congr_deriv ?_
  rw [inv_def, Ring.inverse_eq_inv', smul_mul, trace_smul, smul_eq_mul, div_eq_inv_mul]

/-- First derivative of the Gaussian log-likelihood along a path. -/
theorem normalLL_deriv {m : ℝ → ι → ℝ} {m' : ι → ℝ} {C : ℝ → Matrix ι ι ℝ} {C' : Matrix ι ι ℝ} {t : ℝ} (y : ι → ℝ)
    (hm : VD m m' t) (h : MD C C' t) (hd : (C t).det ≠ 0) :
    HasDerivAt (fun s => normalLL (m s) (C s) y)
      (-(1 / 2) * ((C t)⁻¹ * C').trace - 1 / 2 * (-m' ⬝ᵥ ((C t)⁻¹ *ᵥ (y - m t)) +
        (y - m t) ⬝ᵥ (-((C t)⁻¹ * C' * (C t)⁻¹) *ᵥ (y - m t) + (C t)⁻¹ *ᵥ -m'))) t := by
  have hr : VD (fun s => y - m s) (-m') t := ((VD.const y t).sub hm).congr (zero_sub _)
  have hq := hr.dot (VD.mulVec (inv_path h hd) hr)
  unfold normalLL
  exact (((logdet_path h hd).const_mul (1 / 2)).const_sub _ |>.sub (hq.const_mul (1 / 2))).congr_deriv (by ring)

/-- The information of a Gaussian model along a twice differentiable path. -/
theorem fisher_eq {m m' : ℝ → ι → ℝ} {m'' : ι → ℝ} {C C' : ℝ → Matrix ι ι ℝ} {C'' : Matrix ι ι ℝ} (P : Dist (C 0))
    (hm : ∀ᶠ t in 𝓝 0, VD m (m' t) t) (hm2 : VD m' m'' 0) (hC : ∀ᶠ t in 𝓝 0, MD C (C' t) t) (hC2 : MD C' C'' 0)
    (hd : (C 0).det ≠ 0) :
    fisherInfo m C P = m' 0 ⬝ᵥ ((C 0)⁻¹ *ᵥ m' 0) + 1 / 2 * ((C 0)⁻¹ * C' 0 * ((C 0)⁻¹ * C' 0)).trace := by
  have hC0 : MD C (C' 0) 0 := hC.self_of_nhds
  have hm0 : VD m (m' 0) 0 := hm.self_of_nhds
  have hnear := det_near hC0 hd
  have hsym : (C 0)ᵀ = C 0 := by
    ext i j
    rw [transpose_apply, ← P.cov, ← P.cov]
    exact Finset.sum_congr rfl fun w _ => by ring
  have hu := isUnit_iff_ne_zero.2 hd
  set D := (C 0)⁻¹ with hD
  have hDs : Dᵀ = D := by rw [hD, transpose_nonsing_inv, hsym]
  set a := m' 0 with ha
  set B := C' 0 with hB
  -- second derivative for one realisation
  have key : ∀ e : ι → ℝ, deriv (deriv fun t => normalLL (m t) (C t) (m 0 + e)) 0 =
      -(1 / 2) * ((D * C'').trace - (D * B * (D * B)).trace) - a ⬝ᵥ (D *ᵥ a) +
        ((1 / 2 : ℝ) • (m'' ᵥ* D) + (1 / 2 : ℝ) • (D *ᵥ m'') - a ᵥ* (D * B * D) - (D * B * D) *ᵥ a) ⬝ᵥ e
        - 1 / 2 * (e ⬝ᵥ ((D * B * D * B * D + D * B * D * B * D - D * C'' * D) *ᵥ e)) := by
    intro e
    set y := m 0 + e with hy
    have hev : (deriv fun t => normalLL (m t) (C t) y) =ᶠ[𝓝 0] fun t =>
        -(1 / 2) * ((C t)⁻¹ * C' t).trace - 1 / 2 * (-m' t ⬝ᵥ ((C t)⁻¹ *ᵥ (y - m t)) +
        (y - m t) ⬝ᵥ (-((C t)⁻¹ * C' t * (C t)⁻¹) *ᵥ (y - m t) + (C t)⁻¹ *ᵥ -m' t)) := by
      filter_upwards [hm, hC, hnear] with t h1 h2 h3
      exact (normalLL_deriv y h1 h2 h3).deriv
    rw [hev.deriv_eq]
    have hDi : MD (fun s => (C s)⁻¹) (-(D * B * D)) 0 := inv_path hC0 hd
    have hr : VD (fun s => y - m s) (-a) 0 := ((VD.const y 0).sub hm0).congr (zero_sub _)
    have hma : VD (fun s => -m' s) (-m'') 0 := fun i => (hm2 i).neg
    have hT := (hDi.mul hC2).trace
    have hI1 := hma.dot (VD.mulVec hDi hr)
    have hE := ((hDi.mul hC2).mul hDi).neg
    have hI2a : VD (fun s => -((C s)⁻¹ * C' s * (C s)⁻¹) *ᵥ (y - m s)) _ 0 := VD.mulVec hE hr
    have hI2b : VD (fun s => (C s)⁻¹ *ᵥ -m' s) _ 0 := VD.mulVec hDi hma
    have hI2 := hr.dot (hI2a.add hI2b)
    have hfin := (hT.const_mul (-(1 / 2))).sub ((hI1.add hI2).const_mul (1 / 2))
    refine hfin.deriv.trans ?_
    have hye : y - m 0 = e := by rw [hy]; abel
    rw [← hD, ← hB, ← ha, hye]
    simp only [Matrix.add_mul, Matrix.neg_mul, Matrix.mul_neg, neg_dotProduct, dotProduct_neg, mulVec_neg, neg_mulVec, dotProduct_add,
      mulVec_add, add_mulVec, trace_add, trace_neg, neg_neg, Pi.add_apply]
    have a1 : D * B * (D * B) = D * B * D * B := by simp only [Matrix.mul_assoc]
    have a2 : D * B * (D * B * D) = D * B * D * B * D := by simp only [Matrix.mul_assoc]
    rw [a1, a2]
    simp only [sub_dotProduct, add_dotProduct, smul_dotProduct, sub_mulVec, add_mulVec, dotProduct_sub, dotProduct_add,
      ← dotProduct_mulVec, smul_eq_mul]
    rw [dotProduct_comm e ((D * B * D) *ᵥ a), dotProduct_comm e (D *ᵥ m'')]
    ring
  have hlin : ∀ g : ι → ℝ, ∑ w, P.p w * (g ⬝ᵥ P.eps w) = 0 := by
    intro g
    simp only [dotProduct, Finset.mul_sum]
    rw [Finset.sum_comm]
    refine Finset.sum_eq_zero fun i _ => ?_
    have : ∀ w, P.p w * (g i * P.eps w i) = g i * (P.p w * P.eps w i) := fun w => by ring
    simp only [this]
    rw [← Finset.mul_sum, P.mean, mul_zero]
  have hquad : ∀ M : Matrix ι ι ℝ, ∑ w, P.p w * (P.eps w ⬝ᵥ (M *ᵥ P.eps w)) = (M * C 0).trace := by
    intro M
    simp only [dotProduct, Matrix.mulVec, Finset.mul_sum, Matrix.trace, diag_apply, Matrix.mul_apply]
    rw [Finset.sum_comm]
    refine Finset.sum_congr rfl fun i _ => ?_
    rw [Finset.sum_comm]
    refine Finset.sum_congr rfl fun j _ => ?_
    rw [← P.cov j i, Finset.mul_sum]
    exact Finset.sum_congr rfl fun w _ => by ring
  unfold fisherInfo
  simp only [key]
  set c0 := -(1 / 2) * ((D * C'').trace - (D * B * (D * B)).trace) - a ⬝ᵥ (D *ᵥ a) with hc0
  set g := (1 / 2 : ℝ) • (m'' ᵥ* D) + (1 / 2 : ℝ) • (D *ᵥ m'') - a ᵥ* (D * B * D) - (D * B * D) *ᵥ a with hg
  set M := D * B * D * B * D + D * B * D * B * D - D * C'' * D with hM
  have hs : ∀ w, P.p w * -(c0 + g ⬝ᵥ P.eps w - 1 / 2 * (P.eps w ⬝ᵥ (M *ᵥ P.eps w))) =
      P.p w * -c0 - P.p w * (g ⬝ᵥ P.eps w) + 1 / 2 * (P.p w * (P.eps w ⬝ᵥ (M *ᵥ P.eps w))) := fun w => by ring
  simp only [hs]
  rw [Finset.sum_add_distrib, Finset.sum_sub_distrib, ← Finset.sum_mul, P.total, hlin, ← Finset.mul_sum, hquad, hM]
  have hMC : ((D * B * D * B * D + D * B * D * B * D - D * C'' * D) * C 0).trace =
      2 * (D * B * (D * B)).trace - (D * C'').trace := by
    have h1 : D * C 0 = 1 := nonsing_inv_mul _ hu
    rw [Matrix.sub_mul, Matrix.add_mul, Matrix.mul_assoc _ D (C 0), Matrix.mul_assoc _ D (C 0), h1, Matrix.mul_one,
      Matrix.mul_one, trace_sub, trace_add]
    have a1 : D * B * (D * B) = D * B * D * B := by simp only [Matrix.mul_assoc]
    rw [a1]; ring
  rw [hMC, hc0]
  ring

/-- Distributions with a given covariance matrix exist: `eps = ± sqrt(N) L e_i` with `S = L L'`. -/
noncomputable def distOf [Nonempty ι] (L : Matrix ι ι ℝ) : Dist (L * Lᵀ) where
  Ω := ι × Bool
  fin := inferInstance
  p := fun _ => 1 / (2 * Fintype.card ι)
  eps := fun w i => (if w.2 then 1 else -1) * (Real.sqrt (Fintype.card ι) * L i w.1)
  nonneg := fun _ => by positivity
  total := by
    have : (Fintype.card ι : ℝ) ≠ 0 := Nat.cast_ne_zero.2 Fintype.card_ne_zero
    simp [Fintype.card_prod]
    field_simp
  mean := by
    intro i
    rw [Fintype.sum_prod_type]
    refine Finset.sum_eq_zero fun k _ => ?_
    simp
  cov := by
    intro i j
    have h0 : (Fintype.card ι : ℝ) ≠ 0 := Nat.cast_ne_zero.2 Fintype.card_ne_zero
    have hsq : Real.sqrt (Fintype.card ι) * Real.sqrt (Fintype.card ι) = Fintype.card ι := Real.mul_self_sqrt (Nat.cast_nonneg _)
    rw [Fintype.sum_prod_type, Matrix.mul_apply]
    refine Finset.sum_congr rfl fun k _ => ?_
    simp only [Fintype.sum_bool, if_true, transpose_apply]
    have : (1 / (2 * (Fintype.card ι : ℝ))) * (1 * (√(Fintype.card ι : ℝ) * L i k) * (1 * (√(Fintype.card ι : ℝ) * L j k))) =
      (1 / (2 * (Fintype.card ι : ℝ))) * ((√(Fintype.card ι : ℝ) * √(Fintype.card ι : ℝ)) * (L i k * L j k)) := by ring
    rw [this, hsq]
    simp only [Bool.false_eq_true, if_false]
    have : (1 / (2 * (Fintype.card ι : ℝ))) * (-1 * (√(Fintype.card ι : ℝ) * L i k) * (-1 * (√(Fintype.card ι : ℝ) * L j k))) =
      (1 / (2 * (Fintype.card ι : ℝ))) * ((√(Fintype.card ι : ℝ) * √(Fintype.card ι : ℝ)) * (L i k * L j k)) := by ring
    rw [this, hsq]
    field_simp
    ring

/-- Trace of a similar matrix: with `C = F Ω F'` and `C' = F M F'`. -/
theorem trace_conj {F Ω M : Matrix ι ι ℝ} (hF : IsUnit F.det) :
    ((F * Ω * Fᵀ)⁻¹ * (F * M * Fᵀ) * ((F * Ω * Fᵀ)⁻¹ * (F * M * Fᵀ))).trace = (Ω⁻¹ * M * (Ω⁻¹ * M)).trace := by
  have hFt : IsUnit (Fᵀ).det := by rwa [det_transpose]
  have e : (F * Ω * Fᵀ)⁻¹ * (F * M * Fᵀ) = Fᵀ⁻¹ * (Ω⁻¹ * M) * Fᵀ := by
    rw [Matrix.mul_inv_rev, Matrix.mul_inv_rev]
    calc Fᵀ⁻¹ * (Ω⁻¹ * F⁻¹) * (F * M * Fᵀ) = Fᵀ⁻¹ * Ω⁻¹ * (F⁻¹ * F) * M * Fᵀ := by simp only [Matrix.mul_assoc]
      _ = _ := by rw [nonsing_inv_mul _ hF, Matrix.mul_one]; simp only [Matrix.mul_assoc]
  rw [e]
  calc (Fᵀ⁻¹ * (Ω⁻¹ * M) * Fᵀ * (Fᵀ⁻¹ * (Ω⁻¹ * M) * Fᵀ)).trace
      = (Fᵀ⁻¹ * (Ω⁻¹ * M) * (Fᵀ * Fᵀ⁻¹) * (Ω⁻¹ * M) * Fᵀ).trace := by simp only [Matrix.mul_assoc]
    _ = (Fᵀ⁻¹ * (Ω⁻¹ * M * (Ω⁻¹ * M)) * Fᵀ).trace := by
        rw [mul_nonsing_inv _ hFt, Matrix.mul_one]; simp only [Matrix.mul_assoc]
    _ = _ := by rw [trace_mul_comm, ← Matrix.mul_assoc, mul_nonsing_inv _ hFt, Matrix.one_mul]

/-! ### Twice differentiable paths -/

omit [DecidableEq ι] in
/-- A path twice differentiable at 0, with derivative `B` there. -/
def MD2 (C : ℝ → Matrix ι κ ℝ) (B : Matrix ι κ ℝ) : Prop :=
  ∃ C' : ℝ → Matrix ι κ ℝ, ∃ C'', (∀ᶠ t in 𝓝 0, MD C (C' t) t) ∧ MD C' C'' 0 ∧ C' 0 = B

omit [DecidableEq ι] in
/-- The same for vectors. -/
def VD2 (m : ℝ → ι → ℝ) (a : ι → ℝ) : Prop :=
  ∃ m' : ℝ → ι → ℝ, ∃ m'', (∀ᶠ t in 𝓝 0, VD m (m' t) t) ∧ VD m' m'' 0 ∧ m' 0 = a

omit [DecidableEq ι] [Fintype ι] [Fintype κ] in
theorem MD2.congr {A : ℝ → Matrix ι κ ℝ} {A' B' : Matrix ι κ ℝ} (hA : MD2 A A') (h : A' = B') : MD2 A B' := h ▸ hA

omit [DecidableEq ι] [Fintype ι] [Fintype κ] in
theorem MD2.line (A B : Matrix ι κ ℝ) : MD2 (fun t => A + t • B) B :=
  ⟨fun _ => B, 0, Eventually.of_forall fun t => MD.line A B t, MD.const B 0, rfl⟩

omit [DecidableEq ι] [Fintype ι] [Fintype κ] in
theorem MD2.const (A : Matrix ι κ ℝ) : MD2 (fun _ => A) 0 :=
  ⟨fun _ => 0, 0, Eventually.of_forall fun t => MD.const A t, MD.const 0 0, rfl⟩

omit [DecidableEq ι] [Fintype ι] in
theorem VD2.line (u v : ι → ℝ) : VD2 (fun t => u + t • v) v :=
  ⟨fun _ => v, 0, Eventually.of_forall fun t => VD.line u v t, VD.const v 0, rfl⟩

omit [DecidableEq ι] [Fintype ι] [Fintype κ] in
theorem MD2.add {A B : ℝ → Matrix ι κ ℝ} {A' B' : Matrix ι κ ℝ} (hA : MD2 A A') (hB : MD2 B B') :
    MD2 (fun t => A t + B t) (A' + B') := by
  obtain ⟨a, a2, h1, h2, rfl⟩ := hA
  obtain ⟨b, b2, h3, h4, rfl⟩ := hB
  exact ⟨fun t => a t + b t, a2 + b2, by filter_upwards [h1, h3] with t x y using x.add y, h2.add h4, rfl⟩

omit [DecidableEq ι] [Fintype ι] [Fintype κ] in
theorem MD2.transpose {A : ℝ → Matrix ι κ ℝ} {A' : Matrix ι κ ℝ} (hA : MD2 A A') : MD2 (fun t => (A t)ᵀ) A'ᵀ := by
  obtain ⟨a, a2, h1, h2, rfl⟩ := hA
  exact ⟨fun t => (a t)ᵀ, a2ᵀ, by filter_upwards [h1] with t x using x.transpose, h2.transpose, rfl⟩

omit [DecidableEq ι] [Fintype ι] [Fintype μ] in
theorem MD2.mul {A : ℝ → Matrix ι κ ℝ} {B : ℝ → Matrix κ μ ℝ} {A' : Matrix ι κ ℝ} {B' : Matrix κ μ ℝ} (hA : MD2 A A')
    (hB : MD2 B B') : MD2 (fun t => A t * B t) (A' * B 0 + A 0 * B') := by
  obtain ⟨a, a2, h1, h2, rfl⟩ := hA
  obtain ⟨b, b2, h3, h4, rfl⟩ := hB
  exact ⟨fun t => a t * B t + A t * b t, _, by filter_upwards [h1, h3] with t x y using x.mul y,
    (h2.mul h3.self_of_nhds).add (h1.self_of_nhds.mul h4), rfl⟩

omit [DecidableEq ι] [Fintype ι] in
theorem VD2.mulVec {A : ℝ → Matrix ι κ ℝ} {v : ℝ → κ → ℝ} {A' : Matrix ι κ ℝ} {v' : κ → ℝ} (hA : MD2 A A')
    (hv : VD2 v v') : VD2 (fun t => A t *ᵥ v t) (A' *ᵥ v 0 + A 0 *ᵥ v') := by
  obtain ⟨a, a2, h1, h2, rfl⟩ := hA
  obtain ⟨b, b2, h3, h4, rfl⟩ := hv
  exact ⟨fun t => a t *ᵥ v t + A t *ᵥ b t, _, by filter_upwards [h1, h3] with t x y using VD.mulVec x y,
    (VD.mulVec h2 h3.self_of_nhds).add (VD.mulVec h1.self_of_nhds h4), rfl⟩

omit [DecidableEq ι] [Fintype ι] [Fintype κ] in
theorem MD2.smul_line (c d : ℝ) {A : ℝ → Matrix ι κ ℝ} {A' : Matrix ι κ ℝ} (hA : MD2 A A') :
    MD2 (fun t => (c + t * d) • A t) (d • A 0 + c • A') := by
  obtain ⟨a, a2, h1, h2, rfl⟩ := hA
  have hf : ∀ t, HasDerivAt (fun s : ℝ => c + s * d) d t := fun t => by
    simpa using ((hasDerivAt_id t).mul_const d).const_add c
  refine ⟨fun t => d • A t + (c + t * d) • a t, _, by filter_upwards [h1] with t x using MD.smul (hf t) x,
    (MD.smul (hasDerivAt_const 0 d) h1.self_of_nhds).add (MD.smul (hf 0) h2), by simp⟩

theorem MD2.inv {A : ℝ → Matrix ι ι ℝ} {A' : Matrix ι ι ℝ} (hA : MD2 A A') (hd : (A 0).det ≠ 0) :
    MD2 (fun t => (A t)⁻¹) (-((A 0)⁻¹ * A' * (A 0)⁻¹)) := by
  obtain ⟨a, a2, h1, h2, rfl⟩ := hA
  have h0 := h1.self_of_nhds
  have hi := inv_path h0 hd
  exact ⟨fun t => -((A t)⁻¹ * a t * (A t)⁻¹), _, by filter_upwards [h1, det_near h0 hd] with t x y using inv_path x y,
    ((hi.mul h2).mul hi).neg, rfl⟩

/-- The information of a Gaussian model. -/
theorem fisher {m : ℝ → ι → ℝ} {a : ι → ℝ} {C : ℝ → Matrix ι ι ℝ} {B : Matrix ι ι ℝ} (P : Dist (C 0)) (hm : VD2 m a)
    (hC : MD2 C B) (hd : (C 0).det ≠ 0) :
    fisherInfo m C P = a ⬝ᵥ ((C 0)⁻¹ *ᵥ a) + 1 / 2 * ((C 0)⁻¹ * B * ((C 0)⁻¹ * B)).trace := by
  obtain ⟨m', m'', h1, h2, rfl⟩ := hm
  obtain ⟨C', C'', h3, h4, rfl⟩ := hC
  exact fisher_eq P h1 h2 h3 h4 hd

end Spreg.Gauss
