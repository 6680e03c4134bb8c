import Verif.Model.MLFull
import Verif.Props.GMEquiv3
import Verif.Props.ML2
import Verif.Props.Impacts
/-
C149: maximum likelihood estimates do not depend on the order of the observations, on units or on the basis of the regressors.
The change of data is `GM.Tr` (Props/GMEquiv.lean).
-/
namespace Spreg.ML
open Matrix Spreg Spreg.Lin Spreg.Impacts Spreg.GM

variable {m n k : Type} [Fintype m] [Fintype n] [Fintype k] [DecidableEq m] [DecidableEq n] [DecidableEq k]

/-! ### The Jacobian -/

theorem filledA_tr (t : Tr m n k) (W : Matrix n n ℝ) (rho : ℝ) : filledA (t.w W) rho = t.w (filledA W rho) := by
  ext i j
  simp only [filledA, Tr.w, submatrix_apply, of_apply, t.σ.injective.eq_iff]

theorem det_tr (t : Tr m n k) (A : Matrix n n ℝ) : (t.w A).det = A.det := det_submatrix_equiv_self t.σ A

theorem inv?_tr (t : Tr m n k) (A : Matrix n n ℝ) : inv? (t.w A) = (inv? A).map t.w := by
  unfold inv?
  rw [det_tr]
  by_cases h : IsUnit A.det
  · rw [if_pos h, if_pos h, Option.map_some]
    congr 1
    refine Matrix.inv_eq_right_inv ?_
    rw [t.w_mul, mul_nonsing_inv _ h]
    ext i j
    simp [Tr.w, one_apply, t.σ.injective.eq_iff]
  · rw [if_neg h, if_neg h]; rfl

/-- **C149** (Jacobian): the log-determinant of `I - rho W`, and the characteristic polynomial that the eigenvalue method uses,
are those of the reordered weights. -/
theorem C149_jacobian (t : Tr m n k) (W : Matrix n n ℝ) (rho : ℝ) :
    jacFull (t.w W) rho = jacFull W rho ∧ (1 - rho • t.w W).det = (1 - rho • W).det ∧ (t.w W).charpoly = W.charpoly := by
  refine ⟨?_, ?_, ?_⟩
  · unfold jacFull
    rw [filledA_tr, det_tr]
  · rw [← det_tr t (1 - rho • W)]
    congr 1
    ext i j
    simp [Tr.w, one_apply, t.σ.injective.eq_iff]
  · exact Matrix.charpoly_reindex t.σ.symm W

/-! ### Spatial lag -/

/-- What the quantities before the optimisation become. -/
def _root_.Spreg.GM.Tr.lagPre (t : Tr m n k) (p : LagPre n k) : LagPre m k where
  xtxi := t.Ti * p.xtxi * t.Tiᵀ
  b0 := t.c • (t.Ti *ᵥ p.b0)
  b1 := t.c • (t.Ti *ᵥ p.b1)
  e0 := t.u p.e0
  e1 := t.u p.e1

theorem Ti_T (t : Tr m n k) (v : k → ℝ) : t.Ti *ᵥ (t.Tiᵀ *ᵥ (t.Tᵀ *ᵥ v)) = t.Ti *ᵥ v := by
  rw [mulVec_mulVec v t.Tiᵀ t.Tᵀ, ← transpose_mul, t.hT, transpose_one, one_mulVec]

theorem coef_tr (t : Tr m n k) (B : Matrix k k ℝ) (x : Matrix n k ℝ) (y : n → ℝ) :
    (t.Ti * B * t.Tiᵀ) *ᵥ ((t.x x)ᵀ *ᵥ t.u y) = t.c • (t.Ti *ᵥ (B *ᵥ (xᵀ *ᵥ y))) := by
  rw [t.u_eq, t.xT_mulVec, mulVec_smul, mulVec_smul, mulVec_smul, ← mulVec_mulVec, ← mulVec_mulVec,
    mulVec_mulVec _ t.Tiᵀ t.Tᵀ, ← transpose_mul, t.hT, transpose_one, one_mulVec]

theorem resid_tr (t : Tr m n k) (x : Matrix n k ℝ) (y : n → ℝ) (b : k → ℝ) :
    t.u y - t.x x *ᵥ (t.c • (t.Ti *ᵥ b)) = t.u (y - x *ᵥ b) := by
  rw [mulVec_smul, t.x_mulVec, mulVec_mulVec b, t.hT, one_mulVec]
  funext i
  simp only [Tr.u, Pi.sub_apply, Pi.smul_apply, smul_eq_mul]
  ring

theorem lagPre_tr (t : Tr m n k) (y : n → ℝ) (x : Matrix n k ℝ) (W : Matrix n n ℝ) :
    lagPre (t.u y) (t.x x) (t.w W) = (lagPre y x W).map t.lagPre := by
  unfold lagPre
  rw [t.xx, inv?_conj _ _ _ t.hT t.hTi, Option.map_map, Option.map_map]
  congr 1
  funext B
  simp only [Function.comp_apply, Tr.lagPre, LagPre.mk.injEq, t.w_mulVec, coef_tr, resid_tr, and_self]

theorem er_tr (t : Tr m n k) (e0 e1 : n → ℝ) (rho : ℝ) : t.u e0 - rho • t.u e1 = t.u (e0 - rho • e1) := by
  funext i
  simp only [Tr.u, Pi.sub_apply, Pi.smul_apply, smul_eq_mul]
  ring

theorem card_tr (t : Tr m n k) : Fintype.card m = Fintype.card n := Fintype.card_congr t.σ

theorem log_sq (t : Tr m n k) : Real.log (t.c ^ 2) = 2 * Real.log |t.c| := by
  rw [Real.log_pow, Real.log_abs]; norm_num

/-- **C149** (lag, objective): the objective of the reordered and rescaled data is the old one plus a constant, so that both
have the same minimisers on every set of values of rho where the residuals do not vanish. -/
theorem C149_lag_objective [Nonempty n] (t : Tr m n k) (y : n → ℝ) (x : Matrix n k ℝ) (W : Matrix n n ℝ) (p : LagPre n k)
    (h : lagPre y x W = some p) (jac : ℝ → ℝ) :
    ∃ p', lagPre (t.u y) (t.x x) (t.w W) = some p' ∧
      (∀ rho, p.e0 - rho • p.e1 ≠ 0 → lagObj p' jac rho = lagObj p jac rho + (Fintype.card n : ℝ) * Real.log |t.c|) ∧
      ∀ S : Set ℝ, (∀ r ∈ S, p.e0 - r • p.e1 ≠ 0) → ∀ rho ∈ S,
        ((∀ r ∈ S, lagObj p' jac rho ≤ lagObj p' jac r) ↔ ∀ r ∈ S, lagObj p jac rho ≤ lagObj p jac r) := by
  have key : ∀ rho, p.e0 - rho • p.e1 ≠ 0 →
      lagObj (t.lagPre p) jac rho = lagObj p jac rho + (Fintype.card n : ℝ) * Real.log |t.c| := by
    intro rho h0
    have hpos : (p.e0 - rho • p.e1) ⬝ᵥ (p.e0 - rho • p.e1) ≠ 0 := by
      rw [← utu_eq_dot]
      exact fun e => h0 ((utu_eq_zero _).1 e)
    have hN : (Fintype.card n : ℝ) ≠ 0 := by exact_mod_cast Fintype.card_ne_zero
    unfold lagObj lagCLoglik
    simp only [Tr.lagPre, er_tr, t.u_dot, card_tr t]
    rw [mul_div_assoc, Real.log_mul (pow_ne_zero _ t.hc) (div_ne_zero hpos hN), log_sq]
    ring
  refine ⟨t.lagPre p, by rw [lagPre_tr, h]; rfl, key, fun S hS rho hr => ?_⟩
  refine forall₂_congr fun r h1 => ?_
  rw [key _ (hS _ hr), key _ (hS _ h1)]
  exact add_le_add_iff_right _

theorem sig2n_tr (t : Tr m n k) (u : n → ℝ) : sig2n (t.u u) = t.c ^ 2 * sig2n u := by
  unfold sig2n
  rw [utu_eq_dot, utu_eq_dot, t.u_dot, card_tr t]
  ring

/-- **C149** (lag, estimates): at the same rho, coefficients, residuals, predictions and variance are those of the old data in
the new order, units and basis, and the log-likelihood differs by the Jacobian of the change of units. -/
theorem C149_lag_fit [Nonempty n] (t : Tr m n k) (y : n → ℝ) (x : Matrix n k ℝ) (W : Matrix n n ℝ) (p : LagPre n k)
    (h : lagPre y x W = some p) (rho jac : ℝ) :
    ∃ p', lagPre (t.u y) (t.x x) (t.w W) = some p' ∧
      let f := lagFit p y rho jac
      let f' := lagFit p' (t.u y) rho jac
      f'.b = t.c • (t.Ti *ᵥ f.b) ∧ f'.rho = f.rho ∧ f'.u = t.u f.u ∧ f'.predy = t.u f.predy ∧
      f'.sig2 = t.c ^ 2 * f.sig2 ∧
      (f.u ≠ 0 → f'.logll = f.logll - (Fintype.card n : ℝ) * Real.log |t.c|) := by
  obtain ⟨q, hq, hobj, -⟩ := C149_lag_objective t y x W p h (fun _ => jac)
  have hq' : q = t.lagPre p := by
    rw [lagPre_tr, h] at hq
    exact (Option.some.inj hq).symm
  refine ⟨q, hq, ?_⟩
  subst hq'
  refine ⟨?_, rfl, er_tr t _ _ _, ?_, ?_, fun h0 => ?_⟩
  · simp only [lagFit, Tr.lagPre, mulVec_sub, mulVec_smul, smul_sub]
    rw [smul_comm rho t.c]
  · simp only [lagFit, Tr.lagPre, er_tr]
    funext i
    simp only [Tr.u, Pi.sub_apply]
    ring
  · simp only [lagFit, Tr.lagPre, er_tr, sig2n_tr]
  · have := hobj rho h0
    simp only [lagObj] at this
    simp only [lagFit, card_tr t]
    rw [this]
    ring

/-! ### Covariance matrix of the lag model -/

theorem traces_tr (t : Tr m n k) (W : Matrix n n ℝ) (rho : ℝ) : traces (t.w W) rho = traces W rho := by
  unfold traces
  rw [filledA_tr, inv?_tr, Option.map_map]
  congr 1
  funext ai
  have ht : ∀ A : Matrix n n ℝ, (t.w A).trace = A.trace := fun A => t.w_tr A
  simp only [Function.comp_apply, t.w_mul, t.w_transpose, ht]

/-- What the covariance matrix of (coefficients, rho, sig2) becomes: the coefficients change to `c Ti b`, sig2 to `c^2 sig2`. -/
def _root_.Spreg.GM.Tr.vm1 (t : Tr m n k) (V : Matrix (k ⊕ (Unit ⊕ Unit)) (k ⊕ (Unit ⊕ Unit)) ℝ) :
    Matrix (k ⊕ (Unit ⊕ Unit)) (k ⊕ (Unit ⊕ Unit)) ℝ :=
  let D : Matrix (k ⊕ (Unit ⊕ Unit)) (k ⊕ (Unit ⊕ Unit)) ℝ :=
    fromBlocks (t.c • t.Ti) 0 0 (fromBlocks 1 0 0 (Matrix.of fun _ _ => t.c ^ 2))
  D * V * Dᵀ

/-- The matrix by which the information changes. -/
noncomputable def infoS (t : Tr m n k) : Matrix (k ⊕ (Unit ⊕ Unit)) (k ⊕ (Unit ⊕ Unit)) ℝ :=
  fromBlocks (t.c⁻¹ • t.T) 0 0 (fromBlocks 1 0 0 (Matrix.of fun _ _ => (t.c ^ 2)⁻¹))

theorem lagInfo_blocks (x : Matrix n k ℝ) (wpy : n → ℝ) (sig2 : ℝ) (t : ℝ × ℝ × ℝ) :
    lagInfo x wpy sig2 t = fromBlocks (sig2⁻¹ • (xᵀ * x))
      (fromCols (Matrix.of fun i (_ : Unit) => (xᵀ *ᵥ wpy) i / sig2) (0 : Matrix k Unit ℝ))
      (fromRows (Matrix.of fun (_ : Unit) i => (xᵀ *ᵥ wpy) i / sig2) (0 : Matrix Unit k ℝ))
      (fromBlocks (Matrix.of fun _ _ => t.2.1 + t.2.2 + wpy ⬝ᵥ wpy / sig2) (Matrix.of fun _ _ => t.1 / sig2)
        (Matrix.of fun _ _ => t.1 / sig2) (Matrix.of fun _ _ => (Fintype.card n : ℝ) / (2 * sig2 ^ 2))) := by
  ext i j
  rcases i with i | i | i <;> rcases j with j | j | j <;> simp [lagInfo, div_eq_inv_mul]

theorem lagInfo_tr (t : Tr m n k) (x : Matrix n k ℝ) (wpy : n → ℝ) (sig2 : ℝ) (tr : ℝ × ℝ × ℝ) :
    lagInfo (t.x x) (t.u wpy) (t.c ^ 2 * sig2) tr = (infoS t)ᵀ * lagInfo x wpy sig2 tr * infoS t := by
  have hc := t.hc
  have hv : (t.x x)ᵀ *ᵥ t.u wpy = t.c • (t.Tᵀ *ᵥ (xᵀ *ᵥ wpy)) := by
    rw [t.u_eq, t.xT_mulVec, mulVec_smul, mulVec_smul]
  rw [lagInfo_blocks, lagInfo_blocks, infoS, fromBlocks_transpose, fromBlocks_multiply, fromBlocks_multiply, hv, t.xx,
    t.u_dot, card_tr t]
  generalize xᵀ *ᵥ wpy = v
  ext i j
  rcases i with i | i | i <;> rcases j with j | j | j
  · simp only [fromBlocks_apply₁₁, transpose_zero, Matrix.zero_mul, Matrix.mul_zero, add_zero, transpose_smul, Matrix.smul_mul,
      Matrix.mul_smul, Matrix.smul_apply, smul_eq_mul]
    field_simp
  · simp [Matrix.mul_apply, mulVec, dotProduct, Finset.sum_div, Finset.mul_sum]
    refine Fintype.sum_congr _ _ fun a => ?_
    field_simp
  · simp [Matrix.mul_apply]
  · simp [Matrix.mul_apply, mulVec, dotProduct, Finset.sum_div, Finset.mul_sum]
    refine Fintype.sum_congr _ _ fun a => ?_
    field_simp
  · simp [Matrix.mul_apply]
    field_simp
  · simp [Matrix.mul_apply]
    field_simp
  · simp [Matrix.mul_apply]
  · simp [Matrix.mul_apply]
    field_simp
  · simp [Matrix.mul_apply]
    field_simp

theorem infoS_inv (t : Tr m n k) :
    infoS t * fromBlocks (t.c • t.Ti) 0 0 (fromBlocks 1 0 0 (Matrix.of fun _ _ => t.c ^ 2)) = 1 ∧
    (fromBlocks (t.c • t.Ti) 0 0 (fromBlocks 1 0 0 (Matrix.of fun _ _ => t.c ^ 2)) : Matrix (k ⊕ (Unit ⊕ Unit)) _ ℝ) * infoS t = 1 := by
  have hc := t.hc
  have e1 : (Matrix.of fun _ _ => (t.c ^ 2)⁻¹ : Matrix Unit Unit ℝ) * Matrix.of (fun _ _ => t.c ^ 2) = 1 := by
    ext i j; simp [Matrix.mul_apply, hc]
  have e2 : (Matrix.of fun _ _ => t.c ^ 2 : Matrix Unit Unit ℝ) * Matrix.of (fun _ _ => (t.c ^ 2)⁻¹) = 1 := by
    ext i j; simp [Matrix.mul_apply, hc]
  constructor
  · rw [infoS, fromBlocks_multiply, fromBlocks_multiply]
    simp only [Matrix.mul_zero, Matrix.zero_mul, add_zero, zero_add, Matrix.one_mul, smul_mul_smul_comm, inv_mul_cancel₀ hc, one_smul,
      t.hT, e1, fromBlocks_one]
  · rw [infoS, fromBlocks_multiply, fromBlocks_multiply]
    simp only [Matrix.mul_zero, Matrix.zero_mul, add_zero, zero_add, Matrix.one_mul, smul_mul_smul_comm, mul_inv_cancel₀ hc, one_smul,
      t.hTi, e2, fromBlocks_one]

/-- **C149** (lag, covariance matrix): reduced-form predictions `z = rho W z + x b` of the new data are the old ones in the new
order and units, and the covariance matrix of coefficients, rho and sig2 computed from them changes as it should; it exists for
the new data exactly if it does for the old. -/
theorem C149_lag_vm (t : Tr m n k) (x : Matrix n k ℝ) (W : Matrix n n ℝ) (rho sig2 : ℝ) (b : k → ℝ) (z : n → ℝ) :
    (z = rho • (W *ᵥ z) + x *ᵥ b ↔ t.u z = rho • (t.w W *ᵥ t.u z) + t.x x *ᵥ (t.c • (t.Ti *ᵥ b))) ∧
    lagVm1 (t.x x) (t.w W) rho (t.c ^ 2 * sig2) (t.u z) = (lagVm1 x W rho sig2 z).map t.vm1 := by
  constructor
  · rw [mulVec_smul, t.x_mulVec, mulVec_mulVec b, t.hT, one_mulVec, t.w_mulVec]
    constructor
    · intro h
      funext i
      have := congrFun h (t.σ i)
      simp only [Tr.u, Pi.add_apply, Pi.smul_apply, smul_eq_mul] at this ⊢
      rw [this]
      ring
    · intro h
      funext i
      have := congrFun h (t.σ.symm i)
      simp only [Tr.u, Pi.add_apply, Pi.smul_apply, smul_eq_mul, Equiv.apply_symm_apply] at this ⊢
      have hc := t.hc
      refine mul_left_cancel₀ hc ?_
      rw [this]
      ring
  · unfold lagVm1
    rw [traces_tr, Option.map_bind]
    congr 1
    funext tr
    rw [t.w_mulVec, lagInfo_tr, inv?_conj _ _ _ (infoS_inv t).1 (infoS_inv t).2]
    rfl

/-! ### Spatial error -/

theorem errFit_ols (y : n → ℝ) (x : Matrix n k ℝ) (W : Matrix n n ℝ) (lam jac : ℝ) :
    errFit y x W lam jac = (Lin.ols (spFilterM W lam x) (spFilter W lam y)).map fun o =>
      { b := o.betas, lam := lam, xsxsi := o.xtxi, u := y - x *ᵥ o.betas, predy := y - (y - x *ᵥ o.betas)
        eFiltered := spFilter W lam (y - x *ᵥ o.betas)
        sig2 := spFilter W lam (y - x *ᵥ o.betas) ⬝ᵥ spFilter W lam (y - x *ᵥ o.betas) / Fintype.card n
        logll := -((Fintype.card n : ℝ) / 2 * Real.log (errSig2 o.xtxi (spFilterM W lam x) (spFilter W lam y)) - jac)
          - (Fintype.card n : ℝ) / 2 * Real.log (2 * Real.pi) - (Fintype.card n : ℝ) / 2 } := by
  unfold errFit Lin.ols
  rw [Option.map_map]
  rfl

theorem errFit_ll {y : n → ℝ} {x : Matrix n k ℝ} {W : Matrix n n ℝ} {lam jac : ℝ} {f : ErrFit n k}
    (h : errFit y x W lam jac = some f) :
    f.logll = -((Fintype.card n : ℝ) / 2 * Real.log f.sig2 - jac) - (Fintype.card n : ℝ) / 2 * Real.log (2 * Real.pi)
      - (Fintype.card n : ℝ) / 2 := by
  obtain ⟨-, -, -, h4, -⟩ := C37_err y x W lam jac f h
  rw [errFit_ols] at h
  obtain ⟨o, -, rfl⟩ := Option.map_eq_some_iff.1 h
  rw [← h4]
  rfl

/-- **C149** (error, estimates): for the reordered data in other units, with other combinations of the regressors and a
combination of them added to the dependent variable, the fit at the same lambda is the old fit in the new order, units and basis;
the log-likelihood differs by the Jacobian of the change of units; and a fit exists for the new data exactly if it does for the
old. -/
theorem C149_error_fit [Nonempty n] (t : Tr m n k) (y : n → ℝ) (x : Matrix n k ℝ) (W : Matrix n n ℝ) (lam jac : ℝ) :
    (∀ f, errFit y x W lam jac = some f → ∃ f', errFit (t.y x y) (t.x x) (t.w W) lam jac = some f' ∧
      f'.b = t.b f.b ∧ f'.lam = f.lam ∧ f'.u = t.u f.u ∧ f'.predy = t.y x f.predy ∧ f'.eFiltered = t.u f.eFiltered ∧
      f'.sig2 = t.c ^ 2 * f.sig2 ∧ f'.sig2 • f'.xsxsi = t.v (f.sig2 • f.xsxsi) ∧
      (f.eFiltered ≠ 0 → f'.logll = f.logll - (Fintype.card n : ℝ) * Real.log |t.c|)) ∧
    (errFit y x W lam jac = none → errFit (t.y x y) (t.x x) (t.w W) lam jac = none) := by
  have hmap : Lin.ols (spFilterM (t.w W) lam (t.x x)) (spFilter (t.w W) lam (t.y x y)) =
      (Lin.ols (spFilterM W lam x) (spFilter W lam y)).map (t.ols (spFilterM W lam x)) := by
    rw [t.filtM, t.filtY]
    exact t.ols? _ _
  constructor
  · intro f hf
    have hll := errFit_ll hf
    rw [errFit_ols] at hf
    obtain ⟨o, ho, rfl⟩ := Option.map_eq_some_iff.1 hf
    rw [ho, Option.map_some] at hmap
    have hres : t.y x y - t.x x *ᵥ t.b o.betas = t.u (y - x *ᵥ o.betas) := by rw [t.pred, t.resid]
    have hs : ∀ u : n → ℝ, t.u u ⬝ᵥ t.u u / (Fintype.card m : ℝ) = t.c ^ 2 * (u ⬝ᵥ u / Fintype.card n) := fun u => by
      rw [t.u_dot, card_tr t]; ring
    obtain ⟨f', hf'⟩ : ∃ f', errFit (t.y x y) (t.x x) (t.w W) lam jac = some f' := ⟨_, by rw [errFit_ols, hmap]; rfl⟩
    have hll' := errFit_ll hf'
    refine ⟨f', hf', ?_⟩
    rw [errFit_ols, hmap] at hf'
    have e := Option.some.inj hf'
    have hsig : spFilter (t.w W) lam (t.y x y - t.x x *ᵥ t.b o.betas) ⬝ᵥ
        spFilter (t.w W) lam (t.y x y - t.x x *ᵥ t.b o.betas) / (Fintype.card m : ℝ) =
        t.c ^ 2 * (spFilter W lam (y - x *ᵥ o.betas) ⬝ᵥ spFilter W lam (y - x *ᵥ o.betas) / Fintype.card n) := by
      rw [hres, t.filtU, hs]
    have hs2 : f'.sig2 = t.c ^ 2 * (spFilter W lam (y - x *ᵥ o.betas) ⬝ᵥ spFilter W lam (y - x *ᵥ o.betas) / Fintype.card n) := by
      rw [← e]; exact hsig
    have hx : f'.xsxsi = t.Ti * o.xtxi * t.Tiᵀ := by rw [← e]; rfl
    refine ⟨by rw [← e]; rfl, by rw [← e], by rw [← e]; exact hres, ?_, ?_, hs2, ?_, fun h0 => ?_⟩
    · rw [← e]
      show t.y x y - (t.y x y - t.x x *ᵥ t.b o.betas) = t.y x (y - (y - x *ᵥ o.betas))
      rw [sub_sub_cancel, sub_sub_cancel, t.pred]
    · rw [← e]
      show spFilter (t.w W) lam (t.y x y - t.x x *ᵥ t.b o.betas) = _
      rw [hres, t.filtU]
    · rw [hs2, hx, Tr.v, Matrix.mul_smul, Matrix.smul_mul, smul_smul]
    · have hN : (Fintype.card n : ℝ) ≠ 0 := by exact_mod_cast Fintype.card_ne_zero
      have hpos : spFilter W lam (y - x *ᵥ o.betas) ⬝ᵥ spFilter W lam (y - x *ᵥ o.betas) ≠ 0 := by
        rw [← utu_eq_dot]
        exact fun e => h0 ((utu_eq_zero _).1 e)
      rw [hll', hs2, Real.log_mul (pow_ne_zero 2 t.hc) (div_ne_zero hpos hN), log_sq, card_tr t, hll]
      ring
  · intro hn
    rw [errFit_ols] at hn ⊢
    rw [hmap, Option.map_eq_none_iff.1 hn]
    rfl

/-- What the covariance matrix of (coefficients, lambda) becomes. -/
def _root_.Spreg.GM.Tr.vmE (t : Tr m n k) (V : Matrix (k ⊕ Unit) (k ⊕ Unit) ℝ) : Matrix (k ⊕ Unit) (k ⊕ Unit) ℝ :=
  let D : Matrix (k ⊕ Unit) (k ⊕ Unit) ℝ := fromBlocks (t.c • t.Ti) 0 0 1
  D * V * Dᵀ

theorem errInfo_tr (N : ℕ) (c sig2 : ℝ) (hc : c ≠ 0) (t : ℝ × ℝ × ℝ) :
    errInfo N (c ^ 2 * sig2) t = (!![1, 0; 0, (c ^ 2)⁻¹])ᵀ * errInfo N sig2 t * !![1, 0; 0, (c ^ 2)⁻¹] := by
  unfold errInfo
  ext i j
  fin_cases i <;> fin_cases j <;>
    simp [Matrix.mul_apply, Fin.sum_univ_two, Matrix.transpose_apply] <;> by_cases hs : sig2 = 0 <;> (try simp [hs]) <;>
    field_simp

/-- **C149** (error, covariance matrix): the covariance matrix of coefficients and lambda changes with the coefficients, the
variance of lambda not at all; it exists for the new data exactly if it does for the old. -/
theorem C149_error_vm [Nonempty n] (t : Tr m n k) (y : n → ℝ) (x : Matrix n k ℝ) (W : Matrix n n ℝ) (lam jac : ℝ)
    (f : ErrFit n k) (h : errFit y x W lam jac = some f) :
    ∃ f', errFit (t.y x y) (t.x x) (t.w W) lam jac = some f' ∧ mlErrVm (t.w W) f' = (mlErrVm W f).map t.vmE := by
  obtain ⟨f', hf', -, hl, -, -, -, hs, hv, -⟩ := (C149_error_fit t y x W lam jac).1 f h
  refine ⟨f', hf', ?_⟩
  unfold mlErrVm
  rw [hl, traces_tr, Option.map_bind]
  congr 1
  funext tr
  have hc2 : t.c ^ 2 ≠ 0 := pow_ne_zero 2 t.hc
  have h1 : (!![1, 0; 0, (t.c ^ 2)⁻¹] : Matrix (Fin 2) (Fin 2) ℝ) * !![1, 0; 0, t.c ^ 2] = 1 := by
    ext i j; fin_cases i <;> fin_cases j <;> simp [Matrix.mul_apply, Fin.sum_univ_two, hc2, t.hc]
  have h2 : (!![1, 0; 0, t.c ^ 2] : Matrix (Fin 2) (Fin 2) ℝ) * !![1, 0; 0, (t.c ^ 2)⁻¹] = 1 := by
    ext i j; fin_cases i <;> fin_cases j <;> simp [Matrix.mul_apply, Fin.sum_univ_two, hc2, t.hc]
  show errVm _ _ _ _ = (errVm _ _ _ _).map _
  unfold errVm
  rw [card_tr t, hv, hs, errInfo_tr _ _ _ t.hc, inv?_conj _ _ _ h1 h2, Option.map_map, Option.map_map]
  congr 1
  funext B
  simp only [Function.comp_apply, Tr.vmE, fromBlocks_multiply, fromBlocks_transpose, Matrix.transpose_smul, Matrix.transpose_one,
    Matrix.transpose_zero, Matrix.mul_zero, Matrix.zero_mul, add_zero, zero_add, Matrix.mul_one, Matrix.one_mul]
  congr 1
  · rw [Tr.v]
    simp only [Matrix.mul_smul, Matrix.smul_mul, smul_smul]
    congr 1
    ring
  · ext i j
    simp [Matrix.mul_apply, Fin.sum_univ_two, Matrix.transpose_apply, vecMul, dotProduct]

/-- **C149** (error, objective): the objective of the new data is the old one plus a constant that
does not depend on lambda, at every lambda at which the fit exists and the filtered residuals do not vanish. -/
theorem C149_error_objective [Nonempty n] (t : Tr m n k) (y : n → ℝ) (x : Matrix n k ℝ) (W : Matrix n n ℝ) (jac : ℝ → ℝ)
    (lam : ℝ) (f : ErrFit n k) (h : errFit y x W lam (jac lam) = some f) (hf : f.eFiltered ≠ 0) :
    ∃ v, errObj y x W jac lam = some v ∧
      errObj (t.y x y) (t.x x) (t.w W) jac lam = some (v + (Fintype.card n : ℝ) * Real.log |t.c|) := by
  obtain ⟨f', hf', -, -, -, -, -, -, -, hl⟩ := (C149_error_fit t y x W lam (jac lam)).1 f h
  have hl := hl hf
  have key : ∀ {l : Type} [Fintype l] [DecidableEq l] (y : l → ℝ) (x : Matrix l k ℝ) (W : Matrix l l ℝ) (f : ErrFit l k),
      errFit y x W lam (jac lam) = some f → errObj y x W jac lam =
        some (-f.logll - (Fintype.card l : ℝ) / 2 * Real.log (2 * Real.pi) - (Fintype.card l : ℝ) / 2) := by
    intro l _ _ y x W f hf
    unfold errFit at hf
    unfold errObj
    obtain ⟨B, hB, rfl⟩ := Option.map_eq_some_iff.1 hf
    simp only [hB, Option.map_some, Option.some.injEq]
    ring
  refine ⟨_, key _ _ _ _ h, ?_⟩
  rw [key _ _ _ _ hf', hl, card_tr t]
  congr 1
  ring

/-- Multiplication of the dependent variable by `c`. -/
def _root_.Spreg.GM.Tr.units (c : ℝ) (hc : c ≠ 0) : Tr n n k where
  σ := Equiv.refl n
  T := 1
  Ti := 1
  c := c
  d := 0
  hT := Matrix.one_mul 1
  hTi := Matrix.one_mul 1
  hc := hc

theorem norm2_const (a : ℝ) : norm2 (fun _ : n => a) = Real.sqrt (Fintype.card n) * |a| := by
  unfold norm2
  rw [show (∑ _i : n, a ^ 2) = Fintype.card n * a ^ 2 by simp, Real.sqrt_mul (by positivity), Real.sqrt_sq_eq_abs]

/-- **C149** fails for the units of the dependent variable as far as the run itself is concerned: in a lag model with row sums
one whose fitted `x b` is the same nonzero number everywhere (the model with just a constant), with moderate values nothing is
raised by the power expansion, yet measured in small enough units the same data make `ML_Lag` raise. -/
theorem C149_units_violated [Nonempty n] (y : n → ℝ) (x : Matrix n k ℝ) (W : Matrix n n ℝ) (hrow : ∀ i, ∑ j, W i j = 1)
    (p : LagPre n k) (hp : lagPre y x W = some p) (rho jac eps v : ℝ) (h0 : rho ≠ 0) (h1 : |rho| < 1) (heps : eps < 10000000)
    (hv : v ≠ 0) (hxb : x *ᵥ (lagFit p y rho jac).b = fun _ => v)
    (hsmall : Real.sqrt (Fintype.card n) * |rho * v| ≤ 10000000) :
    mlLag y x W rho jac eps ≠ .error .exception ∧
    ∃ C, ∀ c, C < c → mlLag (fun i => c * y i) x W rho jac eps = .error .exception := by
  constructor
  · intro he
    have hm : (do
        let predyE ← inverseProd W (x *ᵥ (lagFit p y rho jac).b) rho false .powerExp eps none
        let vm1 ← orLinAlg (lagVm1 x W rho (lagFit p y rho jac).sig2 predyE)
        return ({ fit := lagFit p y rho jac, predyE := predyE, vm1 := vm1 } : LagAll n k)) = .error .exception := by
      rw [← he, mlLag, hp]; rfl
    rw [hxb] at hm
    cases hi : inverseProd W (fun _ => v) rho false .powerExp eps none with
    | ok z =>
      rw [hi] at hm
      cases hl : lagVm1 x W rho (lagFit p y rho jac).sig2 z with
      | none =>
        have : (orLinAlg (lagVm1 x W rho (lagFit p y rho jac).sig2 z) >>= fun vm1 =>
          (.ok { fit := lagFit p y rho jac, predyE := z, vm1 := vm1 } : Py (LagAll n k))) = .error .exception := hm
        rw [hl] at this
        exact absurd this (by intro h; cases h)
      | some V =>
        have : (orLinAlg (lagVm1 x W rho (lagFit p y rho jac).sig2 z) >>= fun vm1 =>
          (.ok { fit := lagFit p y rho jac, predyE := z, vm1 := vm1 } : Py (LagAll n k))) = .error .exception := hm
        rw [hl] at this
        exact absurd this (by intro h; cases h)
    | error e =>
      have hterm : ∀ j, term W rho (fun _ => v) j = fun _ => rho ^ j * v := by
        intro j
        have hW : ∀ a : ℝ, W *ᵥ (fun _ => a) = fun _ => a := fun a => by
          funext i
          simp [mulVec, dotProduct, ← Finset.sum_mul, hrow]
        have hWj : ∀ j, (W ^ j) *ᵥ (fun _ => v) = fun _ => v := by
          intro j
          induction j with
          | zero => rw [pow_zero, one_mulVec]
          | succ j ih => rw [pow_succ, ← mulVec_mulVec, hW, ih]
        simp only [term, hWj]
        rfl
      rcases (C30_raises W (fun _ => v) rho eps none e hi).2 with h | ⟨j, -, h⟩
      · rw [hterm, norm2_const, pow_one] at h
        exact absurd h (not_lt.2 hsmall)
      · rw [hterm, hterm, norm2_const, norm2_const] at h
        have : |rho ^ (j + 1) * v| ≤ |rho ^ j * v| := by
          rw [pow_succ, mul_assoc, mul_comm rho v, ← mul_assoc, abs_mul _ rho]
          exact mul_le_of_le_one_right (abs_nonneg _) h1.le
        exact absurd h (not_lt.2 (mul_le_mul_of_nonneg_left this (Real.sqrt_nonneg _)))
  · have hN : 0 < Real.sqrt (Fintype.card n) := Real.sqrt_pos.2 (by exact_mod_cast Fintype.card_pos)
    have hr : 0 < Real.sqrt (Fintype.card n) * |rho * v| := mul_pos hN (abs_pos.2 (mul_ne_zero h0 hv))
    refine ⟨max 0 (10000000 / (Real.sqrt (Fintype.card n) * |rho * v|)), fun c hc => ?_⟩
    have hc0 : 0 < c := lt_of_le_of_lt (le_max_left _ _) hc
    have hcb : 10000000 < c * (Real.sqrt (Fintype.card n) * |rho * v|) :=
      (div_lt_iff₀ hr).1 (lt_of_le_of_lt (le_max_right _ _) hc)
    obtain ⟨p', hp', hb, -⟩ := C149_lag_fit (Tr.units (k := k) (n := n) c hc0.ne') y x W p hp rho jac
    have hu : (Tr.units (k := k) (n := n) c hc0.ne').u y = fun i => c * y i := rfl
    have hx : (Tr.units (k := k) (n := n) c hc0.ne').x x = x := by
      simp [Tr.x, Tr.units]
    have hw : (Tr.units (k := k) (n := n) c hc0.ne').w W = W := rfl
    rw [hu, hx, hw] at hp'
    rw [hu] at hb
    have hb' : x *ᵥ (lagFit p' (fun i => c * y i) rho jac).b = fun _ => c * v := by
      rw [hb]
      simp only [Tr.units, one_mulVec, mulVec_smul, hxb]
      rfl
    have : inverseProd W (fun _ => c * v) rho false .powerExp eps none = .error .exception := by
      refine C30_large_data_violated W hrow (c * v) rho eps heps none (by simp) ?_
      rw [norm2_const]
      calc _ < c * (Real.sqrt (Fintype.card n) * |rho * v|) := hcb
        _ = _ := by rw [show rho * (c * v) = c * (rho * v) by ring, abs_mul c, abs_of_pos hc0]; ring
    rw [mlLag, hp']
    show (inverseProd W (x *ᵥ (lagFit p' (fun i => c * y i) rho jac).b) rho false .powerExp eps none >>= _) = _
    rw [hb', this]
    rfl

/-! ### A concrete case -/

/-- Two neighbours. -/
def eqW : Matrix (Fin 2) (Fin 2) ℝ := !![0, 1; 1, 0]
/-- Their values. -/
def eqY : Fin 2 → ℝ := ![1, 2]
/-- The constant. -/
def eqX : Matrix (Fin 2) (Fin 1) ℝ := Matrix.of fun _ _ => 1

theorem eq_inv : inv? (eqXᵀ * eqX) = some (Matrix.of fun _ _ => 1/2) := by
  have h : eqXᵀ * eqX * (Matrix.of fun _ _ => 1/2) = 1 := by
    ext i j
    fin_cases i; fin_cases j
    simp [eqX, Matrix.mul_apply]
  rw [inv?_of_isUnit (Matrix.isUnit_det_of_right_inverse h), Matrix.inv_eq_right_inv h]

/-- The hypotheses of `C149_units_violated` are met: two neighbours with values 1 and 2, just a constant, rho = 1/2. -/
example : ∃ p, lagPre eqY eqX eqW = some p ∧ (∀ i, ∑ j, eqW i j = 1) ∧
    eqX *ᵥ (lagFit p eqY (1/2) 0).b = (fun _ => 3/4) ∧
    Real.sqrt (Fintype.card (Fin 2)) * |(1/2 : ℝ) * (3/4)| ≤ 10000000 := by
  refine ⟨_, by unfold lagPre; rw [eq_inv, Option.map_some], fun i => ?_, ?_, ?_⟩
  · fin_cases i <;> simp [eqW]
  · funext i
    fin_cases i <;>
      simp [lagFit, eqX, eqY, eqW, mulVec, dotProduct, Fin.sum_univ_two, Matrix.transpose_apply, Matrix.mul_apply] <;> norm_num
  · have h2 : Real.sqrt 2 ≤ 2 := by rw [Real.sqrt_le_left (by norm_num)]; norm_num
    rw [abs_of_pos (by norm_num)]
    simp only [Fintype.card_fin, Nat.cast_ofNat]
    nlinarith [Real.sqrt_nonneg 2]

end Spreg.ML
