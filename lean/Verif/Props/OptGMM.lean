import Verif.Model.OptGMM
import Verif.Props.LagRegimes
import Verif.Props.GMEquiv
import Verif.Props.GMIter2
/-
Property C154: optimal-weighted GMM.
-/
namespace Spreg.OptGMM
open Matrix Spreg.Lin

variable {n k l : Type} [Fintype n] [Fintype k] [Fintype l] [DecidableEq k] [DecidableEq l]

/-! ### Specification -/

/-- White's estimate of the variance of the moments: `Σ uᵢ² hᵢ hᵢ'`. -/
def momVar (h : Matrix n l ℝ) (u : n → ℝ) : Matrix l l ℝ := Matrix.of fun a b => ∑ i, u i ^ 2 * h i a * h i b

/-- The GMM criterion with weights `(Σ uᵢ² hᵢ hᵢ')⁻¹`. -/
noncomputable def crit (z : Matrix n k ℝ) (h : Matrix n l ℝ) (y u : n → ℝ) (b : k → ℝ) : ℝ :=
  (hᵀ *ᵥ (y - z *ᵥ b)) ⬝ᵥ ((momVar h u)⁻¹ *ᵥ (hᵀ *ᵥ (y - z *ᵥ b)))

/-- The asymptotic variance of efficient GMM. -/
noncomputable def effVar (z : Matrix n k ℝ) (h : Matrix n l ℝ) (u : n → ℝ) : Matrix k k ℝ :=
  (zᵀ * h * (momVar h u)⁻¹ * (zᵀ * h)ᵀ)⁻¹

/-! ### Facts -/

omit [Fintype l] [DecidableEq l] in
theorem momVar_eq (h : Matrix n l ℝ) (u : n → ℝ) : hᵀ * broadcast h (fun i => u i ^ 2) = momVar h u := by
  ext a b
  simp only [mul_apply, transpose_apply, broadcast, of_apply, momVar]
  exact Finset.sum_congr rfl fun i _ => by ring

omit [Fintype l] [DecidableEq l] in
theorem momVar_white (h : Matrix n l ℝ) (u : n → ℝ) : psi0White h u none = momVar h u := by
  ext a b
  simp only [psi0White, mul_apply, transpose_apply, broadcast, of_apply, momVar]
  exact Finset.sum_congr rfl fun i _ => by ring

omit [DecidableEq l] in
theorem momVar_psd (h : Matrix n l ℝ) (u : n → ℝ) : SymPSD (momVar h u) := by
  rw [← momVar_white]; exact psd_gram _

/-- `inv?` of a multiple. -/
theorem inv?_smul' {A : Matrix l l ℝ} (c : ℝ) (hc : c ≠ 0) : inv? (c • A) = (inv? A).map fun B => c⁻¹ • B := by
  by_cases hu : IsUnit A.det
  · have hu2 : IsUnit (c • A).det := by
      rw [det_smul]; exact (isUnit_iff_ne_zero.2 (pow_ne_zero _ hc)).mul hu
    rw [inv?_of_isUnit hu, inv?_of_isUnit hu2, Option.map_some]
    congr 1
    apply inv_eq_right_inv
    rw [Matrix.smul_mul, Matrix.mul_smul, smul_smul, mul_inv_cancel₀ hc, one_smul, mul_nonsing_inv _ hu]
  · have hu2 : ¬ IsUnit (c • A).det := by
      rw [det_smul, IsUnit.mul_iff]; exact fun h => hu h.2
    unfold inv?
    rw [if_neg hu, if_neg hu2]; rfl

/-- The estimator without the divisor. -/
theorem optimalWeight_eq (z : Matrix n k ℝ) (h : Matrix n l ℝ) (y u : n → ℝ) (s : Bool) (hd : dof n k s ≠ 0) :
    optimalWeight z h y u s = (inv? (momVar h u)).bind fun Mi => (inv? (zᵀ * h * Mi * (zᵀ * h)ᵀ)).map fun V =>
      { betas := V *ᵥ ((zᵀ * h * Mi) *ᵥ (hᵀ *ᵥ y)), vm := V, predy := z *ᵥ (V *ᵥ ((zᵀ * h * Mi) *ᵥ (hᵀ *ᵥ y))),
        u := y - z *ᵥ (V *ᵥ ((zᵀ * h * Mi) *ᵥ (hᵀ *ᵥ y))), sig2 := none } := by
  unfold optimalWeight
  simp only
  rw [momVar_eq, inv?_smul' _ (one_div_ne_zero hd)]
  rcases hm : inv? (momVar h u) with _ | Mi
  · rfl
  · simp only [Option.map_some, Option.bind_some]
    have e : zᵀ * h * ((1 / dof n k s)⁻¹ • Mi) * (zᵀ * h)ᵀ = dof n k s • (zᵀ * h * Mi * (zᵀ * h)ᵀ) := by
      rw [one_div, inv_inv, Matrix.mul_smul, Matrix.smul_mul]
    rw [e, inv?_smul' _ hd, Option.map_map]
    congr 1
    funext V
    have e2 : ((dof n k s)⁻¹ • V) *ᵥ ((zᵀ * h * ((1 / dof n k s)⁻¹ • Mi)) *ᵥ (hᵀ *ᵥ y)) = V *ᵥ ((zᵀ * h * Mi) *ᵥ (hᵀ *ᵥ y)) := by
      rw [one_div, inv_inv, Matrix.mul_smul, smul_mulVec, smul_mulVec, mulVec_smul, smul_smul, inv_mul_cancel₀ hd, one_smul]
    simp only [Function.comp_apply, e2, smul_smul, mul_inv_cancel₀ hd, one_smul]

/-- All facts about a result. -/
theorem facts {z : Matrix n k ℝ} {h : Matrix n l ℝ} {y u : n → ℝ} {s : Bool} (hd : dof n k s ≠ 0) {o : Fit n k}
    (ho : optimalWeight z h y u s = some o) :
    IsUnit (momVar h u).det ∧ IsUnit (zᵀ * h * (momVar h u)⁻¹ * (zᵀ * h)ᵀ).det ∧ o.vm = effVar z h u ∧
    o.betas = effVar z h u *ᵥ ((zᵀ * h * (momVar h u)⁻¹) *ᵥ (hᵀ *ᵥ y)) ∧ o.predy = z *ᵥ o.betas ∧ o.u = y - z *ᵥ o.betas := by
  rw [optimalWeight_eq z h y u s hd] at ho
  rcases hm : inv? (momVar h u) with _ | Mi
  · rw [hm] at ho; cases ho
  · rw [hm, Option.bind_some] at ho
    obtain ⟨h1, rfl, -⟩ := inv?_eq_some hm
    rcases hv : inv? (zᵀ * h * (momVar h u)⁻¹ * (zᵀ * h)ᵀ) with _ | V
    · rw [hv] at ho; cases ho
    · rw [hv, Option.map_some] at ho
      obtain ⟨h2, rfl, -⟩ := inv?_eq_some hv
      have := Option.some.inj ho
      rw [← this]
      exact ⟨h1, h2, rfl, rfl, rfl, rfl⟩

/-- C154: there is a result exactly if the moments have a nonsingular variance and identify the coefficients; it does not depend on
`sig2n_k`. -/
theorem C154_exists (z : Matrix n k ℝ) (h : Matrix n l ℝ) (y u : n → ℝ) (s : Bool) (hd : dof n k s ≠ 0) :
    (∃ o, optimalWeight z h y u s = some o) ↔
      (momVar h u).det ≠ 0 ∧ (zᵀ * h * (momVar h u)⁻¹ * (zᵀ * h)ᵀ).det ≠ 0 := by
  constructor
  · rintro ⟨o, ho⟩
    obtain ⟨h1, h2, -⟩ := facts hd ho
    exact ⟨h1.ne_zero, h2.ne_zero⟩
  · rintro ⟨h1, h2⟩
    rw [optimalWeight_eq z h y u s hd, inv?_of_isUnit (isUnit_iff_ne_zero.2 h1), Option.bind_some,
      inv?_of_isUnit (isUnit_iff_ne_zero.2 h2)]
    exact ⟨_, rfl⟩

/-- C154: `sig2n_k` changes neither coefficients nor variances. -/
theorem C154_dof (z : Matrix n k ℝ) (h : Matrix n l ℝ) (y : n → ℝ) (hd : Fintype.card k < Fintype.card n) :
    ogmm z h y true = ogmm z h y false := by
  have h1 : dof n k true ≠ 0 := by
    simp only [dof, if_true]
    have : (Fintype.card k : ℝ) < Fintype.card n := by exact_mod_cast hd
    linarith
  have h2 : dof n k false ≠ 0 := by
    simp only [dof, Bool.false_eq_true, if_false]
    have : (0 : ℝ) < Fintype.card n := by exact_mod_cast (Nat.zero_le _).trans_lt hd
    exact this.ne'
  unfold ogmm
  congr 1
  funext f
  rw [optimalWeight_eq _ _ _ _ _ h1, optimalWeight_eq _ _ _ _ _ h2]

omit [DecidableEq k] [Fintype l] [DecidableEq l] in
theorem moment_shift (z : Matrix n k ℝ) (h : Matrix n l ℝ) (y : n → ℝ) (b d : k → ℝ) :
    hᵀ *ᵥ (y - z *ᵥ (b + d)) = hᵀ *ᵥ (y - z *ᵥ b) - (zᵀ * h)ᵀ *ᵥ d := by
  rw [mulVec_add, ← sub_sub, mulVec_sub, mulVec_mulVec, transpose_mul, transpose_transpose]

/-- First-order condition. -/
theorem foc {z : Matrix n k ℝ} {h : Matrix n l ℝ} {y u : n → ℝ} {s : Bool} (hd : dof n k s ≠ 0) {o : Fit n k}
    (ho : optimalWeight z h y u s = some o) :
    (zᵀ * h * (momVar h u)⁻¹) *ᵥ (hᵀ *ᵥ o.u) = 0 := by
  obtain ⟨h1, h2, -, hb, -, hu⟩ := facts hd ho
  have e : hᵀ *ᵥ (z *ᵥ o.betas) = (zᵀ * h)ᵀ *ᵥ o.betas := by
    rw [mulVec_mulVec, transpose_mul, transpose_transpose]
  rw [hu, mulVec_sub, e, mulVec_sub, sub_eq_zero, mulVec_mulVec o.betas, hb, effVar, mulVec_mulVec _ (zᵀ * h * (momVar h u)⁻¹ * _),
    mul_nonsing_inv _ h2, one_mulVec]

/-- C154: the coefficients are the only minimum of the GMM criterion with White's weights at the two-stage residuals. -/
theorem C154_minimum (z : Matrix n k ℝ) (h : Matrix n l ℝ) (y u : n → ℝ) (s : Bool) (hd : dof n k s ≠ 0) (o : Fit n k)
    (ho : optimalWeight z h y u s = some o) (b : k → ℝ) :
    crit z h y u o.betas ≤ crit z h y u b ∧ (crit z h y u b = crit z h y u o.betas → b = o.betas) := by
  obtain ⟨h1, h2, -, -, -, hu⟩ := facts hd ho
  have hf := foc hd ho
  obtain ⟨d, rfl⟩ : ∃ d, b = o.betas + d := ⟨b - o.betas, by abel⟩
  have hp := LM.psd_inv (momVar_psd h u) (mul_nonsing_inv _ h1)
  have hs : ((momVar h u)⁻¹)ᵀ = (momVar h u)⁻¹ := by rw [transpose_nonsing_inv, (momVar_psd h u).1]
  have key : crit z h y u (o.betas + d) = crit z h y u o.betas +
      ((zᵀ * h)ᵀ *ᵥ d) ⬝ᵥ ((momVar h u)⁻¹ *ᵥ ((zᵀ * h)ᵀ *ᵥ d)) := by
    unfold crit
    rw [moment_shift, ← hu, mulVec_sub, sub_dotProduct, dotProduct_sub, dotProduct_sub]
    have c1 : ((zᵀ * h)ᵀ *ᵥ d) ⬝ᵥ ((momVar h u)⁻¹ *ᵥ (hᵀ *ᵥ o.u)) = 0 := by
      rw [mulVec_transpose, ← dotProduct_mulVec, mulVec_mulVec, hf, dotProduct_zero]
    have c2 : (hᵀ *ᵥ o.u) ⬝ᵥ ((momVar h u)⁻¹ *ᵥ ((zᵀ * h)ᵀ *ᵥ d)) = 0 := by
      rw [dotProduct_mulVec, ← mulVec_transpose, hs, dotProduct_comm, c1]
    rw [c1, c2]; ring
  refine ⟨by rw [key]; linarith [(hp ((zᵀ * h)ᵀ *ᵥ d)).1], fun e => ?_⟩
  rw [key] at e
  have e0 := (hp _).2.1 (by linarith : ((zᵀ * h)ᵀ *ᵥ d) ⬝ᵥ ((momVar h u)⁻¹ *ᵥ ((zᵀ * h)ᵀ *ᵥ d)) = 0)
  have : d = 0 := by
    have h3 : (zᵀ * h * (momVar h u)⁻¹ * (zᵀ * h)ᵀ) *ᵥ d = 0 := by rw [← mulVec_mulVec, e0, mulVec_zero]
    calc d = (effVar z h u * (zᵀ * h * (momVar h u)⁻¹ * (zᵀ * h)ᵀ)) *ᵥ d := by
          rw [effVar, nonsing_inv_mul _ h2, one_mulVec]
      _ = 0 := by rw [← mulVec_mulVec, h3, mulVec_zero]
  rw [this, add_zero]

/-- C154: the reported variance is that of efficient GMM and is symmetric and positive semidefinite; `predy` and `u` are those of the
coefficients. -/
theorem C154_variance (z : Matrix n k ℝ) (h : Matrix n l ℝ) (y u : n → ℝ) (s : Bool) (hd : dof n k s ≠ 0) (o : Fit n k)
    (ho : optimalWeight z h y u s = some o) :
    o.vm = effVar z h u ∧ SymPSD o.vm ∧ o.predy = z *ᵥ o.betas ∧ o.u = y - o.predy := by
  obtain ⟨h1, h2, hv, -, hp, hu⟩ := facts hd ho
  refine ⟨hv, ?_, hp, by rw [hu, hp]⟩
  rw [hv, effVar]
  refine GM.psd_inv' ?_ (mul_nonsing_inv _ h2)
  have := psd_conj (GM.psd_inv' (momVar_psd h u) (mul_nonsing_inv _ h1)) (zᵀ * h)
  rwa [← Matrix.mul_assoc] at this

/-- C154: no estimator linear in the moments that reproduces the coefficients of an exact relation has a smaller White variance. -/
theorem C154_efficient (z : Matrix n k ℝ) (h : Matrix n l ℝ) (y u : n → ℝ) (s : Bool) (hd : dof n k s ≠ 0) (o : Fit n k)
    (ho : optimalWeight z h y u s = some o) (A : Matrix k l ℝ) (hA : A * (hᵀ * z) = 1) :
    SymPSD (A * (momVar h u * Aᵀ) - o.vm) := by
  obtain ⟨h1, h2, hv, -⟩ := facts hd ho
  have hps := (C154_variance z h y u s hd o ho).2.1
  have hM := momVar_psd h u
  have hs : ((momVar h u)⁻¹)ᵀ = (momVar h u)⁻¹ := by rw [transpose_nonsing_inv, hM.1]
  have hzt : (zᵀ * h)ᵀ = hᵀ * z := by rw [transpose_mul, transpose_transpose]
  -- A0 is the linear map of the estimator itself
  have hA0 : o.vm * (zᵀ * h * (momVar h u)⁻¹) * (hᵀ * z) = 1 := by
    rw [hv, effVar, Matrix.mul_assoc, ← hzt, nonsing_inv_mul _ h2]
  have hM0 : (momVar h u) * (o.vm * (zᵀ * h * (momVar h u)⁻¹))ᵀ = hᵀ * z * o.vm := by
    rw [transpose_mul, transpose_mul (zᵀ * h), hs, hps.1, hzt, ← Matrix.mul_assoc, ← Matrix.mul_assoc, mul_nonsing_inv _ h1,
      Matrix.one_mul]
  have hM0' : o.vm * (zᵀ * h * (momVar h u)⁻¹) * (momVar h u) = o.vm * (zᵀ * h) := by
    rw [Matrix.mul_assoc, Matrix.mul_assoc _ (momVar h u)⁻¹, nonsing_inv_mul _ h1, Matrix.mul_one]
  have e : A * (momVar h u * Aᵀ) - o.vm =
      (A - o.vm * (zᵀ * h * (momVar h u)⁻¹)) * (momVar h u * (A - o.vm * (zᵀ * h * (momVar h u)⁻¹))ᵀ) := by
    rw [transpose_sub, Matrix.mul_sub, hM0, Matrix.mul_sub, Matrix.sub_mul, Matrix.sub_mul, ← Matrix.mul_assoc A (hᵀ * z), hA,
      ← Matrix.mul_assoc (o.vm * _) (momVar h u) Aᵀ, hM0', ← Matrix.mul_assoc (o.vm * _) (hᵀ * z) o.vm, hA0, Matrix.one_mul]
    have : o.vm * (zᵀ * h) * Aᵀ = o.vm := by
      have hA' : (zᵀ * h) * Aᵀ = 1 := by
        have := congrArg transpose hA
        rwa [transpose_mul, transpose_mul, transpose_transpose, transpose_one] at this
      rw [Matrix.mul_assoc, hA', Matrix.mul_one]
    rw [this]
    abel
  rw [e]
  exact psd_conj hM _

/-- C154: in particular two-stage least squares with White standard errors. -/
theorem C154_beats_tsls (z : Matrix n k ℝ) (h : Matrix n l ℝ) (y : n → ℝ) (s : Bool) (hd : dof n k s ≠ 0) (f : TSLSFit n k l)
    (hf : tslsZH z h y = some f) (o : Fit n k) (ho : ogmm z h y s = some o) :
    SymPSD (sandwichTSLS f.varb f.zthhthi (psi0White h f.u none) - o.vm) := by
  unfold ogmm at ho
  rw [hf, Option.bind_some] at ho
  obtain ⟨h1, h2, h3, h4, h5, -⟩ := tslsZH_facts hf
  rw [momVar_white]
  refine C154_efficient z h y f.u s hd o ho _ ?_
  rw [h5, h3, Matrix.mul_assoc]
  rw [transpose_mul, transpose_transpose] at h4 ⊢
  exact nonsing_inv_mul _ h4

/-- C154: with as many instruments as regressors nothing changes: coefficients and variances are those of two-stage least squares with
White standard errors. -/
theorem C154_just_identified (e : k ≃ l) (z : Matrix n k ℝ) (h : Matrix n l ℝ) (y : n → ℝ) (s : Bool) (hd : dof n k s ≠ 0)
    (f : TSLSFit n k l) (hf : tslsZH z h y = some f) (o : Fit n k) (ho : ogmm z h y s = some o) :
    o.betas = f.betas ∧ o.u = f.u ∧ o.vm = sandwichTSLS f.varb f.zthhthi (psi0White h f.u none) := by
  unfold ogmm at ho
  rw [hf, Option.bind_some] at ho
  obtain ⟨h1, h2, hv, -, hp, hu⟩ := facts hd ho
  obtain ⟨t1, t2, t3, t4, t5, t6, t7, t8⟩ := tslsZH_facts hf
  have hA : f.varb * f.zthhthi * (zᵀ * h)ᵀ = 1 := by
    rw [t5, t3, Matrix.mul_assoc]
    exact nonsing_inv_mul _ t4
  have hA' : (zᵀ * h)ᵀ * (f.varb * f.zthhthi) = 1 := (mul_eq_one_comm_of_equiv e).1 hA
  have hm : hᵀ *ᵥ (y - z *ᵥ f.betas) = 0 := by
    rw [mulVec_sub, t6, mulVec_mulVec _ hᵀ z, sub_eq_zero]
    have : hᵀ * z = (zᵀ * h)ᵀ := by rw [transpose_mul, transpose_transpose]
    rw [this, mulVec_mulVec, hA', one_mulVec]
  have hc : crit z h y f.u f.betas = 0 := by unfold crit; rw [hm, zero_dotProduct]
  have hle := (C154_minimum z h y f.u s hd o ho f.betas)
  have h0 : 0 ≤ crit z h y f.u o.betas := (LM.psd_inv (momVar_psd h f.u) (mul_nonsing_inv _ h1) _).1
  have hb : f.betas = o.betas := hle.2 (le_antisymm (by rw [hc]; exact h0) hle.1)
  refine ⟨hb.symm, by rw [hu, ← hb, t8, t7], ?_⟩
  rw [hv, effVar, momVar_white, sandwichTSLS]
  apply inv_eq_left_inv
  generalize f.varb * f.zthhthi = A at hA hA' ⊢
  calc A * (momVar h f.u * Aᵀ) * (zᵀ * h * (momVar h f.u)⁻¹ * (zᵀ * h)ᵀ)
      = A * momVar h f.u * ((zᵀ * h)ᵀ * A)ᵀ * (momVar h f.u)⁻¹ * (zᵀ * h)ᵀ := by
        rw [transpose_mul _ A, transpose_transpose]
        simp only [Matrix.mul_assoc]
    _ = A * (momVar h f.u * (momVar h f.u)⁻¹) * (zᵀ * h)ᵀ := by
        rw [hA', transpose_one, Matrix.mul_one, Matrix.mul_assoc A]
    _ = 1 := by rw [mul_nonsing_inv _ h1, Matrix.mul_one, hA]

/-! ### Units, order of the observations, choice of basis -/

omit [DecidableEq l] in
theorem momVar_tr {m : Type} [Fintype m] (σ : m ≃ n) (c : ℝ) (B : Matrix l l ℝ) (h : Matrix n l ℝ) (u : n → ℝ) :
    momVar (GM.trH σ B h) (fun i => c * u (σ i)) = c ^ 2 • (Bᵀ * momVar h u * B) := by
  have e : broadcast (GM.trH σ B h) (fun i => c * u (σ i)) = (c • (broadcast h u * B)).submatrix σ id := by
    ext i j
    simp only [broadcast, GM.trH, of_apply, submatrix_apply, id, Matrix.smul_apply, mul_apply, smul_eq_mul, Finset.sum_mul,
      Finset.mul_sum]
    exact Finset.sum_congr rfl fun a _ => by ring
  rw [← momVar_white, ← momVar_white]
  simp only [psi0White]
  rw [e, transpose_submatrix, GM.sub_mul_sub, transpose_smul, transpose_mul, Matrix.smul_mul, Matrix.mul_smul, smul_smul, ← pow_two]
  simp only [Matrix.mul_assoc]

/-- C154: changing the order of the observations, the units or the basis of regressors and instruments and the units and origin of
the dependent variable changes the results in the corresponding way, and no call fails that succeeded before. -/
theorem C154_equivariant {m : Type} [Fintype m] (t : GM.Tr m n k) (B Bi : Matrix l l ℝ) (hB : B * Bi = 1) (hBi : Bi * B = 1)
    (z : Matrix n k ℝ) (h : Matrix n l ℝ) (y : n → ℝ) (s : Bool) (hd : dof n k s ≠ 0) :
    ogmm (t.x z) (GM.trH t.σ B h) (t.y z y) s =
      (ogmm z h y s).map fun o => ⟨t.b o.betas, t.v o.vm, t.y z o.predy, t.u o.u, o.sig2⟩ := by
  have hd' : dof m k s ≠ 0 := by
    unfold dof at hd ⊢
    rwa [Fintype.card_congr t.σ]
  have ht := GM.Tr.tslsE t B Bi hB hBi z h y
  unfold GM.tslsE at ht
  unfold ogmm
  rcases hz : tslsZH z h y with _ | f
  · rw [hz] at ht
    rcases hz' : tslsZH (t.x z) (GM.trH t.σ B h) (t.y z y) with _ | f'
    · rfl
    · rw [hz'] at ht; cases ht
  · rw [hz] at ht
    rcases hz' : tslsZH (t.x z) (GM.trH t.σ B h) (t.y z y) with _ | f'
    · rw [hz'] at ht; cases ht
    · rw [hz'] at ht
      have ht : f' = t.tsls Bi z f := Except.ok.inj ht
      rw [Option.bind_some, Option.bind_some, ht, optimalWeight_eq _ _ _ _ _ hd, optimalWeight_eq _ _ _ _ _ hd']
      have hm : momVar (GM.trH t.σ B h) (t.tsls Bi z f).u = t.c ^ 2 • (Bᵀ * momVar h f.u * B) := momVar_tr t.σ t.c B h f.u
      have hc2 : t.c ^ 2 ≠ 0 := pow_ne_zero _ t.hc
      rw [hm, inv?_smul' _ hc2, GM.inv?_conj _ _ _ hB hBi]
      rcases hMi : inv? (momVar h f.u) with _ | Mi
      · rfl
      · simp only [Option.map_some, Option.bind_some]
        have f1 : (t.x z)ᵀ * GM.trH t.σ B h * ((t.c ^ 2)⁻¹ • (Bi * Mi * Biᵀ)) = (t.c ^ 2)⁻¹ • (t.Tᵀ * (zᵀ * h * Mi) * Biᵀ) := by
          rw [t.zh, Matrix.mul_smul]
          congr 1
          calc t.Tᵀ * (zᵀ * h) * B * (Bi * Mi * Biᵀ) = t.Tᵀ * (zᵀ * h) * (B * Bi) * Mi * Biᵀ := by simp only [Matrix.mul_assoc]
            _ = _ := by rw [hB]; simp only [Matrix.mul_assoc, Matrix.one_mul]
        have f2 : (t.x z)ᵀ * GM.trH t.σ B h * ((t.c ^ 2)⁻¹ • (Bi * Mi * Biᵀ)) * ((t.x z)ᵀ * GM.trH t.σ B h)ᵀ =
            (t.c ^ 2)⁻¹ • (t.Tᵀ * (zᵀ * h * Mi * (zᵀ * h)ᵀ) * t.T) := by
          rw [f1, t.zh, transpose_mul, transpose_mul _ (zᵀ * h), transpose_transpose, Matrix.smul_mul]
          congr 1
          calc t.Tᵀ * (zᵀ * h * Mi) * Biᵀ * (Bᵀ * ((zᵀ * h)ᵀ * t.T)) = t.Tᵀ * (zᵀ * h * Mi) * (Biᵀ * Bᵀ) * ((zᵀ * h)ᵀ * t.T) := by
                simp only [Matrix.mul_assoc]
            _ = _ := by rw [← transpose_mul, hB, transpose_one]; simp only [Matrix.mul_assoc, Matrix.one_mul]
        rw [f2, inv?_smul' _ (inv_ne_zero hc2), GM.inv?_conj _ _ _ t.hT t.hTi, f1]
        rcases hV : inv? (zᵀ * h * Mi * (zᵀ * h)ᵀ) with _ | V
        · rfl
        · simp only [Option.map_some, inv_inv]
          obtain ⟨-, -, -, hVV⟩ := inv?_eq_some hV
          have hb : (t.c ^ 2 • (t.Ti * V * t.Tiᵀ)) *ᵥ (((t.c ^ 2)⁻¹ • (t.Tᵀ * (zᵀ * h * Mi) * Biᵀ)) *ᵥ
              ((GM.trH t.σ B h)ᵀ *ᵥ t.y z y)) = t.b (V *ᵥ ((zᵀ * h * Mi) *ᵥ (hᵀ *ᵥ y))) := by
            rw [smul_mulVec, smul_mulVec, mulVec_smul, smul_smul, mul_inv_cancel₀ hc2, one_smul, mulVec_mulVec]
            have e1 : t.Ti * V * t.Tiᵀ * (t.Tᵀ * (zᵀ * h * Mi) * Biᵀ) = t.Ti * (V * (zᵀ * h * Mi)) * Biᵀ := by
              calc t.Ti * V * t.Tiᵀ * (t.Tᵀ * (zᵀ * h * Mi) * Biᵀ) = t.Ti * V * (t.Tiᵀ * t.Tᵀ) * (zᵀ * h * Mi) * Biᵀ := by
                    simp only [Matrix.mul_assoc]
                _ = _ := by rw [← transpose_mul, t.hT, transpose_one]; simp only [Matrix.mul_assoc, Matrix.one_mul]
            rw [e1, t.y_eq, GM.trH_mulVec, mulVec_mulVec, Matrix.mul_assoc _ Biᵀ, ← transpose_mul, hB, transpose_one, Matrix.mul_one,
              GM.Tr.b, ← mulVec_mulVec]
            congr 1
            rw [mulVec_add, mulVec_add, mulVec_smul, mulVec_smul]
            congr 1
            · rw [mulVec_mulVec _ V]
            · rw [mulVec_mulVec t.d, mulVec_mulVec t.d]
              have : V * (zᵀ * h * Mi) * (hᵀ * z) = 1 := by
                rw [transpose_mul, transpose_transpose] at hVV
                rw [Matrix.mul_assoc, hVV]
              rw [this, one_mulVec]
          rw [hb]
          have hp := t.pred z (V *ᵥ ((zᵀ * h * Mi) *ᵥ (hᵀ *ᵥ y)))
          rw [hp, t.resid]
          rfl

/-! ### Regimes -/

variable {ρ : Type} [Fintype ρ] [DecidableEq ρ]

open Spreg.RegimesMat Spreg.LagReg in
/-- C154: if all coefficients vary, one estimation with all regimes (`regime_err_sep=False`) and one per regime
(`regime_err_sep=True`) give the same coefficients, residuals and variances, whatever `sig2n_k`. -/
theorem C154_regimes (z : Matrix n k ℝ) (h : Matrix n l ℝ) (g : n → ρ) (y : n → ℝ) (s : Bool) (s' : ρ → Bool)
    (hd : dof n (k × ρ) s ≠ 0) (hd' : ∀ r, dof {i // g i = r} k (s' r) ≠ 0)
    (os : ∀ r, Fit {i // g i = r} k)
    (ho : ∀ r, ogmm (RegimesMat.sub z g r) (RegimesMat.sub h g r) (subv y g r) (s' r) = some (os r)) :
    ∃ o, ogmm (expand z g) (expand h g) y s = some o ∧ (∀ r j, o.betas (j, r) = (os r).betas j) ∧
      (∀ r r' j j', o.vm (j, r) (j', r') = if r = r' then (os r).vm j j' else 0) ∧
      ∀ i, o.u i = (os (g i)).u ⟨i, rfl⟩ := by
  have h1 : ∀ r, ∃ f, tslsZH (RegimesMat.sub z g r) (RegimesMat.sub h g r) (subv y g r) = some f ∧
      optimalWeight (RegimesMat.sub z g r) (RegimesMat.sub h g r) (subv y g r) f.u (s' r) = some (os r) := by
    intro r
    have := ho r
    unfold ogmm at this
    rwa [Option.bind_eq_some_iff] at this
  choose fs hfs hos using h1
  obtain ⟨f, hf, ha⟩ := (tsls_expand z h g y).1 fs hfs
  have hfa := fun r => facts (hd' r) (hos r)
  have hu : ∀ r, subv f.u g r = (fs r).u := by
    intro r
    funext ⟨i, hi⟩
    subst hi
    exact ha.u i
  have hM : momVar (expand h g) f.u = blockDiagonal fun r => momVar (RegimesMat.sub h g r) (fs r).u := by
    rw [← momVar_white, white_block]
    congr 1
    funext r
    rw [momVar_white, hu]
  have hMi : inv? (momVar (expand h g) f.u) = some (blockDiagonal fun r => (momVar (RegimesMat.sub h g r) (fs r).u)⁻¹) := by
    rw [hM]
    exact inv?_block _ _ fun r => inv?_of_isUnit (hfa r).1
  have hz : (expand z g)ᵀ * expand h g * (blockDiagonal fun r => (momVar (RegimesMat.sub h g r) (fs r).u)⁻¹) =
      blockDiagonal fun r => (RegimesMat.sub z g r)ᵀ * RegimesMat.sub h g r * (momVar (RegimesMat.sub h g r) (fs r).u)⁻¹ := by
    rw [expand_cross, ← blockDiagonal_mul]
  have hV : inv? ((expand z g)ᵀ * expand h g * (blockDiagonal fun r => (momVar (RegimesMat.sub h g r) (fs r).u)⁻¹) *
      ((expand z g)ᵀ * expand h g)ᵀ) = some (blockDiagonal fun r => effVar (RegimesMat.sub z g r) (RegimesMat.sub h g r) (fs r).u) := by
    rw [hz, expand_cross, blockDiagonal_transpose, ← blockDiagonal_mul]
    exact inv?_block _ _ fun r => inv?_of_isUnit (hfa r).2.1
  have hb : ∀ r j, ((blockDiagonal fun r => effVar (RegimesMat.sub z g r) (RegimesMat.sub h g r) (fs r).u) *ᵥ
      (((expand z g)ᵀ * expand h g * (blockDiagonal fun r => (momVar (RegimesMat.sub h g r) (fs r).u)⁻¹)) *ᵥ
        ((expand h g)ᵀ *ᵥ y))) (j, r) = (os r).betas j := by
    intro r j
    rw [hz, block_mulVec, (hfa r).2.2.2.1]
    congr 2
    funext j'
    rw [block_mulVec, expand_xty]
  have hO := optimalWeight_eq (expand z g) (expand h g) y f.u s hd
  rw [hMi, Option.bind_some, hV, Option.map_some] at hO
  refine ⟨_, (by rw [ogmm, hf, Option.bind_some]; exact hO), hb, ?_, ?_⟩
  · intro r r' j j'
    rw [(hfa r).2.2.1]
    show blockDiagonal (fun r => effVar (RegimesMat.sub z g r) (RegimesMat.sub h g r) (fs r).u) (j, r) (j', r') = _
    rw [blockDiagonal_apply]
  · intro i
    rw [(hfa (g i)).2.2.2.2.2]
    show y i - _ = y i - _
    rw [expand_mulVec]
    congr 1
    exact Finset.sum_congr rfl fun j _ => by rw [hb]; rfl

/-! ### A case with more instruments than regressors -/

def exZ : Matrix (Fin 3) (Fin 1) ℝ := Matrix.of fun i _ => if i = 0 then 1 else if i = 1 then 2 else 0
def exH : Matrix (Fin 3) (Fin 2) ℝ := Matrix.of fun i j => if i = 0 ∧ j = 0 then 1 else if i = 1 ∧ j = 1 then 1 else 0
def exY : Fin 3 → ℝ := fun i => if i = 1 then 0 else 1

theorem ex_hh : exHᵀ * exH = 1 := by
  ext i j
  simp only [mul_apply, transpose_apply, exH, of_apply, Fin.sum_univ_three]
  fin_cases i <;> fin_cases j <;> simp

theorem ex_zh : exZᵀ * exH = Matrix.of fun _ j => if j = 0 then (1 : ℝ) else 2 := by
  ext i j
  simp only [mul_apply, transpose_apply, exH, exZ, of_apply, Fin.sum_univ_three]
  fin_cases j <;> simp

theorem ex_tsls : ∃ f, tslsZH exZ exH exY = some f ∧ f.u = fun i => if i = 0 then 4 / 5 else if i = 1 then -2 / 5 else 1 := by
  have h1 : (exZᵀ * exH * (exHᵀ * exH)⁻¹ * (exZᵀ * exH)ᵀ) = Matrix.of fun _ _ => (5 : ℝ) := by
    rw [ex_hh, ex_zh, inv_one, Matrix.mul_one]
    ext i j
    simp [mul_apply, Fin.sum_univ_two]; norm_num
  have h5 : (Matrix.of fun _ _ => (5 : ℝ) : Matrix (Fin 1) (Fin 1) ℝ)⁻¹ = Matrix.of fun _ _ => (1 / 5 : ℝ) := by
    apply inv_eq_right_inv
    ext i j
    fin_cases i; fin_cases j
    simp [mul_apply]
  obtain ⟨f, hf⟩ := tslsZH_of_isUnit exZ exH exY (by rw [ex_hh, det_one]; exact isUnit_one)
    (by rw [h1, det_fin_one, isUnit_iff_ne_zero]; simp)
  refine ⟨f, hf, ?_⟩
  obtain ⟨-, -, h3, -, h5', h6, h7, h8⟩ := tslsZH_facts hf
  rw [h1, h5] at h5'
  rw [ex_hh, inv_one, Matrix.mul_one, ex_zh] at h3
  have hb : f.betas = fun _ => 1 / 5 := by
    rw [h6, h5', h3]
    funext j
    simp [mulVec, dotProduct, mul_apply, Fin.sum_univ_three, exH, exY]
  rw [h8, h7, hb]
  funext i
  simp only [mulVec, dotProduct, exZ, exY, Pi.sub_apply, of_apply, Finset.univ_unique, Finset.sum_singleton]
  fin_cases i <;> norm_num

theorem ex_ogmm (s : Bool) : ∃ f o, tslsZH exZ exH exY = some f ∧ ogmm exZ exH exY s = some o ∧
    (f.u = fun i => if i = 0 then 4 / 5 else if i = 1 then -2 / 5 else 1) ∧
    (o.u = fun i => if i = 0 then 16 / 17 else if i = 1 then -2 / 17 else 1) := by
  obtain ⟨f, hf, hu⟩ := ex_tsls
  have hd : dof (Fin 3) (Fin 1) s ≠ 0 := by cases s <;> norm_num [dof]
  have hM : momVar exH f.u = Matrix.of fun i j => if i = j then (if i = 0 then (16 / 25 : ℝ) else 4 / 25) else 0 := by
    ext i j
    simp only [momVar, hu, exH, of_apply, Fin.sum_univ_three, show (2 : Fin 3) ≠ 0 by decide, show (2 : Fin 3) ≠ 1 by decide]
    fin_cases i <;> fin_cases j <;> norm_num
  have hdet : (momVar exH f.u).det ≠ 0 := by
    rw [hM, det_fin_two]; norm_num
  have hMi : (momVar exH f.u)⁻¹ = Matrix.of fun i j => if i = j then (if i = 0 then (25 / 16 : ℝ) else 25 / 4) else 0 := by
    rw [hM]
    apply inv_eq_right_inv
    ext i j
    simp only [mul_apply, of_apply, Fin.sum_univ_two]
    fin_cases i <;> fin_cases j <;> norm_num
  have hA : exZᵀ * exH * (momVar exH f.u)⁻¹ * (exZᵀ * exH)ᵀ = Matrix.of fun _ _ => (425 / 16 : ℝ) := by
    rw [hMi, ex_zh]
    ext i j
    simp only [mul_apply, of_apply, transpose_apply, Fin.sum_univ_two]
    norm_num
  have hAi : (Matrix.of fun _ _ => (425 / 16 : ℝ) : Matrix (Fin 1) (Fin 1) ℝ)⁻¹ = Matrix.of fun _ _ => (16 / 425 : ℝ) := by
    apply inv_eq_right_inv
    ext i j
    fin_cases i; fin_cases j
    simp [mul_apply]
  obtain ⟨o, ho⟩ := (C154_exists exZ exH exY f.u s hd).2 ⟨hdet, by rw [hA, det_fin_one]; norm_num [of_apply]⟩
  refine ⟨f, o, hf, by rw [ogmm, hf, Option.bind_some]; exact ho, hu, ?_⟩
  obtain ⟨-, -, -, hb, -, huo⟩ := facts hd ho
  rw [effVar, hA, hAi, hMi, ex_zh] at hb
  have hb : o.betas = fun _ => 1 / 17 := by
    rw [hb]
    funext j
    simp only [mulVec, dotProduct, mul_apply, of_apply, transpose_apply, Fin.sum_univ_two, Fin.sum_univ_three, exH, exY,
      Finset.univ_unique, Finset.sum_singleton, show (2 : Fin 3) ≠ 0 by decide, show (2 : Fin 3) ≠ 1 by decide]
    norm_num
  rw [huo, hb]
  funext i
  simp only [mulVec, dotProduct, exZ, exY, Pi.sub_apply, of_apply, Finset.univ_unique, Finset.sum_singleton]
  fin_cases i <;> norm_num

end Spreg.OptGMM
