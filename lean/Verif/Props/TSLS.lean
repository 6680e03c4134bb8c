import Verif.Props.OLS
/-
Properties C10, C11: two-stage least squares.
-/
namespace Spreg.Lin
open Matrix

variable {n k l m kx ke kq : Type} [Fintype n] [Fintype k] [Fintype l] [Fintype m]
  [Fintype kx] [Fintype ke] [Fintype kq]

/-- Everything a successful 2SLS run tells us, as matrix identities. -/
theorem tslsZH_facts [DecidableEq k] [DecidableEq l] {z : Matrix n k ℝ} {h : Matrix n l ℝ}
    {y : n → ℝ} {f : TSLSFit n k l} (hf : tslsZH z h y = some f) :
    IsUnit (hᵀ * h).det ∧ f.hthi = (hᵀ * h)⁻¹ ∧ f.zthhthi = zᵀ * h * (hᵀ * h)⁻¹ ∧
    IsUnit (zᵀ * h * (hᵀ * h)⁻¹ * (zᵀ * h)ᵀ).det ∧
    f.varb = (zᵀ * h * (hᵀ * h)⁻¹ * (zᵀ * h)ᵀ)⁻¹ ∧
    f.betas = (f.varb * f.zthhthi) *ᵥ (hᵀ *ᵥ y) ∧ f.predy = z *ᵥ f.betas ∧ f.u = y - f.predy := by
  unfold tslsZH at hf
  rw [Option.bind_eq_some_iff] at hf
  obtain ⟨B, hB, hf⟩ := hf
  rw [Option.map_eq_some_iff] at hf
  obtain ⟨V, hV, rfl⟩ := hf
  obtain ⟨hu, hBi, -⟩ := inv?_eq_some hB
  obtain ⟨hv, hVi, -⟩ := inv?_eq_some hV
  subst hBi
  subst hVi
  exact ⟨hu, rfl, rfl, hv, rfl, rfl, rfl, rfl⟩

theorem tslsZH_of_isUnit [DecidableEq k] [DecidableEq l] (z : Matrix n k ℝ) (h : Matrix n l ℝ)
    (y : n → ℝ) (hu : IsUnit (hᵀ * h).det)
    (hv : IsUnit (zᵀ * h * (hᵀ * h)⁻¹ * (zᵀ * h)ᵀ).det) : ∃ f, tslsZH z h y = some f := by
  unfold tslsZH
  rw [inv?_of_isUnit hu]
  simp only [Option.bind_some]
  rw [inv?_of_isUnit hv]
  exact ⟨_, rfl⟩

/-- The first-stage orthogonality condition: `z'h (h'h)^{-1} h'u = 0`. -/
theorem tslsZH_foc [DecidableEq k] [DecidableEq l] {z : Matrix n k ℝ} {h : Matrix n l ℝ}
    {y : n → ℝ} {f : TSLSFit n k l} (hf : tslsZH z h y = some f) :
    (zᵀ * h * (hᵀ * h)⁻¹) *ᵥ (hᵀ *ᵥ f.u) = 0 := by
  obtain ⟨_, -, hz, hv, hvb, hb, hp, huu⟩ := tslsZH_facts hf
  rw [huu, hp, mulVec_sub, mulVec_sub, hb, hvb, hz]
  set A := zᵀ * h * (hᵀ * h)⁻¹
  have : A *ᵥ (hᵀ *ᵥ (z *ᵥ (((A * (zᵀ * h)ᵀ)⁻¹ * A) *ᵥ (hᵀ *ᵥ y))))
      = A *ᵥ (hᵀ *ᵥ y) := by
    have e : (zᵀ * h)ᵀ = hᵀ * z := by rw [transpose_mul, transpose_transpose]
    rw [e] at hv ⊢
    calc A *ᵥ (hᵀ *ᵥ (z *ᵥ (((A * (hᵀ * z))⁻¹ * A) *ᵥ (hᵀ *ᵥ y))))
        = ((A * (hᵀ * z)) * (A * (hᵀ * z))⁻¹) *ᵥ (A *ᵥ (hᵀ *ᵥ y)) := by
          simp only [mulVec_mulVec, Matrix.mul_assoc]
      _ = A *ᵥ (hᵀ *ᵥ y) := by rw [mul_nonsing_inv _ hv, one_mulVec]
  rw [this, sub_self]

/-- Fitted values of the first-stage regression of every column of `z` on the instruments `h`:
column `j` is `h * (OLS coefficients of z_j on h)`. -/
noncomputable def firstStage [DecidableEq l] (z : Matrix n k ℝ) (h : Matrix n l ℝ) : Matrix n k ℝ :=
  Matrix.of fun i j => (olsWith h (fun a => z a j) (hᵀ * h)⁻¹).predy i

theorem firstStage_eq [DecidableEq l] (z : Matrix n k ℝ) (h : Matrix n l ℝ) :
    firstStage z h = h * (hᵀ * h)⁻¹ * (hᵀ * z) := by
  ext i j
  simp only [firstStage, of_apply, olsWith]
  rw [mulVec_mulVec]
  show _ = (h * (hᵀ * h)⁻¹ * (hᵀ * z)) i j
  rw [mul_apply]
  simp only [mulVec, dotProduct]
  rfl

/-- C10: the 2SLS residual `u = y - z betas` is orthogonal to the first-stage fitted values of all
regressors. -/
theorem C10_orthogonal_firstStage [DecidableEq k] [DecidableEq l] (z : Matrix n k ℝ)
    (h : Matrix n l ℝ) (y : n → ℝ) (f : TSLSFit n k l) (hf : tslsZH z h y = some f) :
    (∀ i, y i = f.predy i + f.u i) ∧ (∀ i, f.predy i = ∑ j, z i j * f.betas j) ∧
    ∀ j, ∑ i, firstStage z h i j * f.u i = 0 := by
  have hfoc := tslsZH_foc hf
  obtain ⟨_, -, -, -, -, -, hp, huu⟩ := tslsZH_facts hf
  refine ⟨fun i => by rw [huu]; simp, fun i => by rw [hp]; rfl, fun j => ?_⟩
  have : (firstStage z h)ᵀ *ᵥ f.u = 0 := by
    rw [firstStage_eq, transpose_mul, transpose_mul, transpose_mul, transpose_transpose,
      transpose_nonsing_inv, transpose_mul, transpose_transpose, ← hfoc]
    simp only [mulVec_mulVec, Matrix.mul_assoc]
  have h2 := congrFun this j
  simpa [mulVec, dotProduct] using h2

/-- C10: the residual is orthogonal to every exogenous regressor. -/
theorem C10_orthogonal_x [DecidableEq kx] [DecidableEq ke] [DecidableEq kq] (x : Matrix n kx ℝ)
    (yend : Matrix n ke ℝ) (q : Matrix n kq ℝ) (y : n → ℝ)
    (f : TSLSFit n (kx ⊕ ke) (kx ⊕ kq)) (hf : tsls x yend q y = some f) :
    ∀ j, ∑ i, x i j * f.u i = 0 := by
  have hf' : tslsZH (fromCols x yend) (fromCols x q) y = some f := hf
  intro j
  have h := (C10_orthogonal_firstStage _ _ y f hf').2.2 (Sum.inl j)
  obtain ⟨hu, -⟩ := tslsZH_facts hf'
  have e : ∀ i, firstStage (fromCols x yend) (fromCols x q) i (Sum.inl j) = x i j := by
    intro i
    set H := fromCols x q with hH
    have hcol : (fun a => fromCols x yend a (Sum.inl j)) = H *ᵥ (Pi.single (Sum.inl j) 1) := by
      ext a; simp [hH]
    simp only [firstStage, of_apply, olsWith]
    rw [hcol]
    have : H *ᵥ ((Hᵀ * H)⁻¹ *ᵥ (Hᵀ *ᵥ (H *ᵥ Pi.single (Sum.inl j) 1)))
        = H *ᵥ (((Hᵀ * H)⁻¹ * (Hᵀ * H)) *ᵥ (Pi.single (Sum.inl j) 1)) := by
      simp only [mulVec_mulVec, Matrix.mul_assoc]
    rw [this, nonsing_inv_mul _ hu, one_mulVec]
    simp [hH]
  simpa [e] using h

/-- C11: if every regressor is a linear combination of the instruments (e.g. nothing is endogenous), 2SLS
returns the OLS coefficients, fitted values and residuals. -/
theorem C11_equals_ols [DecidableEq k] [DecidableEq l] (z : Matrix n k ℝ) (h : Matrix n l ℝ)
    (y : n → ℝ) (f : TSLSFit n k l) (hf : tslsZH z h y = some f) (C : Matrix l k ℝ)
    (hC : z = h * C) :
    ∃ g, ols z y = some g ∧ g.betas = f.betas ∧ g.u = f.u ∧ g.predy = f.predy ∧ g.xtxi = f.varb := by
  obtain ⟨hu, -, hz, hv, hvb, hb, hp, huu⟩ := tslsZH_facts hf
  have hA : zᵀ * h * (hᵀ * h)⁻¹ * hᵀ = zᵀ := by
    rw [hC, transpose_mul]
    rw [Matrix.mul_assoc Cᵀ, Matrix.mul_assoc Cᵀ (hᵀ * h), mul_nonsing_inv _ hu, Matrix.mul_one]
  have h2 : zᵀ * h * (hᵀ * h)⁻¹ * (zᵀ * h)ᵀ = zᵀ * z := by
    rw [transpose_mul, transpose_transpose, ← Matrix.mul_assoc, hA]
  rw [h2] at hv hvb
  have hbeq : (olsWith z y (zᵀ * z)⁻¹).betas = f.betas := by
    rw [hb, hvb, hz, mulVec_mulVec, Matrix.mul_assoc, hA]
    simp [olsWith]
  have hpe : (olsWith z y (zᵀ * z)⁻¹).predy = f.predy := by
    rw [hp, ← hbeq]; rfl
  refine ⟨_, ols_of_isUnit z y hv, hbeq, ?_, hpe, ?_⟩
  · rw [huu, ← hpe]; rfl
  · rw [hvb]; rfl

/-- C11: in particular, instrumenting the "endogenous" variables by themselves gives OLS. -/
theorem C11_self_instruments [DecidableEq kx] [DecidableEq ke] (x : Matrix n kx ℝ)
    (yend : Matrix n ke ℝ) (y : n → ℝ) (f : TSLSFit n (kx ⊕ ke) (kx ⊕ ke))
    (hf : tsls x yend yend y = some f) :
    ∃ g, ols (fromCols x yend) y = some g ∧ g.betas = f.betas ∧ g.u = f.u := by
  obtain ⟨g, h1, h2, h3, -⟩ := C11_equals_ols _ _ y f hf 1 (by rw [Matrix.mul_one])
  exact ⟨g, h1, h2, h3⟩

/-- C11: exactly identified models (as many instruments as regressors): residuals are orthogonal to all
instruments, i.e. the IV estimator. -/
theorem C11_just_identified [DecidableEq k] (z h : Matrix n k ℝ) (y : n → ℝ) (f : TSLSFit n k k)
    (hf : tslsZH z h y = some f) : ∀ j, ∑ i, h i j * f.u i = 0 := by
  have hfoc := tslsZH_foc hf
  obtain ⟨hu, -, -, hv, -⟩ := tslsZH_facts hf
  rw [det_mul, det_mul] at hv
  have hA : IsUnit (zᵀ * h * (hᵀ * h)⁻¹).det := by
    rw [det_mul]; exact isUnit_of_mul_isUnit_left hv
  have : hᵀ *ᵥ f.u = 0 := by
    have h2 := congrArg (fun v => (zᵀ * h * (hᵀ * h)⁻¹)⁻¹ *ᵥ v) hfoc
    simp only [mulVec_zero] at h2
    rwa [mulVec_mulVec, nonsing_inv_mul _ hA, one_mulVec] at h2
  intro j
  have h2 := congrFun this j
  simpa [mulVec, dotProduct] using h2

/-- C10: 2SLS raises if and only if the instruments are linearly dependent or the projected regressors are:
`H'H` singular or `Z'H(H'H)^{-1}H'Z` singular. -/
theorem C10_raises_iff [DecidableEq k] [DecidableEq l] (z : Matrix n k ℝ) (h : Matrix n l ℝ)
    (y : n → ℝ) :
    tslsZH z h y = none ↔ (∃ v : l → ℝ, v ≠ 0 ∧ h *ᵥ v = 0) ∨
      (∃ v : k → ℝ, v ≠ 0 ∧ firstStage z h *ᵥ v = 0) := by
  have hd1 : (∃ v : l → ℝ, v ≠ 0 ∧ h *ᵥ v = 0) ↔ ¬ IsUnit (hᵀ * h).det := by
    rw [xtx_isUnit_iff]; push Not
    exact ⟨fun ⟨v, a, b⟩ => ⟨v, b, a⟩, fun ⟨v, a, b⟩ => ⟨v, b, a⟩⟩
  have hd2 : IsUnit (hᵀ * h).det → ((∃ v : k → ℝ, v ≠ 0 ∧ firstStage z h *ᵥ v = 0) ↔
      ¬ IsUnit (zᵀ * h * (hᵀ * h)⁻¹ * (zᵀ * h)ᵀ).det) := by
    intro hu
    have e : zᵀ * h * (hᵀ * h)⁻¹ * (zᵀ * h)ᵀ = (firstStage z h)ᵀ * firstStage z h := by
      rw [firstStage_eq]
      simp only [transpose_mul, transpose_transpose, xtxi_symm]
      calc zᵀ * h * (hᵀ * h)⁻¹ * (hᵀ * z)
          = zᵀ * h * (hᵀ * h)⁻¹ * ((hᵀ * h) * (hᵀ * h)⁻¹) * (hᵀ * z) := by
            rw [mul_nonsing_inv _ hu, Matrix.mul_one]
        _ = _ := by simp only [Matrix.mul_assoc]
    rw [e, xtx_isUnit_iff]; push Not
    exact ⟨fun ⟨v, a, b⟩ => ⟨v, b, a⟩, fun ⟨v, a, b⟩ => ⟨v, b, a⟩⟩
  by_cases hu : IsUnit (hᵀ * h).det
  · rw [hd2 hu]
    constructor
    · intro hn
      right
      intro hv
      obtain ⟨f, hf⟩ := tslsZH_of_isUnit z h y hu hv
      rw [hf] at hn; cases hn
    · rintro (hh | hv)
      · exact absurd hu (hd1.1 hh)
      · cases hf : tslsZH z h y with
        | none => rfl
        | some f => exact absurd (tslsZH_facts hf).2.2.2.1 hv
  · constructor
    · intro _; exact Or.inl (hd1.2 hu)
    · intro _
      cases hf : tslsZH z h y with
      | none => rfl
      | some f => exact absurd (tslsZH_facts hf).1 hu

/-- Non-vacuity: a successful just-identified run, regressors and instruments different:
`z = (1, t)`, `h = (1, s)`. -/
example : ∃ f, tslsZH exX (!![1, 0; 1, 0; 1, 1] : Matrix (Fin 3) (Fin 2) ℝ) exY = some f := by
  set H : Matrix (Fin 3) (Fin 2) ℝ := !![1, 0; 1, 0; 1, 1] with hH
  have hu : IsUnit (Hᵀ * H).det := by
    rw [isUnit_iff_ne_zero]
    simp [hH, det_fin_two, Matrix.mul_apply, Fin.sum_univ_three]
  have hz : IsUnit (exXᵀ * H).det := by
    rw [isUnit_iff_ne_zero]
    simp [hH, exX, det_fin_two, Matrix.mul_apply, Fin.sum_univ_three]
    norm_num
  apply tslsZH_of_isUnit _ _ _ hu
  rw [det_mul, det_mul, det_transpose]
  refine (hz.mul ?_).mul hz
  exact isUnit_nonsing_inv_det _ hu

end Spreg.Lin
