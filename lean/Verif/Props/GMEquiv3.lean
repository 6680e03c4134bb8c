import Verif.Props.GMEquiv2
/-
C140, C141: the models.
-/
namespace Spreg.GM
open Matrix Spreg.Lin

variable {m n k l : Type} [Fintype m] [Fintype n] [Fintype k] [Fintype l]

section
variable [DecidableEq k] [DecidableEq l] (t : Tr m n k) (B Bi : Matrix l l ℝ)
variable (opt : Moments (Fin 2) (Fin 2) → Option (Matrix (Fin 2) (Fin 2) ℝ) → Py ℝ)

/-! ### Pieces of the heteroskedastic model with endogenous variables -/

theorem Tr.zA (A : Matrix n n ℝ) (z : Matrix n k ℝ) (u : n → ℝ) :
    ((t.x z)ᵀ * t.w A) *ᵥ t.u u = (t.x z)ᵀ *ᵥ t.u (A *ᵥ u) := by
  rw [← mulVec_mulVec, t.w_mulVec]

theorem Tr.a1a2 (hB : B * Bi = 1) (W A1 : Matrix n n ℝ) (h : Matrix n l ℝ) (u : n → ℝ) (lam : ℝ) (P : Matrix l k ℝ)
    (z : Matrix n k ℝ) : GM.a1a2 (t.w W) (t.w A1) (trH t.σ B h) (t.u u) lam (Bi * P * t.Tiᵀ) (t.x z) =
      (t.u (GM.a1a2 W A1 h u lam P z).1, t.u (GM.a1a2 W A1 h u lam P z).2) := by
  unfold GM.a1a2
  simp only [t.filtU, t.w_transpose, t.w_add, t.zA, N_σ t.σ]
  rw [t.hp B Bi hB, t.hp B Bi hB, mulVec_mulVec, mulVec_mulVec]

theorem Tr.u_vecMul_smul (a : ℝ) (A : Matrix n n ℝ) (u : n → ℝ) : t.u u ᵥ* (a • t.w A) = a • t.u (u ᵥ* A) := by
  rw [← t.w_vecMul, vecMul_smul]

theorem Tr.vcHetTsls [DecidableEq m] [DecidableEq n] (W A1 : Matrix n n ℝ) (u : n → ℝ) (lam : ℝ) (a : (n → ℝ) × (n → ℝ)) :
    GM.vcHetTsls (t.w W) (t.w A1) (t.u u) lam (t.u a.1, t.u a.2) = (t.c ^ 4) • GM.vcHetTsls W A1 u lam a := by
  unfold GM.vcHetTsls
  simp only [t.w_psiSigma, t.w_vcHet, t.u_vecMul_smul, smul_dotProduct, t.u_dot, N_σ t.σ]
  ext i j
  fin_cases i <;> fin_cases j <;> simp <;> ring

theorem Tr.pHat (hB : B * Bi = 1) (h : Matrix n l ℝ) (H : Matrix l l ℝ) (z : Matrix n k ℝ) :
    GM.pHat (trH t.σ B h) (Bi * H * Biᵀ) (t.x z) = (GM.pHat h H z).map fun P => Bi * P * t.Tiᵀ := by
  unfold GM.pHat
  rw [t.hz, N_σ t.σ]
  have e2 : Bi * H * Biᵀ * (Bᵀ * (hᵀ * z) * t.T) = Bi * (H * (hᵀ * z)) * t.T := by
    calc Bi * H * Biᵀ * (Bᵀ * (hᵀ * z) * t.T) = Bi * H * (Biᵀ * Bᵀ) * (hᵀ * z) * t.T := by simp only [Matrix.mul_assoc]
      _ = _ := by rw [← transpose_mul, hB, transpose_one]; simp only [Matrix.mul_assoc, Matrix.one_mul]
  have e3 : (Bᵀ * (hᵀ * z) * t.T)ᵀ * (Bi * (H * (hᵀ * z)) * t.T) = t.Tᵀ * ((hᵀ * z)ᵀ * (H * (hᵀ * z))) * t.T := by
    simp only [transpose_mul, transpose_transpose]
    calc t.Tᵀ * (zᵀ * h * B) * (Bi * (H * (hᵀ * z)) * t.T) = t.Tᵀ * (zᵀ * h) * (B * Bi) * (H * (hᵀ * z)) * t.T := by
          simp only [Matrix.mul_assoc]
      _ = _ := by rw [hB]; simp only [Matrix.mul_assoc, Matrix.one_mul]
  dsimp only
  rw [e2, e3, invE_conj _ _ _ t.hT t.hTi, bind_map, map_bind]
  refine bind_congr' _ _ _ fun pi => ?_
  rw [map_pure]
  congr 1
  rw [Matrix.mul_smul, Matrix.smul_mul]
  congr 1
  calc Bi * (H * (hᵀ * z)) * t.T * (t.Ti * pi * t.Tiᵀ) = Bi * (H * (hᵀ * z)) * (t.T * t.Ti) * pi * t.Tiᵀ := by
        simp only [Matrix.mul_assoc]
    _ = _ := by rw [t.hT]; simp only [Matrix.mul_assoc, Matrix.one_mul]

theorem hw_mul (σ : m ≃ n) (W : Matrix n n ℝ) (h : Matrix n l ℝ) :
    (trH σ B h)ᵀ * W.submatrix σ σ = (Bᵀ * (hᵀ * W)).submatrix id σ := by
  unfold trH
  rw [transpose_submatrix, mul_subσ, transpose_mul, Matrix.mul_assoc]

theorem cols2_u (a b : n → ℝ) : cols2 (t.u a) (t.u b) = (t.c • cols2 a b).submatrix t.σ id := by
  ext i j
  fin_cases j <;> simp [cols2, Tr.u]

theorem Tr.omegaGS2SLS [DecidableEq m] [DecidableEq n] (hB : B * Bi = 1) (W : Matrix n n ℝ) (lam : ℝ) (h : Matrix n l ℝ)
    (u : n → ℝ) (G psi : Matrix (Fin 2) (Fin 2) ℝ) (a : (n → ℝ) × (n → ℝ)) (P : Matrix l k ℝ) :
    GM.omegaGS2SLS (t.w W) lam (trH t.σ B h) (t.u u) ((t.c ^ 2) • G) ((t.c ^ 4) • psi) (t.u a.1, t.u a.2) (Bi * P * t.Tiᵀ) =
      (GM.omegaGS2SLS W lam h u G psi a P).map t.v2 := by
  have hc4 : t.c ^ 4 ≠ 0 := pow_ne_zero _ t.hc
  unfold GM.omegaGS2SLS
  simp only [jac_smul, invE_smul _ hc4, bind_map, map_bind]
  refine bind_congr' _ _ _ fun psii => ?_
  rw [Matrix.mul_assoc, jpj _ t.hc, ← Matrix.mul_assoc]
  refine bind_congr' _ _ _ fun ji => ?_
  rw [map_pure, t.v2_smul, N_σ t.σ]
  congr 2
  have d1 : (1 / N n) • (trH t.σ B h)ᵀ * psiSigma (t.w W) (t.u u) lam * trH t.σ B h =
      (t.c ^ 2) • (Bᵀ * ((1 / N n) • hᵀ * psiSigma W u lam * h) * B) := by
    rw [t.w_psiSigma]
    simp only [Matrix.mul_smul, Matrix.smul_mul]
    unfold Tr.w
    rw [hw_mul]
    unfold trH
    rw [sub_mul_sub]
    simp only [Matrix.mul_assoc]
    first | done | exact smul_comm _ _ _
  have d2 : (1 / N n) • (trH t.σ B h)ᵀ * psiSigma (t.w W) (t.u u) lam * cols2 (t.u a.1) (t.u a.2) =
      (t.c ^ 3) • (Bᵀ * ((1 / N n) • hᵀ * psiSigma W u lam * cols2 a.1 a.2)) := by
    rw [t.w_psiSigma, cols2_u]
    simp only [Matrix.mul_smul, Matrix.smul_mul]
    unfold Tr.w
    rw [hw_mul, sub_mul_sub, smul_comm]
    simp only [Matrix.mul_smul, Matrix.mul_assoc, smul_smul]
    congr 1
    ring
  rw [d1, d2]
  generalize (1 / N n) • hᵀ * psiSigma W u lam * h = D1
  generalize (1 / N n) • hᵀ * psiSigma W u lam * cols2 a.1 a.2 = D2
  have l : (Bi * P * t.Tiᵀ)ᵀ = t.Ti * Pᵀ * Biᵀ := by
    rw [transpose_mul, transpose_mul, transpose_transpose, Matrix.mul_assoc]
  have q1 : Biᵀ * Bᵀ = 1 := by rw [← transpose_mul, hB, transpose_one]
  rw [l, fromBlocks_multiply, fromBlocks_multiply, fromBlocks_multiply, fromBlocks_multiply, t.v2_blocks]
  simp only [Matrix.zero_mul, Matrix.mul_zero, add_zero, zero_add]
  have hc := t.hc
  congr 1
  · rw [Matrix.mul_smul, Matrix.smul_mul]
    congr 1
    calc t.Ti * Pᵀ * Biᵀ * (Bᵀ * D1 * B) * (Bi * P * t.Tiᵀ) = t.Ti * Pᵀ * (Biᵀ * Bᵀ) * D1 * (B * Bi) * P * t.Tiᵀ := by
          simp only [Matrix.mul_assoc]
      _ = _ := by rw [q1, hB]; simp only [Matrix.mul_assoc, Matrix.one_mul]
  · have e : t.Ti * Pᵀ * Biᵀ * (Bᵀ * D2) = t.Ti * (Pᵀ * D2) := by
      calc t.Ti * Pᵀ * Biᵀ * (Bᵀ * D2) = t.Ti * Pᵀ * (Biᵀ * Bᵀ) * D2 := by simp only [Matrix.mul_assoc]
        _ = _ := by rw [q1]; simp only [Matrix.mul_assoc, Matrix.one_mul]
    simp only [Matrix.mul_smul, Matrix.smul_mul, e, smul_smul]
    rw [show t.c ^ 2 * (t.c ^ 4)⁻¹ * t.c ^ 3 = t.c by field_simp]
    simp only [Matrix.mul_assoc]
  · have e : (t.c ^ 3 • (Bᵀ * D2))ᵀ * (Bi * P * t.Tiᵀ) = (t.c ^ 3) • (D2ᵀ * P * t.Tiᵀ) := by
      rw [transpose_smul, transpose_mul, transpose_transpose, Matrix.smul_mul]
      congr 1
      calc D2ᵀ * B * (Bi * P * t.Tiᵀ) = D2ᵀ * (B * Bi) * P * t.Tiᵀ := by simp only [Matrix.mul_assoc]
        _ = _ := by rw [hB]; simp only [Matrix.mul_one]
    rw [Matrix.mul_assoc, e]
    simp only [transpose_smul, Matrix.mul_smul, Matrix.smul_mul, smul_smul]
    rw [show t.c ^ 3 * ((t.c ^ 4)⁻¹ * t.c ^ 2) = t.c by field_simp]
    simp only [Matrix.mul_assoc]
  · simp only [transpose_smul, Matrix.mul_smul, Matrix.smul_mul, smul_smul]
    rw [show t.c ^ 2 * (t.c ^ 4)⁻¹ * (t.c ^ 4 * ((t.c ^ 4)⁻¹ * t.c ^ 2)) = 1 by field_simp, one_smul]

/-! ### C140 -/

/-- **C140** (two-stage least squares): reordering the observations, taking other combinations of the regressors and of the
instruments, changing the units of the dependent variable and adding a combination of regressors to it changes coefficients,
fitted values, residuals and covariance matrix in the corresponding way and nothing else; and the same exception is raised. -/
theorem C140_two_stage (hB : B * Bi = 1) (hBi : Bi * B = 1) (z : Matrix n k ℝ) (h : Matrix n l ℝ) (y : n → ℝ) :
    (∀ f, tslsE z h y = .ok f → ∃ f', tslsE (t.x z) (trH t.σ B h) (t.y z y) = .ok f' ∧
      f'.betas = t.b f.betas ∧ f'.predy = t.y z f.predy ∧ f'.u = t.u f.u ∧
      sig2n f'.u = t.c ^ 2 * sig2n f.u ∧ sig2n f'.u • f'.varb = t.v (sig2n f.u • f.varb)) ∧
    (∀ e, tslsE z h y = .error e → tslsE (t.x z) (trH t.σ B h) (t.y z y) = .error e) := by
  have hs : ∀ u : n → ℝ, sig2n (t.u u) = t.c ^ 2 * sig2n u := fun u => by
    unfold sig2n
    rw [show utu (t.u u) = t.c ^ 2 * utu u by rw [utu_eq_dot, utu_eq_dot, t.u_dot], Fintype.card_congr t.σ]
    ring
  refine ⟨fun f hf => ⟨t.tsls Bi z f, ?_, rfl, rfl, rfl, hs _, ?_⟩, fun e he => ?_⟩
  · rw [t.tslsE B Bi hB hBi, hf]; rfl
  · show sig2n (t.u f.u) • (t.Ti * f.varb * t.Tiᵀ) = _
    rw [hs, Tr.v, Matrix.mul_smul, Matrix.smul_mul, smul_smul]
  · rw [t.tslsE B Bi hB hBi, he]; rfl

/-! ### C141 -/

variable {opt}

/-- **C141** (`GM_Error_Het`). -/
theorem C141_error_het [DecidableEq m] [DecidableEq n] (ho : UnitFree t.c opt) (W : Matrix n n ℝ) (x : Matrix n k ℝ)
    (y : n → ℝ) (maxIter : ℕ) (epsilon : ℝ) (step1c hardBound : Bool) :
    gmErrorHet opt (t.w W) (t.x x) (t.y x y) maxIter epsilon step1c hardBound =
      (gmErrorHet opt W x y maxIter epsilon step1c hardBound).map (t.fit x) := by
  unfold gmErrorHet
  rw [t.olsE, bind_map, map_bind]
  refine bind_congr' _ _ _ fun o => ?_
  have e1 : (t.ols x o).u = t.u o.u := rfl
  have e2 : moments2eqs (A1het (t.w W)) (t.w W) (t.u o.u) = Tr.mom (t.c ^ 2) (moments2eqs (A1het W) W o.u) := by
    rw [t.w_A1het, t.mom2]
  have e3 : ∀ lam1, step1cLam opt (t.w W) (Tr.mom (t.c ^ 2) (moments2eqs (A1het W) W o.u)) (t.u o.u) lam1 step1c =
      step1cLam opt W (moments2eqs (A1het W) W o.u) o.u lam1 step1c := fun lam1 => by
    unfold step1cLam
    rw [t.vc, ho.2]
  simp only [e1, e2, ho.1, e3, map_bind]
  refine bind_congr' _ _ _ fun lam1 => bind_congr' _ _ _ fun lam2 => ?_
  have hl := gmLoop_map (t.step x) (GM.hetStep opt W x y) (GM.hetStep opt (t.w W) (t.x x) (t.y x y)) Step.lam Step.lam
    (t.hetStep opt ho W x y) (fun _ => rfl) epsilon maxIter lam2 1 none
  rw [Option.map_none] at hl
  rw [hl, bind_map]
  refine bind_congr' _ _ _ fun p => ?_
  rw [bound_map, bind_map]
  refine bind_congr' _ _ _ fun s => ?_
  show (if hardBound ∧ (99 / 100 : ℝ) ≤ |s.lam| then _ else _) = _
  by_cases hb : hardBound ∧ (99 / 100 : ℝ) ≤ |s.lam|
  · rw [if_pos hb, if_pos hb]; rfl
  · rw [if_neg hb, if_neg hb]
    have e4 : GM.vmHet (t.step x s).moments.G (t.step x s).lam (t.x x) (t.step x s).u (t.w W)
        (vcHet (t.w W) (A1het (t.w W)) (psiSigma (t.w W) (t.step x s).u (t.step x s).lam)) =
        (GM.vmHet s.moments.G s.lam x s.u W (vcHet W (A1het W) (psiSigma W s.u s.lam))).map t.v2 := by
      rw [← t.vmHet]
      show GM.vmHet _ _ _ _ _ (vcHet (t.w W) (A1het (t.w W)) (psiSigma (t.w W) (t.u s.u) s.lam)) = _
      rw [t.vc]
      rfl
    rw [e4, bind_map, map_bind]
    refine bind_congr' _ _ _ fun v => ?_
    rw [map_pure]
    congr 1
    simp only [Tr.fit, IterFit.mk.injEq]
    exact ⟨rfl, rfl, rfl, rfl, t.efilt W s.lam s.u, trivial, trivial, trivial⟩

/-- **C141** (`GM_Error_Hom`). -/
theorem C141_error_hom [DecidableEq m] [DecidableEq n] (ho : UnitFree t.c opt) (W : Matrix n n ℝ) (x : Matrix n k ℝ)
    (y : n → ℝ) (maxIter : ℕ) (epsilon : ℝ) (a1 : String) :
    gmErrorHom opt (t.w W) (t.x x) (t.y x y) maxIter epsilon a1 = (gmErrorHom opt W x y maxIter epsilon a1).map (t.fit x) := by
  unfold gmErrorHom
  rw [t.chooseA1, bind_map, map_bind]
  refine bind_congr' _ _ _ fun A1 => ?_
  have hA2 : A2hom (t.w W) = t.w (A2hom W) := t.w_A2hom W
  simp only [hA2, t.olsE, bind_map, map_bind]
  refine bind_congr' _ _ _ fun o => ?_
  have e1 : (t.ols x o).u = t.u o.u := rfl
  rw [e1, t.momHom, ho.1]
  refine bind_congr' _ _ _ fun lam1 => ?_
  have hl := gmLoop_map (t.step x) (GM.homStep opt W A1 (A2hom W) x y)
    (GM.homStep opt (t.w W) (t.w A1) (t.w (A2hom W)) (t.x x) (t.y x y)) Step.lam Step.lam
    (t.homStep opt ho W A1 (A2hom W) x y) (fun _ => rfl) epsilon maxIter lam1 1 none
  rw [Option.map_none] at hl
  rw [hl, bind_map]
  refine bind_congr' _ _ _ fun p => ?_
  rw [bound_map, bind_map]
  refine bind_congr' _ _ _ fun s => ?_
  have e4 : GM.omegaHomOls (t.w W) (t.w A1) (t.w (A2hom W)) (t.x x) (t.step x s).u (t.step x s).lam (t.step x s).moments.G =
      (GM.omegaHomOls W A1 (A2hom W) x s.u s.lam s.moments.G).map t.v2 := t.omegaHomOls W A1 (A2hom W) x s.u s.lam s.moments.G
  rw [e4, bind_map]
  refine bind_congr' _ _ _ fun v => ?_
  rw [map_pure]
  congr 1
  simp only [Tr.fit, IterFit.mk.injEq]
  exact ⟨rfl, rfl, rfl, rfl, t.efilt W s.lam s.u, trivial, trivial, trivial⟩

/-- **C141** (`GM_Endog_Error_Hom`, `GM_Combo_Hom`). -/
theorem C141_endog_hom [DecidableEq m] [DecidableEq n] (ho : UnitFree t.c opt) (hB : B * Bi = 1) (hBi : Bi * B = 1)
    (W : Matrix n n ℝ) (z : Matrix n k ℝ) (h : Matrix n l ℝ) (y : n → ℝ) (maxIter : ℕ) (epsilon : ℝ) (a1 : String) :
    gmEndogErrorHom opt (t.w W) (t.x z) (trH t.σ B h) (t.y z y) maxIter epsilon a1 =
      (gmEndogErrorHom opt W z h y maxIter epsilon a1).map (t.fit z) := by
  unfold gmEndogErrorHom
  rw [t.chooseA1, bind_map, map_bind]
  refine bind_congr' _ _ _ fun A1 => ?_
  have hA2 : A2hom (t.w W) = t.w (A2hom W) := t.w_A2hom W
  simp only [hA2, t.tslsE B Bi hB hBi, bind_map, map_bind]
  refine bind_congr' _ _ _ fun o => ?_
  have e1 : (t.tsls Bi z o).u = t.u o.u := rfl
  rw [e1, t.momHom, ho.1]
  refine bind_congr' _ _ _ fun lam1 => ?_
  have hl := gmLoop_map (t.step z) (GM.homEndogStep opt W A1 (A2hom W) z h y)
    (GM.homEndogStep opt (t.w W) (t.w A1) (t.w (A2hom W)) (t.x z) (trH t.σ B h) (t.y z y)) Step.lam Step.lam
    (t.homEndogStep opt B Bi hB hBi ho W A1 (A2hom W) z h y) (fun _ => rfl) epsilon maxIter lam1 1 none
  rw [Option.map_none] at hl
  rw [hl, bind_map]
  refine bind_congr' _ _ _ fun p => ?_
  rw [bound_map, bind_map]
  refine bind_congr' _ _ _ fun s => ?_
  have e4 : GM.omegaHom (t.w W) (t.w A1) (t.w (A2hom W)) (trH t.σ B h) (t.x z) (t.step z s).u (t.step z s).lam
      (t.step z s).moments.G = (GM.omegaHom W A1 (A2hom W) h z s.u s.lam s.moments.G).map t.v2 :=
    t.omegaHom B Bi hB hBi W A1 (A2hom W) h z s.u s.lam s.moments.G
  rw [e4, bind_map]
  refine bind_congr' _ _ _ fun v => ?_
  rw [map_pure]
  congr 1
  simp only [Tr.fit, IterFit.mk.injEq]
  exact ⟨rfl, rfl, rfl, rfl, t.efilt W s.lam s.u, trivial, trivial, trivial⟩

/-- What the non-iterated models become. -/
def Tr.fit1 (x : Matrix n k ℝ) (f : GMErrorFit n k) : GMErrorFit m k where
  betas := t.b f.betas
  lam := f.lam
  predy := t.y x f.predy
  u := t.u f.u
  eFiltered := t.u f.eFiltered
  sig2 := t.c ^ 2 * f.sig2
  vm := t.v f.vm

theorem Tr.efilt' (W : Matrix n n ℝ) (lam : ℝ) (u : n → ℝ) :
    t.u u - (lam • t.w W) *ᵥ t.u u = t.u (u - (lam • W) *ᵥ u) := by
  rw [Matrix.smul_mulVec, Matrix.smul_mulVec, t.efilt]

theorem Tr.uuN (u : n → ℝ) : (t.u u ⬝ᵥ t.u u) / N n = t.c ^ 2 * ((u ⬝ᵥ u) / N n) := by
  rw [t.u_dot]; ring

/-- **C141** (`GM_Endog_Error`, `GM_Combo`). -/
theorem C141_endog_error {opt3 : Moments (Fin 3) (Fin 3) → Py ℝ} (ho : ∀ M, opt3 (Tr.mom3 (t.c ^ 2) M) = opt3 M)
    (hB : B * Bi = 1) (hBi : Bi * B = 1) (W : Matrix n n ℝ) (z : Matrix n k ℝ) (h : Matrix n l ℝ) (y : n → ℝ) :
    gmEndogError opt3 (t.w W) (t.x z) (trH t.σ B h) (t.y z y) = (gmEndogError opt3 W z h y).map (t.fit1 z) := by
  unfold gmEndogError
  rw [t.tslsE B Bi hB hBi, bind_map, map_bind]
  refine bind_congr' _ _ _ fun o => ?_
  have e1 : (t.tsls Bi z o).u = t.u o.u := rfl
  rw [e1, t.momGM, ho, map_bind]
  refine bind_congr' _ _ _ fun lam => ?_
  rw [t.filtM, t.filtY, t.tslsE B Bi hB hBi, bind_map, map_bind]
  refine bind_congr' _ _ _ fun o2 => ?_
  rw [map_pure]
  congr 1
  have e2 : (t.tsls Bi (spFilterM W lam z) o2).betas = t.b o2.betas := rfl
  have e3 : (t.tsls Bi (spFilterM W lam z) o2).u = t.u o2.u := rfl
  have e4 : (t.tsls Bi (spFilterM W lam z) o2).varb = t.Ti * o2.varb * t.Tiᵀ := rfl
  rw [e2, e3, e4, t.pred]
  dsimp only
  rw [t.resid, N_σ t.σ, t.uuN, t.efilt']
  simp only [Tr.fit1, Tr.v, Matrix.mul_smul, Matrix.smul_mul, smul_smul]

theorem Tr.ols? (x : Matrix n k ℝ) (y : n → ℝ) : Lin.ols (t.x x) (t.y x y) = (Lin.ols x y).map (t.ols x) := by
  have := t.olsE x y
  unfold GM.olsE at this
  rcases h1 : Lin.ols (t.x x) (t.y x y) with _ | a <;> rcases h2 : Lin.ols x y with _ | b <;> rw [h1, h2] at this
  · rfl
  · exact absurd this (by simp [Except.map])
  · exact absurd this (by simp [Except.map])
  · simp only [Except.map, Except.ok.injEq] at this
    rw [this]; rfl

/-- **C141** (`GM_Error`). -/
theorem C141_error {opt3 : Moments (Fin 3) (Fin 3) → ℝ} (ho : ∀ M, opt3 (Tr.mom3 (t.c ^ 2) M) = opt3 M)
    (W : Matrix n n ℝ) (x : Matrix n k ℝ) (y : n → ℝ) :
    gmError opt3 (t.w W) (t.x x) (t.y x y) = (gmError opt3 W x y).map (t.fit1 x) := by
  unfold gmError
  rw [t.ols?]
  rcases Lin.ols x y with _ | o
  · rw [Option.map_none, Option.bind_none, Option.bind_none, Option.map_none]
  rw [Option.map_some, Option.bind_some, Option.bind_some]
  have e1 : (t.ols x o).u = t.u o.u := rfl
  rw [e1, t.momGM, ho]
  generalize opt3 (momentsGM W o.u) = lam
  dsimp only
  rw [t.filtM, t.filtY, t.ols?]
  rcases Lin.ols (spFilterM W lam x) (spFilter W lam y) with _ | o2
  · rw [Option.map_none, Option.map_none, Option.map_none, Option.map_none]
  rw [Option.map_some, Option.map_some, Option.map_some, Option.map_some]
  congr 1
  have hs : ∀ u : n → ℝ, sig2n (t.u u) = t.c ^ 2 * sig2n u := fun u => by
    unfold sig2n
    rw [show utu (t.u u) = t.c ^ 2 * utu u by rw [utu_eq_dot, utu_eq_dot, t.u_dot], Fintype.card_congr t.σ]
    ring
  have e2 : (t.ols (spFilterM W lam x) o2).betas = t.b o2.betas := rfl
  have e3 : (t.ols (spFilterM W lam x) o2).u = t.u o2.u := rfl
  have e4 : (t.ols (spFilterM W lam x) o2).xtxi = t.Ti * o2.xtxi * t.Tiᵀ := rfl
  rw [e2, e3, e4, t.pred, t.resid, hs, t.efilt']
  simp only [Tr.fit1, Tr.v, Matrix.mul_smul, Matrix.smul_mul, smul_smul]

end

/-! ### The heteroskedastic model with endogenous variables: the last coefficient is clipped -/

section
variable [DecidableEq k] [DecidableEq l] [DecidableEq m] [DecidableEq n] (t : Tr m n (k ⊕ Unit)) (B Bi : Matrix l l ℝ)
variable {opt : Moments (Fin 2) (Fin 2) → Option (Matrix (Fin 2) (Fin 2) ℝ) → Py ℝ}

omit [DecidableEq m] [DecidableEq n] [Fintype m] [Fintype n] in
theorem Tr.last {T1 : Matrix k k ℝ} (hT : t.T = fromBlocks T1 0 0 (t.c • 1)) (hd : t.d (.inr ()) = 0) (b : k ⊕ Unit → ℝ) :
    t.b b (.inr ()) = b (.inr ()) := by
  have h1 : ∀ j, t.c * t.Ti (.inr ()) j = (1 : Matrix (k ⊕ Unit) (k ⊕ Unit) ℝ) (.inr ()) j := fun j => by
    rw [← t.hT, hT, mul_apply, Fintype.sum_sum_type]
    simp
  have h4 : ∀ i, t.Ti (.inr ()) (.inl i) = 0 := fun i => by
    have := h1 (.inl i)
    rw [one_apply_ne (by simp)] at this
    exact (mul_eq_zero.1 this).resolve_left t.hc
  have h5 : t.c * t.Ti (.inr ()) (.inr ()) = 1 := by rw [h1, one_apply_eq]
  simp only [Tr.b, mulVec, dotProduct, Fintype.sum_sum_type, h4, zero_mul, Finset.sum_const_zero, zero_add, Pi.add_apply, hd, add_zero,
    Pi.smul_apply, smul_eq_mul, Finset.univ_unique, Finset.sum_singleton]
  show t.Ti (.inr ()) (.inr ()) * (t.c * b (.inr ())) = _
  rw [← mul_assoc, mul_comm _ t.c, h5, one_mul]

omit [DecidableEq m] [DecidableEq n] [Fintype m] [Fintype n] in
theorem Tr.clip {T1 : Matrix k k ℝ} (hT : t.T = fromBlocks T1 0 0 (t.c • 1)) (hd : t.d (.inr ()) = 0) (b : k ⊕ Unit → ℝ) :
    clipLast (t.b b) = t.b (clipLast b) := by
  have h2 : ∀ i, t.Ti i (.inr ()) * t.c = (1 : Matrix (k ⊕ Unit) (k ⊕ Unit) ℝ) i (.inr ()) := fun i => by
    rw [← t.hTi, hT, mul_apply, Fintype.sum_sum_type]
    simp
  have h3 : ∀ i, t.Ti (.inl i) (.inr ()) = 0 := fun i => by
    have := h2 (.inl i)
    rw [one_apply_ne (by simp)] at this
    exact (mul_eq_zero.1 this).resolve_right t.hc
  have hlast := t.last hT hd
  funext i
  cases i with
  | inr q =>
    obtain rfl : q = () := rfl
    rw [hlast]
    simp only [clipLast, hlast]
  | inl i =>
    show t.b b (.inl i) = _
    simp only [Tr.b, mulVec, dotProduct, Fintype.sum_sum_type, h3, Finset.univ_unique, Finset.sum_singleton]
    congr 1
    rw [zero_mul, zero_mul]

theorem Tr.hetEndogStep (ho : UnitFree t.c opt) (hB : B * Bi = 1) (hBi : Bi * B = 1) {T1 : Matrix k k ℝ}
    (hT : t.T = fromBlocks T1 0 0 (t.c • 1)) (hd : t.d (.inr ()) = 0) (W : Matrix n n ℝ) (z : Matrix n (k ⊕ Unit) ℝ)
    (h : Matrix n l ℝ) (y : n → ℝ) (lam : ℝ) :
    GM.hetEndogStep opt (t.w W) (t.x z) (trH t.σ B h) (t.y z y) lam = (GM.hetEndogStep opt W z h y lam).map (t.step z) := by
  unfold GM.hetEndogStep
  rw [t.filtM, t.filtY]
  dsimp only
  rw [t.tslsE B Bi hB hBi, bind_map, map_bind]
  refine bind_congr' _ _ _ fun o => ?_
  have e : (t.tsls Bi (spFilterM W lam z) o).betas = t.b o.betas := rfl
  have e2 : N m • ((t.tsls Bi (spFilterM W lam z) o).zthhthiᵀ * (t.tsls Bi (spFilterM W lam z) o).varb) =
      Bi * (N n • (o.zthhthiᵀ * o.varb)) * t.Tiᵀ := by
    show N m • ((t.Tᵀ * o.zthhthi * Biᵀ)ᵀ * (t.Ti * o.varb * t.Tiᵀ)) = _
    rw [N_σ t.σ, transpose_mul, transpose_mul, transpose_transpose, transpose_transpose, Matrix.mul_smul, Matrix.smul_mul]
    congr 1
    calc Bi * (o.zthhthiᵀ * t.T) * (t.Ti * o.varb * t.Tiᵀ) = Bi * o.zthhthiᵀ * (t.T * t.Ti) * o.varb * t.Tiᵀ := by
          simp only [Matrix.mul_assoc]
      _ = _ := by rw [t.hT]; simp only [Matrix.mul_assoc, Matrix.one_mul]
  rw [e, e2, t.clip hT hd, t.pred, t.resid, t.w_A1het, t.mom2, t.a1a2 B Bi hB, t.vcHetTsls, ho.2, map_bind]
  exact bind_congr' _ _ _ fun _ => rfl

/-- **C141** (`GM_Endog_Error_Het`, `GM_Combo_Het`): here the last regressor (the spatial lag in the combined model) may only be
measured in the new units, because its coefficient is clipped to ±0.9. -/
theorem C141_endog_het (ho : UnitFree t.c opt) (hB : B * Bi = 1) (hBi : Bi * B = 1) {T1 : Matrix k k ℝ}
    (hT : t.T = fromBlocks T1 0 0 (t.c • 1)) (hd : t.d (.inr ()) = 0) (W : Matrix n n ℝ) (z : Matrix n (k ⊕ Unit) ℝ)
    (h : Matrix n l ℝ) (y : n → ℝ) (maxIter : ℕ) (epsilon : ℝ)
    (hardBound : Bool) :
    gmEndogErrorHet opt (t.w W) (t.x z) (trH t.σ B h) (t.y z y) maxIter epsilon hardBound =
      (gmEndogErrorHet opt W z h y maxIter epsilon hardBound).map (t.fit z) := by
  unfold gmEndogErrorHet
  rw [t.tslsE B Bi hB hBi, bind_map, map_bind]
  refine bind_congr' _ _ _ fun o => ?_
  have e1 : (t.tsls Bi z o).betas = t.b o.betas := rfl
  have e0 : (t.tsls Bi z o).hthi = Bi * o.hthi * Biᵀ := rfl
  rw [e1, e0, t.clip hT hd, t.pred, t.resid, t.w_A1het]
  dsimp only
  rw [t.mom2, ho.1, map_bind]
  refine bind_congr' _ _ _ fun lam1 => ?_
  have hl := gmLoop_map (t.step z) (GM.hetEndogStep opt W z h y)
    (GM.hetEndogStep opt (t.w W) (t.x z) (trH t.σ B h) (t.y z y)) Step.lam Step.lam
    (t.hetEndogStep B Bi ho hB hBi hT hd W z h y) (fun _ => rfl) epsilon maxIter lam1 1 none
  rw [Option.map_none] at hl
  rw [hl, bind_map, map_bind]
  refine bind_congr' _ _ _ fun p => ?_
  simp only [bound_map, bind_map, map_bind]
  refine bind_congr' _ _ _ fun s => ?_
  have f0 : (t.step z s).betas (.inr ()) = s.betas (.inr ()) := t.last hT hd s.betas
  rw [f0]
  show (if hardBound ∧ ((99 / 100 : ℝ) ≤ |s.lam| ∨ (99 / 100 : ℝ) ≤ |s.betas (.inr ())|) then _ else _) = _
  by_cases hb : hardBound ∧ ((99 / 100 : ℝ) ≤ |s.lam| ∨ (99 / 100 : ℝ) ≤ |s.betas (.inr ())|)
  · rw [if_pos hb, if_pos hb]; rfl
  rw [if_neg hb, if_neg hb]
  have f1 : (t.step z s).lam = s.lam := rfl
  have f2 : (t.step z s).u = t.u s.u := rfl
  have f3 : (t.step z s).moments.G = (t.c ^ 2) • s.moments.G := rfl
  rw [f1, f2, f3, t.filtM, t.pHat B Bi hB, bind_map, map_bind]
  refine bind_congr' _ _ _ fun P => ?_
  rw [t.a1a2 B Bi hB, t.vcHetTsls, t.omegaGS2SLS B Bi hB, bind_map, map_bind]
  refine bind_congr' _ _ _ fun v => ?_
  rw [map_pure]
  congr 1
  simp only [Tr.fit, IterFit.mk.injEq]
  exact ⟨rfl, trivial, rfl, trivial, t.efilt W s.lam s.u, trivial, trivial, trivial⟩

end

end Spreg.GM
