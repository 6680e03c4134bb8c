import Verif.Props.GMEquiv
/-
C140, C141: two-stage least squares and the GM spatial error models do not depend on the order of the observations, on the
units of the dependent variable or on the basis of regressors and instruments.
-/
namespace Spreg.GM
open Matrix Spreg.Lin

variable {m n k l : Type} [Fintype m] [Fintype n] [Fintype k] [Fintype l]

/-! ### Exceptions -/

theorem bind_map {α β γ : Type} (x : Py α) (f : α → β) (g : β → Py γ) : (x.map f >>= g) = (x >>= fun a => g (f a)) := by
  cases x <;> rfl

theorem map_bind {α β γ : Type} (x : Py α) (g : α → Py β) (f : β → γ) : (x >>= g).map f = (x >>= fun a => (g a).map f) := by
  cases x <;> rfl

theorem bind_congr' {α β : Type} (x : Py α) (g h : α → Py β) (e : ∀ a, g a = h a) : (x >>= g) = (x >>= h) := by
  cases x with
  | error e' => rfl
  | ok a => exact e a

theorem map_pure {α β : Type} (a : α) (f : α → β) : (pure a : Py α).map f = pure (f a) := rfl

/-- The loop commutes with a change of data that each pass commutes with. -/
theorem gmLoop_map {S S' : Type} (f : S → S') (step : ℝ → Py S) (step' : ℝ → Py S') (nl : S → ℝ) (nl' : S' → ℝ)
    (hs : ∀ l, step' l = (step l).map f) (hn : ∀ s, nl' (f s) = nl s) (epsilon : ℝ) :
    ∀ (r : ℕ) (lam e : ℝ) (last : Option S), gmLoop step' nl' epsilon r lam e (last.map f) =
      (gmLoop step nl epsilon r lam e last).map fun p => (p.1.map f, p.2)
  | 0, _, _, _ => rfl
  | r + 1, lam, e, last => by
    rw [gmLoop, gmLoop]
    by_cases h : epsilon < e
    · rw [if_pos h, if_pos h, hs, bind_map, map_bind]
      refine bind_congr' _ _ _ fun s => ?_
      have := gmLoop_map f step step' nl nl' hs hn epsilon r (nl s) |nl s - lam| (some s)
      rw [hn, ← Option.map_some, this, bind_map, map_bind]
      exact bind_congr' _ _ _ fun p => rfl
    · rw [if_neg h, if_neg h]; rfl

theorem bound_map {S S' : Type} (f : S → S') (o : Option S) : bound (o.map f) = (bound o).map f := by
  cases o <;> rfl

section
variable [DecidableEq k] [DecidableEq l] (t : Tr m n k)

/-! ### One step -/

/-- What a pass becomes. -/
def Tr.step (x : Matrix n k ℝ) (s : Step n k) : Step m k :=
  ⟨t.b s.betas, t.y x s.predy, t.u s.u, Tr.mom (t.c ^ 2) s.moments, s.lam⟩

/-- The covariance matrix of coefficients and lambda for the new data: lambda is the same number. -/
def Tr.v2 (V : Matrix (k ⊕ Unit) (k ⊕ Unit) ℝ) : Matrix (k ⊕ Unit) (k ⊕ Unit) ℝ :=
  fromBlocks (t.c • t.Ti) 0 0 1 * V * (fromBlocks (t.c • t.Ti) 0 0 1)ᵀ

/-- What the fitted model becomes. -/
def Tr.fit (x : Matrix n k ℝ) (f : IterFit n k) : IterFit m k where
  betas := t.b f.betas
  lam := f.lam
  predy := t.y x f.predy
  u := t.u f.u
  eFiltered := t.u f.eFiltered
  vm := t.v2 f.vm
  iteration := f.iteration
  iterStop := f.iterStop

/-- An optimiser that does not depend on the units of the dependent variable. -/
def UnitFree (c : ℝ) (opt : Moments (Fin 2) (Fin 2) → Option (Matrix (Fin 2) (Fin 2) ℝ) → Py ℝ) : Prop :=
  (∀ M, opt (Tr.mom (c ^ 2) M) none = opt M none) ∧ ∀ M V, opt (Tr.mom (c ^ 2) M) (some ((c ^ 4) • V)) = opt M (some V)

/-- Without a change of units every optimiser qualifies. -/
theorem unitFree_one (opt : Moments (Fin 2) (Fin 2) → Option (Matrix (Fin 2) (Fin 2) ℝ) → Py ℝ) {c : ℝ} (hc : c ^ 2 = 1) :
    UnitFree c opt := by
  have h4 : c ^ 4 = 1 := by rw [show (4 : ℕ) = 2 * 2 from rfl, pow_mul, hc, one_pow]
  have hm : ∀ M : Moments (Fin 2) (Fin 2), Tr.mom (c ^ 2) M = M := fun M => by rw [hc]; simp [Tr.mom]
  exact ⟨fun M => by rw [hm], fun M V => by rw [hm, h4, one_smul]⟩

theorem Tr.vc [DecidableEq m] [DecidableEq n] (W : Matrix n n ℝ) (u : n → ℝ) (lam : ℝ) :
    vcHet (t.w W) (A1het (t.w W)) (psiSigma (t.w W) (t.u u) lam) = (t.c ^ 4) • vcHet W (A1het W) (psiSigma W u lam) := by
  rw [t.w_A1het, t.w_psiSigma, t.w_vcHet, ← pow_mul]

variable (opt : Moments (Fin 2) (Fin 2) → Option (Matrix (Fin 2) (Fin 2) ℝ) → Py ℝ)

theorem Tr.hetStep [DecidableEq m] [DecidableEq n] (ho : UnitFree t.c opt) (W : Matrix n n ℝ) (x : Matrix n k ℝ) (y : n → ℝ)
    (lam : ℝ) : GM.hetStep opt (t.w W) (t.x x) (t.y x y) lam = (GM.hetStep opt W x y lam).map (t.step x) := by
  unfold GM.hetStep
  rw [t.filtM, t.filtY, t.olsE, bind_map, map_bind]
  refine bind_congr' _ _ _ fun o => ?_
  have e : (t.ols (spFilterM W lam x) o).betas = t.b o.betas := rfl
  rw [e]
  dsimp only
  rw [t.pred, t.resid, t.vc, t.w_A1het, t.mom2, ho.2, map_bind]
  exact bind_congr' _ _ _ fun _ => rfl

theorem jac_smul (a : ℝ) (G : Matrix (Fin 2) (Fin 2) ℝ) (lam : ℝ) : jac (a • G) lam = a • jac G lam := by
  unfold jac; rw [Matrix.smul_mul]

theorem Tr.v2_blocks (A : Matrix k k ℝ) (Bm : Matrix k Unit ℝ) (C : Matrix Unit k ℝ) (D : Matrix Unit Unit ℝ) :
    t.v2 (fromBlocks A Bm C D) = fromBlocks ((t.c ^ 2) • (t.Ti * A * t.Tiᵀ)) (t.c • (t.Ti * Bm)) (t.c • (C * t.Tiᵀ)) D := by
  unfold Tr.v2
  rw [fromBlocks_transpose, fromBlocks_multiply, fromBlocks_multiply]
  simp only [Matrix.zero_mul, Matrix.mul_zero, add_zero, zero_add, transpose_zero, transpose_one, Matrix.one_mul, Matrix.mul_one,
    Matrix.smul_mul, Matrix.mul_smul, transpose_smul, smul_smul, pow_two]

theorem Tr.v2_smul (a : ℝ) (V : Matrix (k ⊕ Unit) (k ⊕ Unit) ℝ) : t.v2 (a • V) = a • t.v2 V := by
  unfold Tr.v2; rw [Matrix.mul_smul, Matrix.smul_mul]

/-- `J' Psi⁻¹ J` does not depend on the units. -/
theorem jpj (c : ℝ) (hc : c ≠ 0) (J : Matrix (Fin 2) Unit ℝ) (P : Matrix (Fin 2) (Fin 2) ℝ) :
    ((c ^ 2) • J)ᵀ * (((c ^ 4)⁻¹ • P) * ((c ^ 2) • J)) = Jᵀ * (P * J) := by
  rw [transpose_smul, Matrix.smul_mul, Matrix.smul_mul, Matrix.mul_smul, Matrix.mul_smul, Matrix.mul_smul, smul_smul, smul_smul]
  rw [show c ^ 2 * (c ^ 4)⁻¹ * c ^ 2 = 1 by field_simp, one_smul]

theorem Tr.sandwich (a : ℝ) (W : Matrix n n ℝ) (x : Matrix n k ℝ) :
    (t.x x)ᵀ * (a • t.w W) * t.x x = a • (t.Tᵀ * (xᵀ * W * x) * t.T) := by
  rw [Matrix.mul_smul, Matrix.smul_mul]
  unfold Tr.x Tr.w
  rw [transpose_submatrix, mul_subσ, sub_mul_sub, transpose_mul]
  simp only [Matrix.mul_assoc]

theorem Tr.vmHet [DecidableEq m] [DecidableEq n] (G psi : Matrix (Fin 2) (Fin 2) ℝ) (lam : ℝ) (x : Matrix n k ℝ) (u : n → ℝ)
    (W : Matrix n n ℝ) :
    GM.vmHet ((t.c ^ 2) • G) lam (t.x x) (t.u u) (t.w W) ((t.c ^ 4) • psi) = (GM.vmHet G lam x u W psi).map t.v2 := by
  have hc4 : t.c ^ 4 ≠ 0 := pow_ne_zero _ t.hc
  unfold GM.vmHet
  simp only [jac_smul, t.filtM, t.xx, invE_conj _ _ _ t.hT t.hTi, invE_smul _ hc4, bind_map, map_bind]
  refine bind_congr' _ _ _ fun zzi => bind_congr' _ _ _ fun psii => ?_
  rw [Matrix.mul_assoc, jpj _ t.hc, ← Matrix.mul_assoc]
  refine bind_congr' _ _ _ fun om => ?_
  rw [map_pure, t.v2_smul, t.v2_blocks, N_σ t.σ, t.w_psiSigma, t.sandwich]
  generalize (spFilterM W lam x)ᵀ * psiSigma W u lam * spFilterM W lam x = mid
  have e : N n • (t.Ti * zzi * t.Tiᵀ * (t.c ^ 2 • (t.Tᵀ * mid * t.T)) * (t.Ti * zzi * t.Tiᵀ)) =
      (t.c ^ 2) • (t.Ti * (N n • (zzi * mid * zzi)) * t.Tiᵀ) := by
    simp only [Matrix.mul_smul, Matrix.smul_mul]
    rw [smul_comm]
    congr 2
    calc t.Ti * zzi * t.Tiᵀ * (t.Tᵀ * mid * t.T) * (t.Ti * zzi * t.Tiᵀ) =
          t.Ti * zzi * (t.Tiᵀ * t.Tᵀ) * mid * (t.T * t.Ti) * zzi * t.Tiᵀ := by simp only [Matrix.mul_assoc]
      _ = _ := by rw [← transpose_mul, t.hT, transpose_one]; simp only [Matrix.mul_assoc, Matrix.one_mul]
  rw [e, Matrix.mul_zero, Matrix.zero_mul, smul_zero, smul_zero]

theorem Tr.efilt (W : Matrix n n ℝ) (lam : ℝ) (u : n → ℝ) :
    t.u u - lam • (t.w W *ᵥ t.u u) = t.u (u - lam • (W *ᵥ u)) := by
  rw [t.w_mulVec]
  funext i
  simp only [Tr.u, Pi.sub_apply, Pi.smul_apply, smul_eq_mul]
  ring

/-! ### Moments of the homoskedastic models -/

theorem Tr.momHom (W A1 A2 : Matrix n n ℝ) (u : n → ℝ) :
    momentsHom (t.w W) (t.w A1) (t.w A2) (t.u u) = Tr.mom (t.c ^ 2) (momentsHom W A1 A2 u) := by
  unfold momentsHom Tr.mom
  simp only [t.w_transpose, t.w_add, t.w_mulVec, t.w_vecMul, t.u_dot, N_σ t.σ, Moments.mk.injEq]
  refine ⟨?_, ?_⟩
  · ext i j
    fin_cases i <;> fin_cases j <;> simp <;> ring
  · funext i
    fin_cases i <;> simp <;> ring

theorem Tr.m2 (u : n → ℝ) : GM.m2 (t.u u) = t.c ^ 2 * GM.m2 u := by
  unfold GM.m2; rw [t.u_dot, N_σ t.σ]; ring

theorem Tr.m3 (u : n → ℝ) : GM.m3 (t.u u) = t.c ^ 3 * GM.m3 u := by
  unfold GM.m3 Tr.u
  rw [N_σ t.σ, ← mul_div_assoc, Finset.mul_sum, ← Equiv.sum_comp t.σ]
  congr 1
  exact Finset.sum_congr rfl fun i _ => by ring

theorem Tr.m4 (u : n → ℝ) : GM.m4 (t.u u) = t.c ^ 4 * GM.m4 u := by
  unfold GM.m4 Tr.u
  rw [N_σ t.σ, ← mul_div_assoc, Finset.mul_sum, ← Equiv.sum_comp t.σ]
  congr 1
  exact Finset.sum_congr rfl fun i _ => by ring

theorem Tr.u_dotσ (u d : n → ℝ) : t.u u ⬝ᵥ (fun i => d (t.σ i)) = t.c * (u ⬝ᵥ d) := by
  rw [t.u_eq, dot_σ, smul_dotProduct, smul_eq_mul]

theorem Tr.vcHom (A1 A2 : Matrix n n ℝ) (us a1 a2 : n → ℝ) :
    GM.vcHom (t.w A1) (t.w A2) (t.u us) (t.u a1) (t.u a2) = (t.c ^ 4) • GM.vcHom A1 A2 us a1 a2 := by
  unfold GM.vcHom
  have hd1 : ∀ u : n → ℝ, t.u u ⬝ᵥ (fun i => t.w A1 i i) = t.c * (u ⬝ᵥ fun i => A1 i i) := fun u =>
    t.u_dotσ u fun j => A1 j j
  have hd2 : (fun i => t.w A1 i i) ⬝ᵥ (fun i => t.w A1 i i) = (fun i => A1 i i) ⬝ᵥ fun i => A1 i i :=
    dot_σ t.σ (fun j => A1 j j) fun j => A1 j j
  simp only [t.w_smul, t.w_mul, t.w_tr, t.m2, t.m3, t.m4, t.u_dot, hd1, hd2, N_σ t.σ]
  ext i j
  fin_cases i <;> fin_cases j <;> simp <;> ring

theorem Tr.u_zero : t.u (0 : n → ℝ) = 0 := by funext i; simp [Tr.u]

theorem Tr.homStep (ho : UnitFree t.c opt) (W A1 A2 : Matrix n n ℝ) (x : Matrix n k ℝ) (y : n → ℝ) (lam : ℝ) :
    GM.homStep opt (t.w W) (t.w A1) (t.w A2) (t.x x) (t.y x y) lam = (GM.homStep opt W A1 A2 x y lam).map (t.step x) := by
  unfold GM.homStep
  rw [t.filtM, t.filtY, t.olsE, bind_map, map_bind]
  refine bind_congr' _ _ _ fun o => ?_
  have e : (t.ols (spFilterM W lam x) o).betas = t.b o.betas := rfl
  rw [e]
  dsimp only
  rw [t.pred, t.resid, t.momHom, t.filtU, ← t.u_zero, t.vcHom, ho.2, map_bind]
  exact bind_congr' _ _ _ fun _ => rfl

theorem Tr.x_cols (a : ℝ) (d e : n → ℝ) (x : Matrix n k ℝ) :
    (t.x x)ᵀ * cols2 (fun i => a * d (t.σ i)) (fun i => a * e (t.σ i)) = a • (t.Tᵀ * (xᵀ * cols2 d e)) := by
  have : cols2 (fun i => a * d (t.σ i)) (fun i => a * e (t.σ i)) = (a • cols2 d e).submatrix t.σ id := by
    ext i j
    fin_cases j <;> simp [cols2]
  unfold Tr.x
  rw [this, transpose_submatrix, sub_mul_sub, Matrix.mul_smul, transpose_mul, Matrix.mul_assoc]

theorem Tr.omegaHomOls (W A1 A2 : Matrix n n ℝ) (x : Matrix n k ℝ) (u : n → ℝ) (lam : ℝ) (G : Matrix (Fin 2) (Fin 2) ℝ) :
    GM.omegaHomOls (t.w W) (t.w A1) (t.w A2) (t.x x) (t.u u) lam ((t.c ^ 2) • G) =
      (GM.omegaHomOls W A1 A2 x u lam G).map t.v2 := by
  have hc4 : t.c ^ 4 ≠ 0 := pow_ne_zero _ t.hc
  unfold GM.omegaHomOls
  have hx : ∀ xs : Matrix n k ℝ, (1 / N n) • (t.Tᵀ * (xsᵀ * xs) * t.T) = t.Tᵀ * ((1 / N n) • (xsᵀ * xs)) * t.T := fun xs => by
    rw [Matrix.mul_smul, Matrix.smul_mul]
  have hv : GM.vcHom (t.w A1) (t.w A2) (t.u (spFilter W lam u)) 0 0 = (t.c ^ 4) • GM.vcHom A1 A2 (spFilter W lam u) 0 0 := by
    rw [← t.vcHom, t.u_zero]
  simp only [jac_smul, t.filtM, t.filtU, t.xx, N_σ t.σ, hx, hv, invE_conj _ _ _ t.hT t.hTi, invE_smul _ hc4, bind_map, map_bind]
  refine bind_congr' _ _ _ fun p => bind_congr' _ _ _ fun psii => bind_congr' _ _ _ fun xxi => ?_
  rw [jpj _ t.hc]
  refine bind_congr' _ _ _ fun ji => ?_
  have hd : (t.x x)ᵀ * cols2 (fun i => t.w A1 i i) 0 = t.Tᵀ * (xᵀ * cols2 (fun i => A1 i i) 0) := by
    have := t.x_cols 1 (fun i => A1 i i) 0 x
    rw [one_smul] at this
    rw [← this]
    congr 1
    ext i j
    fin_cases j <;> simp [cols2, Tr.w]
  rw [map_pure, t.v2_blocks, hd, t.m2, t.m3]
  generalize spFilter W lam u = us
  generalize xᵀ * cols2 (fun i => A1 i i) 0 = C
  have e1 : (t.c ^ 2 * GM.m2 us) • (t.Ti * xxi * t.Tiᵀ) = (t.c ^ 2) • (t.Ti * (GM.m2 us • xxi) * t.Tiᵀ) := by
    rw [Matrix.mul_smul, Matrix.smul_mul, smul_smul]
  have e2 : (t.Ti * p * t.Tiᵀ)ᵀ * ((1 / N n) • ((t.c ^ 3 * GM.m3 us) • (t.Tᵀ * C))) * ((t.c ^ 4)⁻¹ • psii * (t.c ^ 2) • jac G lam) *
      ((1 / N n) • ji) = t.c • (t.Ti * (pᵀ * ((1 / N n) • (GM.m3 us • C)) * (psii * jac G lam) * ((1 / N n) • ji))) := by
    have : (t.Ti * p * t.Tiᵀ)ᵀ * (t.Tᵀ * C) = t.Ti * (pᵀ * C) := by
      rw [transpose_mul, transpose_mul, transpose_transpose]
      calc t.Ti * (pᵀ * t.Tiᵀ) * (t.Tᵀ * C) = t.Ti * pᵀ * (t.Tiᵀ * t.Tᵀ) * C := by simp only [Matrix.mul_assoc]
        _ = _ := by rw [← transpose_mul, t.hT, transpose_one]; simp only [Matrix.mul_assoc, Matrix.one_mul]
    simp only [Matrix.mul_smul, Matrix.smul_mul, this, smul_smul]
    rw [Matrix.mul_assoc, Matrix.mul_assoc]
    congr 1
    · have := t.hc
      field_simp
    · simp only [Matrix.mul_assoc]
  have e3 : ∀ M : Matrix k Unit ℝ, (t.c • (t.Ti * M))ᵀ = t.c • (Mᵀ * t.Tiᵀ) := fun M => by
    rw [transpose_smul, transpose_mul]
  rw [e1, e2, e3]

theorem Tr.chooseA1 [DecidableEq m] [DecidableEq n] (a1 : String) (W : Matrix n n ℝ) :
    GM.chooseA1 a1 (t.w W) = (GM.chooseA1 a1 W).map t.w := by
  unfold GM.chooseA1
  rw [t.w_A1hom, t.w_A1hom, t.w_A1het]
  split_ifs <;> rfl

/-! ### Instruments -/

variable (B Bi : Matrix l l ℝ) (hB : B * Bi = 1) (hBi : Bi * B = 1)

theorem Tr.hz (z : Matrix n k ℝ) (h : Matrix n l ℝ) : (trH t.σ B h)ᵀ * t.x z = Bᵀ * (hᵀ * z) * t.T := by
  unfold Tr.x trH
  rw [transpose_submatrix, sub_mul_sub, transpose_mul]
  simp only [Matrix.mul_assoc]

theorem trH_mul (σ : m ≃ n) (h : Matrix n l ℝ) {a : Type} (P : Matrix l a ℝ) : trH σ B h * P = (h * (B * P)).submatrix σ id := by
  unfold trH
  rw [← Matrix.mul_assoc]
  rfl

include hB hBi

theorem Tr.pHom (h : Matrix n l ℝ) (z : Matrix n k ℝ) :
    GM.pHom (trH t.σ B h) (t.x z) = (GM.pHom h z).map fun p => Bi * p * t.Tiᵀ := by
  unfold GM.pHom
  rw [trH_hh, N_σ t.σ, t.hz]
  have e : (1 / N n) • (Bᵀ * (hᵀ * h) * B) = Bᵀ * ((1 / N n) • (hᵀ * h)) * B := by rw [Matrix.mul_smul, Matrix.smul_mul]
  rw [e, invE_conj _ _ _ hB hBi, bind_map, map_bind]
  refine bind_congr' _ _ _ fun H => ?_
  have e2 : Bi * H * Biᵀ * ((1 / N n) • (Bᵀ * (hᵀ * z) * t.T)) = Bi * (H * ((1 / N n) • (hᵀ * z))) * t.T := by
    simp only [Matrix.mul_smul, Matrix.smul_mul]
    congr 1
    calc Bi * H * Biᵀ * (Bᵀ * (hᵀ * z) * t.T) = Bi * H * (Biᵀ * Bᵀ) * (hᵀ * z) * t.T := by simp only [Matrix.mul_assoc]
      _ = _ := by rw [← transpose_mul, hB, transpose_one]; simp only [Matrix.mul_assoc, Matrix.one_mul]
  have e3 : ((1 / N n) • (Bᵀ * (hᵀ * z) * t.T))ᵀ * (Bi * (H * ((1 / N n) • (hᵀ * z))) * t.T) =
      t.Tᵀ * (((1 / N n) • (hᵀ * z))ᵀ * (H * ((1 / N n) • (hᵀ * z)))) * t.T := by
    simp only [transpose_smul, transpose_mul, transpose_transpose, Matrix.mul_smul, Matrix.smul_mul]
    congr 2
    calc t.Tᵀ * (zᵀ * h * B) * (Bi * (H * (hᵀ * z)) * t.T) = t.Tᵀ * (zᵀ * h) * (B * Bi) * (H * (hᵀ * z)) * t.T := by
          simp only [Matrix.mul_assoc]
      _ = _ := by rw [hB]; simp only [Matrix.mul_assoc, Matrix.one_mul]
  dsimp only
  rw [e2, e3, invE_conj _ _ _ t.hT t.hTi, bind_map, map_bind]
  refine bind_congr' _ _ _ fun pi => ?_
  rw [map_pure]
  congr 1
  calc Bi * (H * ((1 / N n) • (hᵀ * z))) * t.T * (t.Ti * pi * t.Tiᵀ) =
        Bi * (H * ((1 / N n) • (hᵀ * z))) * (t.T * t.Ti) * pi * t.Tiᵀ := by simp only [Matrix.mul_assoc]
    _ = _ := by rw [t.hT]; simp only [Matrix.mul_assoc, Matrix.one_mul]

omit hBi in
/-- `H P (a * Z' v)` for the new data. -/
theorem Tr.hp (h : Matrix n l ℝ) (p : Matrix l k ℝ) (z : Matrix n k ℝ) (a : ℝ) (v : n → ℝ) :
    (trH t.σ B h * (Bi * p * t.Tiᵀ)) *ᵥ (a • ((t.x z)ᵀ *ᵥ t.u v)) = t.u ((h * p) *ᵥ (a • (zᵀ *ᵥ v))) := by
  have e : B * (Bi * p * t.Tiᵀ) = p * t.Tiᵀ := by
    rw [← Matrix.mul_assoc, ← Matrix.mul_assoc, hB, Matrix.one_mul]
  have e2 : h * (p * t.Tiᵀ) * t.Tᵀ = h * p := by
    rw [Matrix.mul_assoc, Matrix.mul_assoc, ← transpose_mul, t.hT, transpose_one, Matrix.mul_one]
  rw [trH_mul, e, t.u_eq, t.u_eq, t.xT_mulVec, mulVec_smul, mulVec_smul, mulVec_smul, mulVec_smul]
  funext i
  show a • t.c • ((h * (p * t.Tiᵀ)) *ᵥ (t.Tᵀ *ᵥ (zᵀ *ᵥ v))) (t.σ i) = _
  rw [mulVec_mulVec, e2, mulVec_smul]
  simp only [Pi.smul_apply, smul_eq_mul]
  ring

omit hBi in
theorem Tr.aHom (A1 A2 : Matrix n n ℝ) (h : Matrix n l ℝ) (p : Matrix l k ℝ) (z : Matrix n k ℝ) (us : n → ℝ) :
    GM.aHom (t.w A1) (t.w A2) (trH t.σ B h) (Bi * p * t.Tiᵀ) (t.x z) (t.u us) =
      (t.u (GM.aHom A1 A2 h p z us).1, t.u (GM.aHom A1 A2 h p z us).2) := by
  unfold GM.aHom
  simp only [t.w_mulVec, N_σ t.σ]
  rw [t.hp B Bi hB, t.hp B Bi hB]

theorem Tr.homEndogStep (ho : UnitFree t.c opt) (W A1 A2 : Matrix n n ℝ) (z : Matrix n k ℝ) (h : Matrix n l ℝ) (y : n → ℝ)
    (lam : ℝ) : GM.homEndogStep opt (t.w W) (t.w A1) (t.w A2) (t.x z) (trH t.σ B h) (t.y z y) lam =
      (GM.homEndogStep opt W A1 A2 z h y lam).map (t.step z) := by
  unfold GM.homEndogStep
  rw [t.filtM, t.filtY]
  dsimp only
  rw [t.tslsE B Bi hB hBi, bind_map, map_bind]
  refine bind_congr' _ _ _ fun o => ?_
  have e : (t.tsls Bi (spFilterM W lam z) o).betas = t.b o.betas := rfl
  rw [e, t.pred, t.resid, t.momHom, t.filtU, t.pHom B Bi hB hBi, bind_map, map_bind]
  refine bind_congr' _ _ _ fun p => ?_
  rw [t.aHom B Bi hB, t.vcHom, ho.2, map_bind]
  exact bind_congr' _ _ _ fun _ => rfl

omit hB hBi in
theorem trH_cols (σ : m ≃ n) (a : ℝ) (d e : n → ℝ) (h : Matrix n l ℝ) :
    (trH σ B h)ᵀ * cols2 (fun i => a * d (σ i)) (fun i => a * e (σ i)) = a • (Bᵀ * (hᵀ * cols2 d e)) := by
  have : cols2 (fun i => a * d (σ i)) (fun i => a * e (σ i)) = (a • cols2 d e).submatrix σ id := by
    ext i j
    fin_cases j <;> simp [cols2]
  unfold trH
  rw [this, transpose_submatrix, sub_mul_sub, Matrix.mul_smul, transpose_mul, Matrix.mul_assoc]

theorem Tr.omegaHom (W A1 A2 : Matrix n n ℝ) (h : Matrix n l ℝ) (z : Matrix n k ℝ) (u : n → ℝ) (lam : ℝ)
    (G : Matrix (Fin 2) (Fin 2) ℝ) :
    GM.omegaHom (t.w W) (t.w A1) (t.w A2) (trH t.σ B h) (t.x z) (t.u u) lam ((t.c ^ 2) • G) =
      (GM.omegaHom W A1 A2 h z u lam G).map t.v2 := by
  have hc4 : t.c ^ 4 ≠ 0 := pow_ne_zero _ t.hc
  unfold GM.omegaHom
  simp only [jac_smul, t.filtM, t.filtU, t.pHom B Bi hB hBi, N_σ t.σ, bind_map, map_bind]
  refine bind_congr' _ _ _ fun p => ?_
  rw [t.aHom B Bi hB]
  dsimp only
  rw [t.vcHom, invE_smul _ hc4, trH_hh, invE_conj _ _ _ hB hBi, bind_map]
  generalize GM.aHom A1 A2 h p (spFilterM W lam z) (spFilter W lam u) = a
  refine bind_congr' _ _ _ fun psii => ?_
  rw [bind_map]
  refine bind_congr' _ _ _ fun H => ?_
  generalize spFilterM W lam z = zs
  have e2 : (t.x zs)ᵀ * (trH t.σ B h * (Bi * H * Biᵀ * ((trH t.σ B h)ᵀ * t.x zs))) =
      t.Tᵀ * (zsᵀ * (h * (H * (hᵀ * zs)))) * t.T := by
    rw [t.hz, ← Matrix.mul_assoc, t.zh]
    calc t.Tᵀ * (zsᵀ * h) * B * (Bi * H * Biᵀ * (Bᵀ * (hᵀ * zs) * t.T)) =
          t.Tᵀ * (zsᵀ * h) * (B * Bi) * H * (Biᵀ * Bᵀ) * (hᵀ * zs) * t.T := by simp only [Matrix.mul_assoc]
      _ = _ := by rw [← transpose_mul, hB, transpose_one]; simp only [Matrix.mul_assoc, Matrix.one_mul]
  rw [e2, invE_conj _ _ _ t.hT t.hTi, bind_map]
  refine bind_congr' _ _ _ fun xxi => ?_
  rw [jpj _ t.hc]
  refine bind_congr' _ _ _ fun ji => ?_
  have hd : (trH t.σ B h)ᵀ * cols2 (fun i => t.w A1 i i) 0 = Bᵀ * (hᵀ * cols2 (fun i => A1 i i) 0) := by
    have := trH_cols B t.σ 1 (fun i => A1 i i) 0 h
    rw [one_smul] at this
    rw [← this]
    congr 1
    ext i j
    fin_cases j <;> simp [cols2, Tr.w]
  have ha : (trH t.σ B h)ᵀ * cols2 (t.u a.1) (t.u a.2) = t.c • (Bᵀ * (hᵀ * cols2 a.1 a.2)) := trH_cols B t.σ t.c a.1 a.2 h
  rw [map_pure, t.v2_blocks, hd, ha, t.m2, t.m3]
  generalize spFilter W lam u = us
  generalize hᵀ * cols2 (fun i => A1 i i) 0 = C
  generalize hᵀ * cols2 a.1 a.2 = D
  have e1 : (t.c ^ 2 * GM.m2 us) • (t.Ti * xxi * t.Tiᵀ) = (t.c ^ 2) • (t.Ti * (GM.m2 us • xxi) * t.Tiᵀ) := by
    rw [Matrix.mul_smul, Matrix.smul_mul, smul_smul]
  have e0 : (1 / N n) • ((t.c ^ 3 * GM.m3 us) • (Bᵀ * C) + (t.c ^ 2 * GM.m2 us) • t.c • (Bᵀ * D)) =
      (t.c ^ 3) • (Bᵀ * ((1 / N n) • (GM.m3 us • C + GM.m2 us • D))) := by
    simp only [Matrix.mul_smul, Matrix.mul_add, smul_add, smul_smul]
    congr 2 <;> ring
  rw [e0]
  generalize (1 / N n) • (GM.m3 us • C + GM.m2 us • D) = Q
  have e2 : (Bi * p * t.Tiᵀ)ᵀ * ((t.c ^ 3) • (Bᵀ * Q)) * ((t.c ^ 4)⁻¹ • psii * (t.c ^ 2) • jac G lam) *
      ((1 / N n) • ji) = t.c • (t.Ti * (pᵀ * Q * (psii * jac G lam) * ((1 / N n) • ji))) := by
    have : (Bi * p * t.Tiᵀ)ᵀ * (Bᵀ * Q) = t.Ti * (pᵀ * Q) := by
      rw [transpose_mul, transpose_mul, transpose_transpose]
      calc t.Ti * (pᵀ * Biᵀ) * (Bᵀ * Q) = t.Ti * pᵀ * (Biᵀ * Bᵀ) * Q := by simp only [Matrix.mul_assoc]
        _ = _ := by rw [← transpose_mul, hB, transpose_one]; simp only [Matrix.mul_assoc, Matrix.one_mul]
    simp only [Matrix.mul_smul, Matrix.smul_mul, this, smul_smul]
    rw [Matrix.mul_assoc, Matrix.mul_assoc]
    congr 1
    · have := t.hc
      field_simp
    · simp only [Matrix.mul_assoc]
  have e3 : ∀ M : Matrix k Unit ℝ, (t.c • (t.Ti * M))ᵀ = t.c • (Mᵀ * t.Tiᵀ) := fun M => by
    rw [transpose_smul, transpose_mul]
  rw [e1, e2, e3]

end

end Spreg.GM
