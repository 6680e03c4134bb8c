import Verif.Props.SUROrder2
import Verif.Props.SURExamples
/-
C162: the claims.
-/
set_option linter.unusedSectionVars false
namespace Spreg.SUR
open Matrix Spreg.Lin Spreg.Gauss

variable {m n S R : Type} [Fintype m] [Fintype n] [Fintype S] [Fintype R] [DecidableEq S] [DecidableEq R] {K : R → Type}
  [∀ r, Fintype (K r)] [∀ r, DecidableEq (K r)]

/-- `t` is an admissible way to present the data again, under which `X', y'` present `X, y`: rows in the order `σ`, equations in
the order `ρ`, regressors `X_r T_r` with `T_r` invertible. -/
structure Presents (t : Rec m n S R K) (X : ∀ r, Matrix n (K r) ℝ) (y : R → n → ℝ)
    (X' : ∀ s, Matrix m (K (t.ρ s)) ℝ) (y' : S → m → ℝ) : Prop where
  inv : ∀ r, t.T r * t.Ti r = 1
  x : ∀ s, X' s = (X (t.ρ s) * t.T (t.ρ s)).submatrix t.σ id
  y : ∀ s i, y' s i = y (t.ρ s) (t.σ i)

/-- The same estimates: the new coefficients combine the new regressors into the same fitted values, with the covariances
that follow (new variance `V'` with `T V' T' = V`), and the covariance between equations is the same. -/
structure SameEst (t : Rec m n S R K) (a : Est R K) (a' : Est S fun s => K (t.ρ s)) : Prop where
  b : ∀ s, t.T (t.ρ s) *ᵥ a'.b s = a.b (t.ρ s)
  sig : ∀ s u, a'.sig s u = a.sig (t.ρ s) (t.ρ u)
  varb : ∀ s u (i : K (t.ρ s)) (j : K (t.ρ u)),
    ∑ c, ∑ d, t.T (t.ρ s) i c * a'.varb ⟨s, c⟩ ⟨u, d⟩ * t.T (t.ρ u) j d = a.varb ⟨t.ρ s, i⟩ ⟨t.ρ u, j⟩

/-- The same numbers by observation and equation. -/
def SameCells (t : Rec m n S R K) (E : Matrix n R ℝ) (E' : Matrix m S ℝ) : Prop := ∀ i s, E' i s = E (t.σ i) (t.ρ s)

theorem Presents.ok {t : Rec m n S R K} {X : ∀ r, Matrix n (K r) ℝ} {y : R → n → ℝ} {X' : ∀ s, Matrix m (K (t.ρ s)) ℝ}
    {y' : S → m → ℝ} (h : Presents t X y X' y') : t.Ok ∧ X' = t.x X ∧ y' = t.y y :=
  ⟨⟨h.inv, fun r => mul_eq_one_comm.1 (h.inv r)⟩, funext fun s => by rw [h.x]; rfl, funext fun s => funext fun i => h.y s i⟩

theorem Rec.sameEst (t : Rec m n S R K) (ht : t.Ok) (a : Est R K) : SameEst t a (t.est a) := by
  refine ⟨fun s => ?_, fun _ _ => rfl, fun s u i j => ?_⟩
  · change t.T (t.ρ s) *ᵥ (t.Ti (t.ρ s) *ᵥ a.b (t.ρ s)) = _
    rw [mulVec_mulVec, ht.hT, one_mulVec]
  · have h : (blockDiagonal' t.T * (blockDiagonal' t.Ti * a.varb * (blockDiagonal' t.Ti)ᵀ) * (blockDiagonal' t.T)ᵀ) = a.varb := by
      have e2 : (blockDiagonal' t.Ti)ᵀ * (blockDiagonal' t.T)ᵀ = 1 := by
        rw [← transpose_mul, (t.blocks ht).1, transpose_one]
      rw [Matrix.mul_assoc, Matrix.mul_assoc, e2, Matrix.mul_one, ← Matrix.mul_assoc, (t.blocks ht).1, Matrix.one_mul]
    have h1 := congrFun (congrFun h ⟨t.ρ s, i⟩) ⟨t.ρ u, j⟩
    rw [← h1]
    have e : blockDiagonal' t.T * (blockDiagonal' t.Ti * a.varb * (blockDiagonal' t.Ti)ᵀ) * (blockDiagonal' t.T)ᵀ =
        (blockDiagonal' fun r => (t.T r)ᵀ)ᵀ * ((blockDiagonal' t.Ti * a.varb * (blockDiagonal' t.Ti)ᵀ) *
          blockDiagonal' fun r => (t.T r)ᵀ) := by
      rw [← blockDiagonal'_transpose, transpose_transpose, Matrix.mul_assoc]
    rw [e, block_mul]
    refine Finset.sum_congr rfl fun c _ => ?_
    rw [mul_block, Finset.mul_sum]
    refine Finset.sum_congr rfl fun d _ => ?_
    simp only [transpose_apply]
    have hv : (t.est a).varb ⟨s, c⟩ ⟨u, d⟩ = (blockDiagonal' t.Ti * a.varb * (blockDiagonal' t.Ti)ᵀ) ⟨t.ρ s, c⟩ ⟨t.ρ u, d⟩ := by
      change t.v a.varb _ _ = _
      rw [v_eq]; rfl
    rw [hv]
    exact mul_assoc _ _ _

/-- C162 for SUR: with the observations, the equations or the regressors of an equation presented in another order or unit, SUR
fails or succeeds as before, and if it succeeds takes as many iterations and gives the same estimates, residuals, fitted values,
log-likelihood and tests: the likelihood ratio and Breusch-Pagan tests of a diagonal covariance, the LM tests of spatial error
and spatial lag dependence. -/
theorem C162_sur [DecidableEq m] [DecidableEq n] (t : Rec m n S R K) (X : ∀ r, Matrix n (K r) ℝ) (y : R → n → ℝ)
    (X' : ∀ s, Matrix m (K (t.ρ s)) ℝ) (y' : S → m → ℝ) (h : Presents t X y X' y') (iter : Bool) (mx : ℕ) (eps : ℝ) :
    (baseSUR X' y' iter mx eps = none ↔ baseSUR X y iter mx eps = none) ∧
    ∀ f, baseSUR X y iter mx eps = some f → ∃ f', baseSUR X' y' iter mx eps = some f' ∧
      SameEst t f.est f'.est ∧ (∀ s, t.T (t.ρ s) *ᵥ f'.bOLS s = f.bOLS (t.ρ s)) ∧
      SameCells t f.bigE f'.bigE ∧ SameCells t f.bigYP f'.bigYP ∧ f'.niter = f.niter ∧ f'.llik = f.llik ∧
      (∀ nobs, lrtest nobs (Fintype.card S) f'.ldetS0 f'.ldetS1 = lrtest nobs (Fintype.card R) f.ldetS0 f.ldetS1) ∧
      (∀ nobs, lmtest nobs f'.sigOLS = lmtest nobs f.sigOLS) ∧
      ∀ (W : Matrix n n ℝ) (W' : Matrix m m ℝ), (∀ i j, W' i j = W (t.σ i) (t.σ j)) →
        surLMe W' f'.bigE f'.est.sig = surLMe W f.bigE f.est.sig ∧
        surLMlag W' y' X' f'.bigE f'.bigYP f'.est.sig f'.est.varb = surLMlag W y X f.bigE f.bigYP f.est.sig f.est.varb := by
  obtain ⟨ht, rfl, rfl⟩ := h.ok
  have hb := t.base_eq ht X y iter mx eps
  refine ⟨by rw [hb, Option.map_eq_none_iff], fun f hf => ⟨t.fit f, by rw [hb, hf]; rfl, t.sameEst ht _, fun s => ?_,
    fun _ _ => rfl, fun _ _ => rfl, rfl, rfl, fun nobs => ?_, fun nobs => t.lmtest_eq nobs _, fun W W' hW => ?_⟩⟩
  · change t.T (t.ρ s) *ᵥ (t.Ti (t.ρ s) *ᵥ f.bOLS (t.ρ s)) = _
    rw [mulVec_mulVec, ht.hT, one_mulVec]
  · rw [Fintype.card_congr t.ρ]; rfl
  · obtain rfl : W' = t.w W := by ext i j; exact hW i j
    exact ⟨t.lme_eq W f.bigE f.est.sig, t.lmlag_eq ht W y X f.bigE f.bigYP f.est.sig f.est.varb⟩

theorem scaleCols {k : Type} [Fintype k] [DecidableEq k] (c : k → ℝ) (X : Matrix n k ℝ) :
    (Matrix.of fun i j => c j * X i j) = (X * diagonal c).submatrix (Equiv.refl n) id := by
  ext i j
  rw [submatrix_apply, mul_diagonal, mul_comm]; rfl

/-- C162, units of the regressors in SUR: with regressor `j` of equation `r` multiplied by `c r j ≠ 0` (rows and equations in the
same order) its coefficient and standard error are divided by `c r j`, the squared z statistic is the same. -/
theorem C162_units [DecidableEq n] (c : ∀ r, K r → ℝ) (hc : ∀ r j, c r j ≠ 0) (X : ∀ r, Matrix n (K r) ℝ) (y : R → n → ℝ)
    (iter : Bool) (mx : ℕ) (eps : ℝ) (f : Fit n R K) (hf : baseSUR X y iter mx eps = some f) :
    ∃ f', baseSUR (fun r => Matrix.of fun i j => c r j * X r i j) y iter mx eps = some f' ∧
      (∀ r j, f'.est.b r j = f.est.b r j / c r j) ∧ f'.bigE = f.bigE ∧ f'.est.sig = f.est.sig ∧ f'.llik = f.llik ∧
      (∀ p q, f'.est.varb p q = f.est.varb p q / (c p.1 p.2 * c q.1 q.2)) ∧
      ∀ r j, f'.est.b r j ^ 2 / f'.est.varb ⟨r, j⟩ ⟨r, j⟩ = f.est.b r j ^ 2 / f.est.varb ⟨r, j⟩ ⟨r, j⟩ := by
  let t : Rec n n R R K := ⟨Equiv.refl n, Equiv.refl R, fun r => diagonal (c r), fun r => diagonal fun j => (c r j)⁻¹⟩
  have hp : Presents t X y (fun r => Matrix.of fun i j => c r j * X r i j) y := by
    refine ⟨fun r => ?_, fun s => ?_, fun _ _ => rfl⟩
    · change diagonal (c r) * diagonal (fun j => (c r j)⁻¹) = 1
      rw [diagonal_mul_diagonal, ← diagonal_one]
      exact congrArg _ (funext fun j => mul_inv_cancel₀ (hc r j))
    · exact scaleCols (c s) (X s)
  have key : ∃ f' : Fit n R K, baseSUR (fun r => Matrix.of fun i j => c r j * X r i j) y iter mx eps = some f' ∧
      (∀ r, diagonal (c r) *ᵥ f'.est.b r = f.est.b r) ∧ f'.bigE = f.bigE ∧ f'.est.sig = f.est.sig ∧ f'.llik = f.llik ∧
      ∀ r u (i : K r) (j : K u), ∑ a, ∑ d, diagonal (c r) i a * f'.est.varb ⟨r, a⟩ ⟨u, d⟩ * diagonal (c u) j d =
        f.est.varb ⟨r, i⟩ ⟨u, j⟩ := by
    obtain ⟨f', h1, h2, -, h4, -, -, h7, -⟩ := (C162_sur t X y _ y hp iter mx eps).2 f hf
    exact ⟨f', h1, h2.b, Matrix.ext h4, Matrix.ext h2.sig, h7, h2.varb⟩
  obtain ⟨f', h1, h2, h4, h5, h7, h8⟩ := key
  have hb : ∀ r j, f'.est.b r j = f.est.b r j / c r j := by
    intro r j
    rw [← h2 r, mulVec_diagonal, mul_div_cancel_left₀ _ (hc r j)]
  have hv : ∀ p q, f'.est.varb p q = f.est.varb p q / (c p.1 p.2 * c q.1 q.2) := by
    rintro ⟨r, i⟩ ⟨u, j⟩
    rw [← h8 r u i j, Finset.sum_eq_single i, Finset.sum_eq_single j]
    · rw [diagonal_apply_eq, diagonal_apply_eq]
      have := hc r i; have := hc u j
      field_simp
    · intro d _ hd; rw [diagonal_apply_ne' _ hd, mul_zero]
    · intro hd; exact absurd (Finset.mem_univ _) hd
    · intro a _ ha
      refine Finset.sum_eq_zero fun d _ => ?_
      rw [diagonal_apply_ne' _ ha, zero_mul, zero_mul]
    · intro hd; exact absurd (Finset.mem_univ _) hd
  refine ⟨f', h1, hb, h4, h5, h7, hv, fun r j => ?_⟩
  rw [hb, hv]
  have := hc r j
  by_cases h : f.est.varb ⟨r, j⟩ ⟨r, j⟩ = 0
  · simp [h]
  · field_simp

/-- C162 for SUR with spatial errors, estimated by moments: same lambda for the same equation, and the rest as in `C162_sur`. -/
theorem C162_gm (t : Rec m n S R K) (X : ∀ r, Matrix n (K r) ℝ) (y : R → n → ℝ)
    (X' : ∀ s, Matrix m (K (t.ρ s)) ℝ) (y' : S → m → ℝ) (h : Presents t X y X' y') (W : Matrix n n ℝ) (W' : Matrix m m ℝ)
    (hW : ∀ i j, W' i j = W (t.σ i) (t.σ j)) (opt : GM.Moments (Fin 3) (Fin 3) → ℝ) :
    (baseSURerrorGM opt W' X' y' = none ↔ baseSURerrorGM opt W X y = none) ∧
    ∀ f, baseSURerrorGM opt W X y = some f → ∃ f', baseSURerrorGM opt W' X' y' = some f' ∧
      (∀ s, f'.lam s = f.lam (t.ρ s)) ∧ SameEst t f.est f'.est ∧ SameCells t f.bigE f'.bigE ∧
      ∀ s u, f'.corr s u = f.corr (t.ρ s) (t.ρ u) := by
  obtain ⟨ht, rfl, rfl⟩ := h.ok
  obtain rfl : W' = t.w W := by ext i j; exact hW i j
  have hb := t.gm_eq ht opt W X y
  exact ⟨by rw [hb, Option.map_eq_none_iff], fun f hf => ⟨t.fitGM f, by rw [hb, hf]; rfl, fun _ => rfl, t.sameEst ht _,
    fun _ _ => rfl, fun _ _ => rfl⟩⟩

/-- C162 for SUR with spatial errors, estimated by maximum likelihood, when the optimisers do not depend on the order of the
parameters: it raises or succeeds as before, with the same lambda for the same equation, the same log-likelihoods and tests, and
the rest as in `C162_sur`. -/
theorem C162_ml [DecidableEq m] [DecidableEq n] (t : Rec m n S R K) (X : ∀ r, Matrix n (K r) ℝ) (y : R → n → ℝ)
    (X' : ∀ s, Matrix m (K (t.ρ s)) ℝ) (y' : S → m → ℝ) (h : Presents t X y X' y') (W : Matrix n n ℝ) (W' : Matrix m m ℝ)
    (hW : ∀ i j, W' i j = W (t.σ i) (t.σ j)) (optS : (ℝ → ℝ) → ℝ)
    (opt : ((R → ℝ) → ℝ) → (R → ℝ) → R → ℝ) (opt' : ((S → ℝ) → ℝ) → (S → ℝ) → S → ℝ) (ho : Rec.SameOpt t.ρ opt opt') (eps : ℝ) :
    (∀ e, BaseSURerrorML optS opt' W' X' y' eps (.error e) ↔ BaseSURerrorML optS opt W X y eps (.error e)) ∧
    ∀ f, BaseSURerrorML optS opt W X y eps (.ok f) → ∃ f', BaseSURerrorML optS opt' W' X' y' eps (.ok f') ∧
      (∀ s, f'.lam s = f.lam (t.ρ s)) ∧ (∀ s, f'.lamols s = f.lamols (t.ρ s)) ∧ SameEst t f.est f'.est ∧
      SameCells t f.bigE f'.bigE ∧ (∀ s u, f'.corr s u = f.corr (t.ρ s) (t.ρ u)) ∧ f'.llik = f.llik ∧
      f'.errllik = f.errllik ∧ f'.surerrllik = f.surerrllik ∧ f'.lrtest = f.lrtest ∧ f'.likrlambda = f.likrlambda := by
  obtain ⟨ht, rfl, rfl⟩ := h.ok
  obtain rfl : W' = t.w W := by ext i j; exact hW i j
  have hk : mlConst m S = mlConst n R := by unfold mlConst; rw [Fintype.card_congr t.σ, Fintype.card_congr t.ρ]
  refine ⟨fun e => ⟨fun h => ?_, fun h => t.ml_eq ht ho optS W X y eps _ h⟩, fun f hf =>
    ⟨t.fitML f, t.ml_eq ht ho optS W X y eps _ hf, fun _ => rfl, fun _ => rfl, t.sameEst ht _, fun _ _ => rfl, fun _ _ => rfl,
      rfl, ?_, ?_, ?_, ?_⟩⟩
  · obtain ⟨r, h1, h2⟩ := t.ml_back ht ho optS W X y eps _ h
    rcases r with e' | r
    · cases h1; exact h2
    · cases h1
  · unfold FitML.errllik; rw [hk]; rfl
  · unfold FitML.surerrllik; rw [hk]; rfl
  · unfold FitML.lrtest FitML.surerrllik FitML.errllik; rw [hk, Fintype.card_congr t.ρ]; rfl
  · unfold FitML.likrlambda FitML.surerrllik; rw [hk, Fintype.card_congr t.ρ]; rfl

/-- C162 for three-stage least squares: exogenous and endogenous regressors, and instruments, each in another order or unit. -/
theorem C162_three {A B Q : R → Type} [∀ r, Fintype (A r)] [∀ r, Fintype (B r)] [∀ r, Fintype (Q r)]
    [∀ r, DecidableEq (A r)] [∀ r, DecidableEq (B r)] [∀ r, DecidableEq (Q r)] (σ : m ≃ n) (ρ : S ≃ R)
    (Ta Tai : ∀ r, Matrix (A r) (A r) ℝ) (Tb Tbi : ∀ r, Matrix (B r) (B r) ℝ) (Tq Tqi : ∀ r, Matrix (Q r) (Q r) ℝ)
    (ha : ∀ r, Ta r * Tai r = 1) (hb : ∀ r, Tb r * Tbi r = 1) (hq : ∀ r, Tq r * Tqi r = 1)
    (x : ∀ r, Matrix n (A r) ℝ) (z : ∀ r, Matrix n (B r) ℝ) (q : ∀ r, Matrix n (Q r) ℝ) (y : R → n → ℝ) :
    let res' := baseThreeSLS (fun s => (x (ρ s) * Ta (ρ s)).submatrix σ id) (fun s => (z (ρ s) * Tb (ρ s)).submatrix σ id)
      (fun s => (q (ρ s) * Tq (ρ s)).submatrix σ id) (fun s i => y (ρ s) (σ i))
    (res' = none ↔ baseThreeSLS x z q y = none) ∧
    ∀ f, baseThreeSLS x z q y = some f → ∃ f', res' = some f' ∧
      SameEst (⟨σ, ρ, fun r => fromBlocks (Ta r) 0 0 (Tb r), fun r => fromBlocks (Tai r) 0 0 (Tbi r)⟩ : Rec m n S R fun r => A r ⊕ B r)
        f.est f'.est ∧
      (∀ s, fromBlocks (Ta (ρ s)) 0 0 (Tb (ρ s)) *ᵥ f'.b2SLS s = f.b2SLS (ρ s)) ∧
      (∀ i s, f'.tslsE i s = f.tslsE (σ i) (ρ s)) ∧ ∀ i s, f'.bigE i s = f.bigE (σ i) (ρ s) := by
  intro res'
  let ta : Rec m n S R A := ⟨σ, ρ, Ta, Tai⟩
  have hta : ta.Ok := ⟨ha, fun r => mul_eq_one_comm.1 (ha r)⟩
  have e : res' = (baseThreeSLS x z q y).map (ta.both Tb Tbi).fit3 :=
    three_eq ta hta Tb Tbi hb (fun r => mul_eq_one_comm.1 (hb r)) Tq Tqi hq (fun r => mul_eq_one_comm.1 (hq r)) x z q y
  have ht := ta.both_ok hta Tb Tbi hb (fun r => mul_eq_one_comm.1 (hb r))
  refine ⟨by rw [e]; exact Option.map_eq_none_iff, fun f hf => ⟨(ta.both Tb Tbi).fit3 f, by rw [e, hf]; rfl,
    (ta.both Tb Tbi).sameEst ht _, fun s => ?_, fun _ _ => rfl, fun _ _ => rfl⟩⟩
  change (ta.both Tb Tbi).T (ρ s) *ᵥ ((ta.both Tb Tbi).Ti (ρ s) *ᵥ f.b2SLS (ρ s)) = _
  rw [mulVec_mulVec, ht.hT, one_mulVec]

/-- Swapping the two equations of the example, reversing the order of its observations and changing the unit of the constant. -/
noncomputable def recEx : Rec (Fin 4) (Fin 4) (Fin 2) (Fin 2) fun _ => Unit :=
  ⟨Fin.revPerm, Fin.revPerm, fun _ => Matrix.of fun _ _ => 2, fun _ => Matrix.of fun _ _ => 1 / 2⟩

/-- The hypotheses of C162 are met by the data of `SURExamples.lean`, on which `baseSUR` and `BaseSURerrorML` succeed. -/
example : Presents recEx xOnes (yPairs 1) (fun _ => Matrix.of fun _ _ => 2) (fun s i => yPairs 1 s.rev i.rev) ∧
    (∃ f, baseSUR xOnes (yPairs 1) true 5 (1 / 100000) = some f) ∧
    (∃ f, BaseSURerrorML (fun _ => 0) opt0 wPairs xOnes (yPairs 1) (1 / 100000) (.ok f)) ∧ Rec.SameOpt recEx.ρ opt0 opt0 := by
  refine ⟨⟨fun r => ?_, fun s => ?_, fun _ _ => rfl⟩, ?_, ?_, fun _ _ _ _ => rfl⟩
  · ext i j; simp [recEx, Matrix.mul_apply]
  · ext i j; simp [recEx, xOnes, Matrix.mul_apply]
  · obtain ⟨f, h, -⟩ := ex_base 5 (1 / 100000) (by norm_num); exact ⟨f, h⟩
  · obtain ⟨f, h, -⟩ := ex_fit; exact ⟨f, h⟩
end Spreg.SUR
