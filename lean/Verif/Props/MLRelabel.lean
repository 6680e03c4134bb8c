import Verif.Props.GMRelabel
/-
C149 (whole fit) and C159 for maximum likelihood: order of the observations, names of the regimes, units.
-/
namespace Spreg.ML
open Matrix Spreg Spreg.Lin Spreg.Impacts Spreg.GM

variable {m n k ρ : Type} [Fintype m] [Fintype n] [Fintype k] [Fintype ρ] [DecidableEq m] [DecidableEq n] [DecidableEq k]

/-! ### Power expansion -/

omit [DecidableEq m] [DecidableEq n] in
theorem norm2_tr (t : Tr m n k) (hc : t.c ^ 2 = 1) (v : n → ℝ) : norm2 (t.u v) = norm2 v := by
  unfold norm2
  congr 1
  rw [← Equiv.sum_comp t.σ]
  exact Finset.sum_congr rfl fun i _ => by rw [Tr.u, mul_pow, hc, one_mul]

omit [DecidableEq m] [DecidableEq n] in
theorem powLoop_tr (t : Tr m n k) (hc : t.c ^ 2 = 1) (W : Matrix n n ℝ) (scalar threshold : ℝ) : ∀ (fuel : ℕ) (total inc : n → ℝ)
    (test : ℝ), powLoop (t.w W) scalar threshold fuel (t.u total) (t.u inc) test =
      (powLoop W scalar threshold fuel total inc test).map t.u
  | 0, _, _, _ => rfl
  | fuel + 1, total, inc, test => by
    rw [powLoop, powLoop]
    by_cases h : threshold < test
    · rw [if_pos h, if_pos h, t.w_mulVec]
      have e1 : scalar • t.u (W *ᵥ inc) = t.u (scalar • (W *ᵥ inc)) := by
        funext i; simp only [Tr.u, Pi.smul_apply, smul_eq_mul]; ring
      have e2 : t.u total + t.u (scalar • (W *ᵥ inc)) = t.u (total + scalar • (W *ᵥ inc)) := by
        funext i; simp only [Tr.u, Pi.add_apply]; ring
      dsimp only
      rw [e1, e2, norm2_tr t hc]
      by_cases h2 : test < norm2 (scalar • (W *ᵥ inc))
      · rw [if_pos h2, if_pos h2]; rfl
      · rw [if_neg h2, if_neg h2]
        exact powLoop_tr t hc W scalar threshold fuel _ _ _
    · rw [if_neg h, if_neg h]; rfl

theorem inverseProd_tr (t : Tr m n k) (hc : t.c ^ 2 = 1) (W : Matrix n n ℝ) (v : n → ℝ) (scalar eps : ℝ) (mi : Option ℕ) :
    inverseProd (t.w W) (t.u v) scalar false .powerExp eps mi = (inverseProd W v scalar false .powerExp eps mi).map t.u :=
  powLoop_tr t hc W scalar eps _ _ _ _

/-! ### The whole fit of the lag model -/

/-- What the fit becomes when only the sign of the dependent variable may change. -/
def _root_.Spreg.GM.Tr.lagAll (t : Tr m n k) (f : LagAll n k) : LagAll m k where
  fit := { b := t.c • (t.Ti *ᵥ f.fit.b), rho := f.fit.rho, u := t.u f.fit.u, predy := t.u f.fit.predy, sig2 := f.fit.sig2,
           logll := f.fit.logll }
  predyE := t.u f.predyE
  vm1 := t.vm1 f.vm1

theorem lagFit_tr (t : Tr m n k) (hc : t.c ^ 2 = 1) (p : LagPre n k) (y : n → ℝ) (rho jac : ℝ) :
    lagFit (t.lagPre p) (t.u y) rho jac =
      { b := t.c • (t.Ti *ᵥ (lagFit p y rho jac).b), rho := rho, u := t.u (lagFit p y rho jac).u,
        predy := t.u (lagFit p y rho jac).predy, sig2 := (lagFit p y rho jac).sig2, logll := (lagFit p y rho jac).logll } := by
  simp only [lagFit, Tr.lagPre, er_tr, sig2n_tr, hc, one_mul, card_tr t, LagFit.mk.injEq, true_and]
  refine ⟨?_, ?_, ?_⟩
  · rw [mulVec_sub, mulVec_smul, smul_sub, smul_comm rho t.c]
  · funext i; simp only [Tr.u, Pi.sub_apply]; ring
  · simp only [lagCLoglik, er_tr, t.u_dot, hc, one_mul, card_tr t]

/-- **C149** (`ML_Lag`, everything): reordering the observations, combining the regressors differently and changing the sign of the
dependent variable changes the whole fit — coefficients, rho, residuals, predictions, the reduced-form predictions of the power
expansion, variance, log-likelihood, covariance matrix — in the corresponding way and nothing else; and the same exception is
raised. -/
theorem C149_lag_all (t : Tr m n k) (hc : t.c ^ 2 = 1) (y : n → ℝ) (x : Matrix n k ℝ) (W : Matrix n n ℝ) (rho jac epsilon : ℝ) :
    mlLag (t.u y) (t.x x) (t.w W) rho jac epsilon = (mlLag y x W rho jac epsilon).map t.lagAll := by
  unfold mlLag
  rw [lagPre_tr]
  cases hp : lagPre y x W with
  | none => rfl
  | some p =>
    show (inverseProd (t.w W) (t.x x *ᵥ (lagFit (t.lagPre p) (t.u y) rho jac).b) rho false .powerExp epsilon none >>= _) =
      Except.map _ (inverseProd W (x *ᵥ (lagFit p y rho jac).b) rho false .powerExp epsilon none >>= _)
    rw [lagFit_tr t hc]
    dsimp only
    have e : t.x x *ᵥ (t.c • (t.Ti *ᵥ (lagFit p y rho jac).b)) = t.u (x *ᵥ (lagFit p y rho jac).b) := by
      have := resid_tr t x 0 (lagFit p y rho jac).b
      have h0 : t.u (0 : n → ℝ) = 0 := t.u_zero
      rw [h0, zero_sub, zero_sub] at this
      have h1 : t.u (-(x *ᵥ (lagFit p y rho jac).b)) = -t.u (x *ᵥ (lagFit p y rho jac).b) := by
        funext i; simp [Tr.u]
      rw [h1] at this
      exact neg_injective this
    rw [e, inverseProd_tr t hc, bind_map, map_bind]
    refine bind_congr' _ _ _ fun pe => ?_
    have hv := (C149_lag_vm t x W rho (lagFit p y rho jac).sig2 0 pe).2
    rw [hc, one_mul] at hv
    rw [hv]
    cases lagVm1 x W rho (lagFit p y rho jac).sig2 pe <;> rfl

/-! ### Regimes -/

/-- The results of `ML_Lag_Regimes` in one equation for the changed data. -/
def SameLag {vary : k → Bool} (σ : m ≃ n) (π : Equiv.Perm ρ) (a : k → ℝ) (f : LagAll n (RCol vary ρ))
    (f' : LagAll m (RCol vary ρ)) : Prop :=
  (∀ p, f'.fit.b (newCol π p) = f.fit.b p / a (colVar p)) ∧ f'.fit.rho = f.fit.rho ∧ (∀ i, f'.fit.u i = f.fit.u (σ i)) ∧
  (∀ i, f'.fit.predy i = f.fit.predy (σ i)) ∧ f'.fit.sig2 = f.fit.sig2 ∧ f'.fit.logll = f.fit.logll ∧
  (∀ i, f'.predyE i = f.predyE (σ i)) ∧
  (∀ p q, f'.vm1 (.inl (newCol π p)) (.inl (newCol π q)) = f.vm1 (.inl p) (.inl q) / (a (colVar p) * a (colVar q))) ∧
  (∀ p s, f'.vm1 (.inl (newCol π p)) (.inr s) = f.vm1 (.inl p) (.inr s) / a (colVar p)) ∧
  (∀ s p, f'.vm1 (.inr s) (.inl (newCol π p)) = f.vm1 (.inr s) (.inl p) / a (colVar p)) ∧
  ∀ s s', f'.vm1 (.inr s) (.inr s') = f.vm1 (.inr s) (.inr s')

theorem vm1_place {c : Type} [Fintype c] [DecidableEq c] (σ : m ≃ n) (e : Equiv.Perm c) (a : c → ℝ) (ha : ∀ p, a p ≠ 0)
    (V : Matrix (c ⊕ (Unit ⊕ Unit)) (c ⊕ (Unit ⊕ Unit)) ℝ) :
    let V' := (place σ e a ha 1 one_ne_zero).vm1 V
    (∀ p q, V' (.inl (e p)) (.inl (e q)) = V (.inl p) (.inl q) / (a p * a q)) ∧
    (∀ p s, V' (.inl (e p)) (.inr s) = V (.inl p) (.inr s) / a p) ∧
    (∀ s p, V' (.inr s) (.inl (e p)) = V (.inr s) (.inl p) / a p) ∧ ∀ s s', V' (.inr s) (.inr s') = V (.inr s) (.inr s') := by
  intro V'
  have hD : (fromBlocks (1 : Matrix Unit Unit ℝ) 0 0 (Matrix.of fun _ _ => (1 : ℝ) ^ 2)) = (1 : Matrix (Unit ⊕ Unit) (Unit ⊕ Unit) ℝ) := by
    ext (i | i) (j | j) <;> simp [one_apply]
  obtain ⟨A, P, Q, D, rfl⟩ : ∃ A P Q D, V = fromBlocks A P Q D := ⟨_, _, _, _, (fromBlocks_toBlocks V).symm⟩
  have hV : V' = fromBlocks ((place σ e a ha 1 one_ne_zero).Ti * A * ((place σ e a ha 1 one_ne_zero).Ti)ᵀ)
      ((place σ e a ha 1 one_ne_zero).Ti * P) (Q * ((place σ e a ha 1 one_ne_zero).Ti)ᵀ) D := by
    show fromBlocks ((1 : ℝ) • (place σ e a ha 1 one_ne_zero).Ti) 0 0 (fromBlocks 1 0 0 (Matrix.of fun _ _ => (1 : ℝ) ^ 2)) * _ *
      (fromBlocks ((1 : ℝ) • (place σ e a ha 1 one_ne_zero).Ti) 0 0 (fromBlocks 1 0 0 (Matrix.of fun _ _ => (1 : ℝ) ^ 2)))ᵀ = _
    rw [hD, one_smul, fromBlocks_transpose, fromBlocks_multiply, fromBlocks_multiply]
    simp
  rw [hV]
  refine ⟨fun p q => ?_, fun p s => ?_, fun s p => ?_, fun s s' => rfl⟩
  · rw [fromBlocks_apply₁₁, fromBlocks_apply₁₁, place_conj]
    rw [div_eq_mul_inv, mul_inv]; ring
  · rw [fromBlocks_apply₁₂, fromBlocks_apply₁₂]
    simp [place, mul_apply, e.injective.eq_iff]
    ring
  · rw [fromBlocks_apply₂₁, fromBlocks_apply₂₁]
    simp [place, mul_apply, e.injective.eq_iff]
    ring

section
variable [DecidableEq ρ] {vary : k → Bool} (σ : m ≃ n) (π : Equiv.Perm ρ) {a : k → ℝ} (ha : ∀ j, a j ≠ 0)
include ha

/-- **C159** (`ML_Lag_Regimes` in one equation): for every value of rho the whole fit of the changed data is the old one; the
objective that rho minimises is the same function, and so is the Jacobian term in it. -/
theorem C159_ml_lag {g : n → ρ} {g' : m → ρ} (hg : ∀ i, g' i = π (g (σ i))) (W : Matrix n n ℝ) {x : Matrix n k ℝ}
    {x' : Matrix m k ℝ} (hx : Rescaled σ a x x') (y : n → ℝ) :
    (∀ rho jac epsilon, Corr (SameLag σ π a) (mlLag y (frame g vary x) W rho jac epsilon)
      (mlLag (fun i => y (σ i)) (frame g' vary x') (W.submatrix σ σ) rho jac epsilon)) ∧
    (∀ rho, jacFull (W.submatrix σ σ) rho = jacFull W rho) ∧ (W.submatrix σ σ).charpoly = W.charpoly ∧
    ∀ p, lagPre y (frame g vary x) W = some p → ∃ p', lagPre (fun i => y (σ i)) (frame g' vary x') (W.submatrix σ σ) = some p' ∧
      ∀ jac rho, lagObj p' jac rho = lagObj p jac rho := by
  set t := place σ (newCol π) (fun p : RCol vary ρ => a (colVar p)) (fun p => ha _) 1 one_ne_zero with ht
  have hy : (fun i => y (σ i)) = t.u y := by funext i; simp [ht, place, Tr.u]
  have hX : frame g' vary x' = t.x (frame g vary x) := (frame_place σ π ha one_ne_zero hg hx).symm
  have hW : W.submatrix σ σ = t.w W := rfl
  have hc : t.c ^ 2 = 1 := one_pow 2
  have hu : ∀ (v : n → ℝ) i, t.u v i = v (σ i) := fun v i => by simp [ht, place, Tr.u]
  rw [hy, hX, hW]
  refine ⟨fun rho jac epsilon => ?_, fun rho => (C149_jacobian t W rho).1, (C149_jacobian t W 0).2.2, fun p hp => ?_⟩
  · refine corr_map _ (C149_lag_all t hc y (frame g vary x) W rho jac epsilon) fun f => ?_
    obtain ⟨v1, v2, v3, v4⟩ := vm1_place σ (newCol π) (fun p : RCol vary ρ => a (colVar p)) (fun p => ha _) f.vm1
    refine ⟨fun p => ?_, rfl, hu _, hu _, rfl, rfl, hu _, v1, v2, v3, v4⟩
    show ((1 : ℝ) • (t.Ti *ᵥ f.fit.b)) (newCol π p) = _
    rw [one_smul]
    simp [ht, place, mulVec, dotProduct, (newCol π).injective.eq_iff]
    ring
  · refine ⟨t.lagPre p, by rw [lagPre_tr, hp]; rfl, fun jac rho => ?_⟩
    simp only [lagObj, lagCLoglik, Tr.lagPre, er_tr, t.u_dot, hc, one_mul, card_tr t]

/-- **C159** (`ML_Error_Regimes` in one equation): for every value of lambda the whole fit of the changed data is the old one, and
the covariance matrix; the objective that lambda minimises differs by a constant. -/
theorem C159_ml_error [Nonempty n] {b : ℝ} (hb : b ≠ 0) {g : n → ρ} {g' : m → ρ} (hg : ∀ i, g' i = π (g (σ i))) (W : Matrix n n ℝ)
    {x : Matrix n k ℝ} {x' : Matrix m k ℝ} (hx : Rescaled σ a x x') (y : n → ℝ) (lam jac : ℝ) :
    (errFit y (frame g vary x) W lam jac = none → errFit (fun i => b * y (σ i)) (frame g' vary x') (W.submatrix σ σ) lam jac = none) ∧
    ∀ f, errFit y (frame g vary x) W lam jac = some f →
      ∃ f', errFit (fun i => b * y (σ i)) (frame g' vary x') (W.submatrix σ σ) lam jac = some f' ∧
      (∀ p, f'.b (newCol π p) = b / a (colVar p) * f.b p) ∧ f'.lam = f.lam ∧ (∀ i, f'.u i = b * f.u (σ i)) ∧
      (∀ i, f'.predy i = b * f.predy (σ i)) ∧ (∀ i, f'.eFiltered i = b * f.eFiltered (σ i)) ∧ f'.sig2 = b ^ 2 * f.sig2 ∧
      (f.eFiltered ≠ 0 → f'.logll = f.logll - (Fintype.card n : ℝ) * Real.log |b|) ∧
      (mlErrVm W f = none → mlErrVm (W.submatrix σ σ) f' = none) ∧
      (∀ V, mlErrVm W f = some V → ∃ V', mlErrVm (W.submatrix σ σ) f' = some V' ∧
        (∀ p q, V' (.inl (newCol π p)) (.inl (newCol π q)) = b / a (colVar p) * (b / a (colVar q)) * V (.inl p) (.inl q)) ∧
        (∀ p, V' (.inl (newCol π p)) (.inr ()) = b / a (colVar p) * V (.inl p) (.inr ())) ∧
        (∀ q, V' (.inr ()) (.inl (newCol π q)) = b / a (colVar q) * V (.inr ()) (.inl q)) ∧
        V' (.inr ()) (.inr ()) = V (.inr ()) (.inr ())) := by
  set t := place σ (newCol π) (fun p : RCol vary ρ => a (colVar p)) (fun p => ha _) b hb with ht
  have hy : (fun i => b * y (σ i)) = t.y (frame g vary x) y := (t.y0 rfl _ y).symm
  have hX : frame g' vary x' = t.x (frame g vary x) := (frame_place σ π ha hb hg hx).symm
  have hW : W.submatrix σ σ = t.w W := rfl
  rw [hy, hX, hW]
  obtain ⟨h1, h2⟩ := C149_error_fit t y (frame g vary x) W lam jac
  refine ⟨h2, fun f hf => ?_⟩
  obtain ⟨f', e1, e2, e3, e4, e5, e6, e7, -, e9⟩ := h1 f hf
  obtain ⟨f'', g1, g2⟩ := C149_error_vm t y (frame g vary x) W lam jac f hf
  obtain rfl : f'' = f' := Option.some.inj (g1.symm.trans e1)
  refine ⟨f'', e1, fun p => ?_, e3, fun i => congrFun e4 i, fun i => ?_, fun i => congrFun e6 i, e7, e9, fun h => by rw [g2, h]; rfl,
    fun V hV => ?_⟩
  · rw [e2]
    exact place_b _ _ _ _ _ _ _ _
  · rw [e5, t.y0 rfl]; rfl
  · obtain ⟨q1, q2, q3, q4⟩ := place_v2 σ (newCol π) (fun p : RCol vary ρ => a (colVar p)) (fun p => ha _) b hb V
    exact ⟨t.vmE V, by rw [g2, hV]; rfl, q1, q2, q3, q4⟩
end

end Spreg.ML
