import Verif.Props.PanelML2
import Mathlib.Topology.Order.Compact
import Mathlib.Topology.Instances.Matrix
/-
C98: the loop of ML_LagRE. C99: reported individual effects.
-/
namespace Spreg.PanelML
open Matrix Spreg.Lin Spreg.ML Spreg.Gauss
open scoped Kronecker

variable {τ n k : Type} [Fintype τ] [Fintype n] [Fintype k] [DecidableEq τ] [DecidableEq n] [DecidableEq k]

/-! ### C98 -/

theorem reLoop_spec (optPhi : ℝ → (k → ℝ) → ℝ) (optRho : LagPre (τ × n) k → ℝ) (y : τ × n → ℝ) (x : Matrix (τ × n) k ℝ)
    (W : Matrix n n ℝ) (r : ℕ) : ∀ (conv : ℝ) (st st' : REState k) (m : ℕ),
    reLoop optPhi optRho y x W r conv st = some (st', m) →
    m ≤ r ∧ (1 / 10000000 < conv → 0 < r → 1 ≤ m) ∧ (m = 0 → st' = st) ∧
    (1 ≤ m → ∃ p rho b, rePre y x W st'.phi = some p ∧ st'.rho = optRho p ∧ st'.b = p.b0 - st'.rho • p.b1 ∧
      st'.phi = optPhi rho b) := by
  induction r with
  | zero =>
    intro conv st st' m h
    rw [reLoop] at h
    cases h
    exact ⟨le_rfl, fun _ h => absurd h (lt_irrefl _), fun _ => rfl, fun h => absurd h (by norm_num)⟩
  | succ r ih =>
    intro conv st st' m h
    rw [reLoop] at h
    by_cases hc : 1 / 10000000 < conv
    · rw [if_pos hc] at h
      simp only [Option.bind_eq_some_iff, Option.map_eq_some_iff] at h
      obtain ⟨p, hp, ⟨st2, m2⟩, hq, he⟩ := h
      cases he
      obtain ⟨h1, -, h3, h4⟩ := ih _ _ _ _ hq
      refine ⟨by omega, fun _ _ => by omega, fun h => absurd h (by omega), fun _ => ?_⟩
      rcases Nat.eq_zero_or_pos m2 with h0 | h0
      · have := h3 h0
        subst this
        exact ⟨p, st.rho, st.b, hp, rfl, rfl, rfl⟩
      · exact h4 h0
    · rw [if_neg hc] at h
      cases h
      exact ⟨by omega, fun h => absurd h hc, fun _ => rfl, fun h => absurd h (by norm_num)⟩

/-- C98: ML_LagRE makes at least one and at most 100 passes, and everything it reports belongs to one pass: the reported
coefficients, residuals, `sig2` and `logll` are those for the reported rho and ratio of variances. -/
theorem C98_passes (optPhi : ℝ → (k → ℝ) → ℝ) (optRho : LagPre (τ × n) k → ℝ) (y : τ × n → ℝ) (x : Matrix (τ × n) k ℝ)
    (W : Matrix n n ℝ) (f : LagFit τ n k) (m : ℕ) (h : lagREFull optPhi optRho y x W = some (f, m)) :
    1 ≤ m ∧ m ≤ 100 ∧ lagRE y x W f.phi f.rho = some f := by
  unfold lagREFull at h
  simp only [Option.bind_eq_some_iff, Option.map_eq_some_iff] at h
  obtain ⟨o, -, ⟨st, m2⟩, hq, g, hg, he⟩ := h
  cases he
  obtain ⟨h1, h2, -, h4⟩ := reLoop_spec optPhi optRho y x W 100 _ _ _ _ hq
  have hm := h2 (by norm_num) (by norm_num)
  obtain ⟨p, _, _, hp, hr, hb, -⟩ := h4 hm
  refine ⟨hm, h1, ?_⟩
  unfold lagRE at hg ⊢
  rw [hp, Option.map_some, Option.some_inj] at hg
  subst hg
  dsimp only at hb ⊢
  rw [hp, Option.map_some, hb]

/-- The profile log-likelihood at a state, without constants. -/
noncomputable def val (y : τ × n → ℝ) (x : Matrix (τ × n) k ℝ) (W : Matrix n n ℝ) (st : REState k) : ℝ :=
  -(NT τ n / 2 * Real.log (utu (quasi τ n st.phi *ᵥ (y - st.rho • (bigW τ W *ᵥ y) - x *ᵥ st.b)) / NT τ n)) +
    Fintype.card n * Real.log st.phi + jacob τ W st.rho

theorem quasi_resid [Nonempty τ] (y : τ × n → ℝ) (x : Matrix (τ × n) k ℝ) (W : Matrix n n ℝ) (phi rho : ℝ) (c : k → ℝ) :
    quasi τ n phi *ᵥ (y - rho • (bigW τ W *ᵥ y) - x *ᵥ c) =
      quasi τ n phi *ᵥ y - rho • (bigW τ W *ᵥ (quasi τ n phi *ᵥ y)) - (quasi τ n phi * x) *ᵥ c := by
  rw [mulVec_sub, mulVec_sub, mulVec_smul, mulVec_mulVec, mulVec_mulVec, mulVec_mulVec y (bigW τ W), quasi_comm]

theorem quasi_ne_zero [Nonempty τ] (phi : ℝ) (h : phi ≠ 0) (v : τ × n → ℝ) (hv : v ≠ 0) : quasi τ n phi *ᵥ v ≠ 0 := by
  intro e
  have hi : quasi τ n phi⁻¹ * quasi τ n phi = 1 := by
    rw [quasi_eq, quasi_eq, mix_mul, ← mix_one]
    simp [smul_smul, h]
  apply hv
  rw [← one_mulVec v, ← hi, ← mulVec_mulVec, e, mulVec_zero]

section
variable [Nonempty τ] (optPhi : ℝ → (k → ℝ) → ℝ) (optRho : LagPre (τ × n) k → ℝ) (y : τ × n → ℝ) (x : Matrix (τ × n) k ℝ)
    (W : Matrix n n ℝ)
    (hPhi : ∀ rho b phi, |rho| ≤ 99 / 100 → 0 < phi → phi ≤ 1 → 0 < optPhi rho b ∧ optPhi rho b ≤ 1 ∧
      phiObj y x W rho b (optPhi rho b) ≤ phiObj y x W rho b phi)
    (hRho : ∀ phi p rho, 0 < phi → rePre y x W phi = some p → |rho| ≤ 99 / 100 → |optRho p| ≤ 99 / 100 ∧
      lagObj W p (optRho p) ≤ lagObj W p rho)
    (hne : ∀ (rho : ℝ) (c : k → ℝ), |rho| ≤ 99 / 100 → y - rho • (bigW τ W *ᵥ y) - x *ᵥ c ≠ 0)
include hPhi hRho hne

theorem reLoop_mono (r : ℕ) : ∀ (conv : ℝ) (st st' : REState k) (m : ℕ),
    reLoop optPhi optRho y x W r conv st = some (st', m) → 0 < st.phi → st.phi ≤ 1 → |st.rho| ≤ 99 / 100 →
    val y x W st ≤ val y x W st' ∧ 0 < st'.phi ∧ st'.phi ≤ 1 ∧ |st'.rho| ≤ 99 / 100 := by
  induction r with
  | zero =>
    intro conv st st' m h h1 h2 h3
    rw [reLoop] at h
    cases h
    exact ⟨le_rfl, h1, h2, h3⟩
  | succ r ih =>
    intro conv st st' m h h1 h2 h3
    rw [reLoop] at h
    by_cases hc : 1 / 10000000 < conv
    swap
    · rw [if_neg hc] at h
      cases h
      exact ⟨le_rfl, h1, h2, h3⟩
    rw [if_pos hc] at h
    simp only [Option.bind_eq_some_iff, Option.map_eq_some_iff] at h
    obtain ⟨p, hp, ⟨st2, m2⟩, hq, he⟩ := h
    cases he
    obtain ⟨q1, q2, q3⟩ := hPhi st.rho st.b st.phi h3 h1 h2
    obtain ⟨r1, r2⟩ := hRho _ p st.rho q1 hp h3
    obtain ⟨i1, i2⟩ := ih _ _ _ _ hq q1 q2 r1
    refine ⟨le_trans ?_ i1, i2⟩
    set phi := optPhi st.rho st.b with hphi
    set rho := optRho p with hrho
    have hNT : 0 < NT τ n := by
      rw [← card_prod]
      rcases Nat.eq_zero_or_pos (Fintype.card (τ × n)) with h | h
      · haveI := Fintype.card_eq_zero_iff.1 h
        exact absurd (Subsingleton.elim _ _) (hne st.rho st.b h3)
      · exact_mod_cast h
    have upos : ∀ (f : ℝ) (s : ℝ) (c : k → ℝ), 0 < f → |s| ≤ 99 / 100 →
        0 < utu (quasi τ n f *ᵥ (y - s • (bigW τ W *ᵥ y) - x *ᵥ c)) := fun f s c hf hs =>
      lt_of_le_of_ne (utu_nonneg _) fun e => quasi_ne_zero f hf.ne' _ (hne s c hs) ((utu_eq_zero _).1 e.symm)
    -- step in phi
    have s1 : val y x W st ≤ val y x W ⟨phi, st.rho, st.b⟩ := by
      have hphiObj : ∀ f, 0 < f → phiObj y x W st.rho st.b f = NT τ n / 2 * Real.log (utu (quasi τ n f *ᵥ
          (y - st.rho • (bigW τ W *ᵥ y) - x *ᵥ st.b))) - Fintype.card n * Real.log f := by
        intro f _
        unfold phiObj
        dsimp only
        rw [← quasi_resid, ← utu_eq_dot, Real.log_pow]
        unfold NT
        push_cast
        ring
      rw [hphiObj _ q1, hphiObj _ h1] at q3
      unfold val
      dsimp only
      rw [Real.log_div (upos _ _ _ h1 h3).ne' hNT.ne', Real.log_div (upos _ _ _ q1 h3).ne' hNT.ne']
      linarith
    -- least squares
    unfold rePre at hp
    obtain ⟨hu, -, -⟩ := lagPre_some hp st.rho
    have hobj : ∀ s, lagObj W p s = -val y x W ⟨phi, s, p.b0 - s • p.b1⟩ + Fintype.card n * Real.log phi := by
      intro s
      obtain ⟨-, e1, e2⟩ := lagPre_some hp s
      unfold lagObj val
      dsimp only
      rw [quasi_resid, e2]
      have hres : ∀ (X : Matrix (τ × n) k ℝ) Y B, (olsWith X Y B).u = Y - X *ᵥ (olsWith X Y B).betas := fun _ _ _ => rfl
      rw [← hres, ← e1, utu_eq_dot]
      unfold NT
      ring
    have s2 : val y x W ⟨phi, st.rho, st.b⟩ ≤ val y x W ⟨phi, st.rho, p.b0 - st.rho • p.b1⟩ := by
      unfold val
      dsimp only
      have hle : utu (quasi τ n phi *ᵥ (y - st.rho • (bigW τ W *ᵥ y) - x *ᵥ (p.b0 - st.rho • p.b1))) ≤
          utu (quasi τ n phi *ᵥ (y - st.rho • (bigW τ W *ᵥ y) - x *ᵥ st.b)) := by
        obtain ⟨-, e1, e2⟩ := lagPre_some hp st.rho
        rw [quasi_resid, quasi_resid, e2]
        exact ols_min _ _ hu _
      have hl := Real.log_le_log (div_pos (upos _ _ _ q1 h3) hNT) (div_le_div_of_nonneg_right hle hNT.le)
      have := mul_le_mul_of_nonneg_left hl (by linarith : 0 ≤ NT τ n / 2)
      linarith
    -- step in rho
    have s3 : val y x W ⟨phi, st.rho, p.b0 - st.rho • p.b1⟩ ≤ val y x W ⟨phi, rho, p.b0 - rho • p.b1⟩ := by
      have a := hobj st.rho
      have b := hobj rho
      linarith
    exact s1.trans (s2.trans s3)

/-- C98: if the two bounded minimisations find minima, the reported log-likelihood is at least the log-likelihood at the
values at which the iteration starts (`phi = rho = 0.1`, OLS coefficients), for every variance. -/
theorem C98_ascent (f : LagFit τ n k) (m : ℕ) (h : lagREFull optPhi optRho y x W = some (f, m))
    (hA : ∀ rho : ℝ, |rho| ≤ 99 / 100 → IsUnit (1 - rho • W).det) (o : OLSFit (τ × n) k) (ho : ols x y = some o)
    (r s2 : ℝ) (hr : (1 / 10 : ℝ) ^ 2 * (1 + Fintype.card τ * r) = 1) (hs : 0 < s2) :
    lagLL (panelW τ W) (reCov τ n r) (1 / 10) s2 (fun a => ∑ j, x a j * o.betas j) y ≤ f.logll := by
  have hpass := C98_passes optPhi optRho y x W f m h
  unfold lagREFull at h
  rw [ho, Option.bind_some] at h
  simp only [Option.bind_eq_some_iff, Option.map_eq_some_iff] at h
  obtain ⟨⟨st, m2⟩, hq, g, hg, he⟩ := h
  obtain ⟨i1, i2, i3, i4⟩ := reLoop_mono optPhi optRho y x W hPhi hRho hne 100 _ _ _ _ hq (by norm_num) (by norm_num)
    (by rw [abs_of_pos (by norm_num)]; norm_num)
  have hphi : f.phi = st.phi ∧ f.rho = st.rho ∧ f.b = st.b := by
    unfold lagRE at hg
    simp only [Option.map_eq_some_iff] at hg
    obtain ⟨p, -, rfl⟩ := hg
    cases he
    exact ⟨rfl, rfl, rfl⟩
  have hT : (Fintype.card τ : ℝ) ≠ 0 := by exact_mod_cast Fintype.card_ne_zero
  obtain ⟨r', hr'⟩ : ∃ r', f.phi ^ 2 * (1 + Fintype.card τ * r') = 1 := by
    refine ⟨(1 / f.phi ^ 2 - 1) / Fintype.card τ, ?_⟩
    have : f.phi ≠ 0 := by rw [hphi.1]; exact i2.ne'
    field_simp
    ring
  have hAr : |(1 / 10 : ℝ)| ≤ 99 / 100 := by rw [abs_of_pos (by norm_num)]; norm_num
  have hNT : 0 < (Fintype.card (τ × n) : ℝ) := by
    rcases Nat.eq_zero_or_pos (Fintype.card (τ × n)) with h | h
    · haveI := Fintype.card_eq_zero_iff.1 h
      exact absurd (Subsingleton.elim _ _) (hne (1 / 10) o.betas hAr)
    · exact_mod_cast h
  have upos : ∀ (f : ℝ) (s : ℝ) (c : k → ℝ), 0 < f → |s| ≤ 99 / 100 →
      0 < utu (quasi τ n f *ᵥ (y - s • (bigW τ W *ᵥ y) - x *ᵥ c)) := fun f s c hf hs =>
    lt_of_le_of_ne (utu_nonneg _) fun e => quasi_ne_zero f hf.ne' _ (hne s c hs) ((utu_eq_zero _).1 e.symm)
  have hmax := fun (st : REState k) (h1 : 0 < st.phi) (h3 : |st.rho| ≤ 99 / 100) (s2 : ℝ) (hs : 0 < s2) =>
    gaussLL_max (quasi τ n st.phi *ᵥ (y - st.rho • (bigW τ W *ᵥ y) - x *ᵥ st.b)) _
      (Fintype.card n * Real.log st.phi + jacob τ W st.rho) (upos _ _ _ h1 h3) le_rfl s2 hs
  have hfu : f.u ≠ 0 := by
    have h2 := hpass.2.2
    have : f.u = quasi τ n f.phi *ᵥ (y - f.rho • (bigW τ W *ᵥ y) - x *ᵥ f.b) := by
      unfold lagRE rePre at h2
      simp only [Option.map_eq_some_iff] at h2
      obtain ⟨p, hp, h2⟩ := h2
      obtain ⟨-, e1, e2⟩ := lagPre_some hp f.rho
      rw [quasi_resid]
      have hres : ∀ (X : Matrix (τ × n) k ℝ) Y B, (olsWith X Y B).u = Y - X *ᵥ (olsWith X Y B).betas := fun _ _ _ => rfl
      have hb : f.b = p.b0 - f.rho • p.b1 := (congrArg LagFit.b h2).symm
      have hu : f.u = p.e0 - f.rho • p.e1 := (congrArg LagFit.u h2).symm
      rw [hu, hb, e1, e2, ← hres]
    rw [this]
    exact quasi_ne_zero _ (by rw [hphi.1]; exact i2.ne') _ (hne _ _ (by rw [hphi.2.1]; exact i4))
  have hfin := (C96_lagRE y x W f.phi f.rho r' f hpass.2.2 (by rw [hphi.1]; exact i2) hr' (hA _ (by rw [hphi.2.1]; exact i4))
    hfu).2 f.b
  have hxm : ∀ (c : k → ℝ), (fun a : τ × n => ∑ j, x a j * c j) = x *ᵥ c := fun c => rfl
  have hvalLL : ∀ st : REState k, 0 < st.phi → |st.rho| ≤ 99 / 100 →
      gaussLL (quasi τ n st.phi *ᵥ (y - st.rho • (bigW τ W *ᵥ y) - x *ᵥ st.b))
        (utu (quasi τ n st.phi *ᵥ (y - st.rho • (bigW τ W *ᵥ y) - x *ᵥ st.b)) / Fintype.card (τ × n))
        (Fintype.card n * Real.log st.phi + jacob τ W st.rho) =
      val y x W st - NT τ n / 2 * Real.log (2 * Real.pi) - NT τ n / 2 := by
    intro st h1 h3
    rw [(hmax st h1 h3 1 one_pos).2, card_prod]
    unfold val
    ring
  rw [hxm, lagLL_re y _ W _ (1 / 10) r s2 hs (by norm_num) hr (hA _ hAr)]
  refine le_trans (hmax ⟨1 / 10, 1 / 10, o.betas⟩ (by norm_num) hAr s2 hs).1 ?_
  rw [hvalLL ⟨1 / 10, 1 / 10, o.betas⟩ (by norm_num) hAr]
  have hst := hvalLL st i2 i4
  refine le_trans (by linarith : _ ≤ val y x W st - NT τ n / 2 * Real.log (2 * Real.pi) - NT τ n / 2) ?_
  rw [← hst]
  have := hfin (utu (quasi τ n st.phi *ᵥ (y - st.rho • (bigW τ W *ᵥ y) - x *ᵥ st.b)) / Fintype.card (τ × n))
    (div_pos (upos _ _ _ i2 i4) hNT)
  rw [hxm, lagLL_re y _ W _ f.phi r' _ (div_pos (upos _ _ _ i2 i4) hNT) (by rw [hphi.1]; exact i2) hr'
    (hA _ (by rw [hphi.2.1]; exact i4)), hphi.1, hphi.2.1, hphi.2.2] at this
  exact this

end

/-! #### The hypotheses of `C98_ascent` can be met -/

theorem utu_quasi [Nonempty τ] (phi : ℝ) (e : τ × n → ℝ) :
    utu (quasi τ n phi *ᵥ e) = utu (quasi τ n 0 *ᵥ e) + phi ^ 2 * utu (mix τ (1 : Matrix n n ℝ) 0 *ᵥ e) := by
  have key : ∀ P B : Matrix n n ℝ, utu (mix τ P B *ᵥ e) = e ⬝ᵥ (mix τ (Pᵀ * P) (Bᵀ * B) *ᵥ e) := by
    intro P B
    rw [utu_eq_dot, ← mix_mul, ← mix_transpose, ← mulVec_mulVec, dotProduct_mulVec e, vecMul_transpose]
  rw [quasi_eq, quasi_eq, key, key, key]
  have hm : mix τ ((phi • (1 : Matrix n n ℝ))ᵀ * (phi • (1 : Matrix n n ℝ))) ((1 : Matrix n n ℝ)ᵀ * 1) =
      mix τ (((0 : ℝ) • (1 : Matrix n n ℝ))ᵀ * ((0 : ℝ) • 1)) ((1 : Matrix n n ℝ)ᵀ * 1) +
        phi ^ 2 • mix τ ((1 : Matrix n n ℝ)ᵀ * 1) ((0 : Matrix n n ℝ)ᵀ * 0) := by
    rw [mix_smul, mix_add]
    congr 1
    · simp [smul_smul, sq]
    · simp
  rw [hm, add_mulVec, dotProduct_add, smul_mulVec, dotProduct_smul, smul_eq_mul]

/-- A bounded minimisation over `(0, 1]` of the objective in phi has a solution. -/
theorem phi_min_exists [Nonempty τ] (y : τ × n → ℝ) (x : Matrix (τ × n) k ℝ) (W : Matrix n n ℝ) (rho : ℝ) (b : k → ℝ)
    (hne : quasi τ n 0 *ᵥ (y - rho • (bigW τ W *ᵥ y) - x *ᵥ b) ≠ 0) :
    ∃ f, 0 < f ∧ f ≤ 1 ∧ ∀ phi, 0 < phi → phi ≤ 1 → phiObj y x W rho b f ≤ phiObj y x W rho b phi := by
  set e := y - rho • (bigW τ W *ᵥ y) - x *ᵥ b with he
  set A := utu (quasi τ n 0 *ᵥ e) with hA
  set B := utu (mix τ (1 : Matrix n n ℝ) 0 *ᵥ e) with hB
  have hApos : 0 < A := lt_of_le_of_ne (utu_nonneg _) fun h => hne ((utu_eq_zero _).1 h.symm)
  have hB0 : 0 ≤ B := utu_nonneg _
  have hn : Nonempty n := by
    by_contra h
    haveI := not_nonempty_iff.1 h
    exact hne (Subsingleton.elim _ _)
  have hN : (0 : ℝ) < Fintype.card n := by exact_mod_cast Fintype.card_pos
  have hT : (0 : ℝ) < Fintype.card τ := by exact_mod_cast Fintype.card_pos
  set M := NT τ n / 2 with hM
  have hMpos : 0 < M := by rw [hM]; unfold NT; positivity
  have hobj : ∀ phi, phiObj y x W rho b phi = M * Real.log (A + phi ^ 2 * B) - Fintype.card n * Real.log phi := by
    intro phi
    unfold phiObj
    dsimp only
    rw [← quasi_resid, ← utu_eq_dot, ← he, utu_quasi, Real.log_pow, hM]
    unfold NT
    push_cast
    ring
  set K := (M * Real.log (A + B) - M * Real.log A) / Fintype.card n with hK
  set eps := min 1 (Real.exp (-K)) with heps
  have he0 : 0 < eps := lt_min one_pos (Real.exp_pos _)
  have he1 : eps ≤ 1 := min_le_left _ _
  have hcont : ContinuousOn (fun phi => phiObj y x W rho b phi) (Set.Icc eps 1) := by
    simp only [hobj]
    refine ContinuousOn.sub (ContinuousOn.mul continuousOn_const (ContinuousOn.log (by fun_prop) fun z _ => ?_))
      (ContinuousOn.mul continuousOn_const (ContinuousOn.log continuousOn_id fun z hz => ?_))
    · have : 0 ≤ z ^ 2 * B := by positivity
      exact (by linarith : (0 : ℝ) < A + z ^ 2 * B).ne'
    · exact (lt_of_lt_of_le he0 hz.1).ne'
  obtain ⟨f, hf, hmin⟩ := isCompact_Icc.exists_isMinOn ⟨1, he1, le_rfl⟩ hcont
  refine ⟨f, lt_of_lt_of_le he0 hf.1, hf.2, fun phi h0 h1 => ?_⟩
  by_cases hle : eps ≤ phi
  · exact hmin ⟨hle, h1⟩
  · push Not at hle
    refine le_trans (hmin (show (1 : ℝ) ∈ Set.Icc eps 1 from ⟨he1, le_rfl⟩)) ?_
    show phiObj y x W rho b 1 ≤ phiObj y x W rho b phi
    rw [hobj, hobj, Real.log_one, mul_zero, sub_zero, one_pow, one_mul]
    have hl : Real.log phi ≤ -K := by
      have : phi ≤ Real.exp (-K) := (hle.trans_le (min_le_right _ _)).le
      exact (Real.log_le_log h0 this).trans_eq (Real.log_exp _)
    have h2 : M * Real.log A ≤ M * Real.log (A + phi ^ 2 * B) :=
      mul_le_mul_of_nonneg_left (Real.log_le_log hApos (by have : 0 ≤ phi ^ 2 * B := by positivity
                                                           linarith)) hMpos.le
    have h3 : Fintype.card n * Real.log phi ≤ -(M * Real.log (A + B) - M * Real.log A) := by
      have := mul_le_mul_of_nonneg_left hl hN.le
      rw [hK] at this
      rwa [mul_neg, mul_div_cancel₀ _ hN.ne'] at this
    linarith

/-- A bounded minimisation over `[-0.99, 0.99]` of the objective in rho has a solution. -/
theorem rho_min_exists [Nonempty τ] (y : τ × n → ℝ) (x : Matrix (τ × n) k ℝ) (W : Matrix n n ℝ) (phi : ℝ)
    (p : LagPre (τ × n) k) (hphi : 0 < phi) (hp : rePre y x W phi = some p)
    (hne : ∀ (rho : ℝ) (c : k → ℝ), |rho| ≤ 99 / 100 → y - rho • (bigW τ W *ᵥ y) - x *ᵥ c ≠ 0)
    (hA : ∀ rho : ℝ, |rho| ≤ 99 / 100 → IsUnit (1 - rho • W).det) :
    ∃ r, |r| ≤ 99 / 100 ∧ ∀ rho, |rho| ≤ 99 / 100 → lagObj W p r ≤ lagObj W p rho := by
  have hcont : ContinuousOn (fun rho => lagObj W p rho) (Set.Icc (-(99 / 100)) (99 / 100)) := by
    unfold lagObj jacob
    dsimp only
    refine ContinuousOn.sub (ContinuousOn.mul continuousOn_const (ContinuousOn.log ?_ fun z hz => ?_))
      (ContinuousOn.mul continuousOn_const (ContinuousOn.log ?_ fun z hz => ?_))
    · apply Continuous.continuousOn
      apply Continuous.div_const
      simp only [dotProduct, Pi.sub_apply, Pi.smul_apply, smul_eq_mul]
      fun_prop
    · have hz' : |z| ≤ 99 / 100 := abs_le.2 hz
      rw [← utu_eq_dot]
      unfold rePre at hp
      obtain ⟨-, e1, e2⟩ := lagPre_some hp z
      have hres : ∀ (X : Matrix (τ × n) k ℝ) Y B, (olsWith X Y B).u = Y - X *ᵥ (olsWith X Y B).betas := fun _ _ _ => rfl
      have hu : p.e0 - z • p.e1 ≠ 0 := by
        rw [e1, hres, ← e2, ← quasi_resid]
        exact quasi_ne_zero phi hphi.ne' _ (hne z _ hz')
      refine div_ne_zero (fun h => hu ((utu_eq_zero _).1 h)) ?_
      have : Nonempty (τ × n) := by
        by_contra h
        haveI := not_nonempty_iff.1 h
        exact hu (Subsingleton.elim _ _)
      have h1 := card_prod (τ := τ) (n := n)
      unfold NT at h1
      rw [← h1]
      exact_mod_cast Fintype.card_ne_zero
    · apply Continuous.continuousOn
      apply Continuous.abs
      apply Continuous.matrix_det
      exact continuous_const.sub (continuous_id.smul continuous_const)
    · exact abs_ne_zero.2 (hA z (abs_le.2 hz)).ne_zero
  obtain ⟨r, hr, hmin⟩ := isCompact_Icc.exists_isMinOn ⟨0, by norm_num, by norm_num⟩ hcont
  exact ⟨r, abs_le.2 hr, fun rho h => hmin (abs_le.1 h)⟩

/-- Non-vacuity of `C98_ascent`: whenever the weights are nonsingular on the search interval and no combination of the
regressors fits the demeaned data exactly, there are optimisers as assumed there. -/
theorem optimisers_exist [Nonempty τ] (y : τ × n → ℝ) (x : Matrix (τ × n) k ℝ) (W : Matrix n n ℝ)
    (hne : ∀ (rho : ℝ) (c : k → ℝ), |rho| ≤ 99 / 100 → quasi τ n 0 *ᵥ (y - rho • (bigW τ W *ᵥ y) - x *ᵥ c) ≠ 0)
    (hA : ∀ rho : ℝ, |rho| ≤ 99 / 100 → IsUnit (1 - rho • W).det) :
    ∃ (optPhi : ℝ → (k → ℝ) → ℝ) (optRho : LagPre (τ × n) k → ℝ),
      (∀ rho b phi, |rho| ≤ 99 / 100 → 0 < phi → phi ≤ 1 → 0 < optPhi rho b ∧ optPhi rho b ≤ 1 ∧
        phiObj y x W rho b (optPhi rho b) ≤ phiObj y x W rho b phi) ∧
      (∀ phi p rho, 0 < phi → rePre y x W phi = some p → |rho| ≤ 99 / 100 → |optRho p| ≤ 99 / 100 ∧
        lagObj W p (optRho p) ≤ lagObj W p rho) ∧
      (∀ (rho : ℝ) (c : k → ℝ), |rho| ≤ 99 / 100 → y - rho • (bigW τ W *ᵥ y) - x *ᵥ c ≠ 0) := by
  classical
  have hne' : ∀ (rho : ℝ) (c : k → ℝ), |rho| ≤ 99 / 100 → y - rho • (bigW τ W *ᵥ y) - x *ᵥ c ≠ 0 :=
    fun rho c h e => hne rho c h (by rw [e, mulVec_zero])
  refine ⟨fun rho b => if h : |rho| ≤ 99 / 100 then (phi_min_exists y x W rho b (hne rho b h)).choose else 1,
    fun p => if h : ∃ phi, 0 < phi ∧ rePre y x W phi = some p then
      (rho_min_exists y x W h.choose p h.choose_spec.1 h.choose_spec.2 hne' hA).choose else 0, ?_, ?_, hne'⟩
  · intro rho b phi h h0 h1
    beta_reduce
    rw [dif_pos h]
    have := (phi_min_exists y x W rho b (hne rho b h)).choose_spec
    exact ⟨this.1, this.2.1, this.2.2 phi h0 h1⟩
  · intro phi p rho h0 hp h
    have hex : ∃ phi, 0 < phi ∧ rePre y x W phi = some p := ⟨phi, h0, hp⟩
    beta_reduce
    rw [dif_pos hex]
    have := (rho_min_exists y x W hex.choose p hex.choose_spec.1 hex.choose_spec.2 hne' hA).choose_spec
    exact ⟨this.1, this.2 rho h⟩

/-! ### C99 -/

/-- C99 for ML_ErrorFE: the reported individual effects `mu_i` are the intercepts at which, together with the reported
coefficients and `sig2`, the maximal log-likelihood is attained. -/
theorem C99_errFE [Nonempty τ] (y : τ × n → ℝ) (x : Matrix (τ × n) k ℝ) (W : Matrix n n ℝ) (lam : ℝ) (f : ErrFit τ n k)
    (h : errFE true y x W lam = some f) (hA : IsUnit (1 - lam • W).det) (h0 : f.eFiltered ≠ 0) :
    errLL (panelW τ W) lam f.sig2 (fun a => ∑ j, x a j * f.b j + muErrFE y x f a.2) y = f.logll := by
  obtain ⟨⟨mu, hmu⟩, hmax⟩ := C95_errFE y x W lam f h hA h0
  have hA' := det_bigW_isUnit (τ := τ) W lam hA
  have hs : 0 < f.sig2 := by
    have h' := h
    unfold errFE at h'
    simp only [Option.map_eq_some_iff, if_true] at h'
    obtain ⟨B, -, hB⟩ := h'
    have hsf : f.sig2 = (f.eFiltered ⬝ᵥ f.eFiltered) / NT τ n := by rw [← hB]
    rw [hsf, ← utu_eq_dot]
    have hpos : 0 < utu f.eFiltered := lt_of_le_of_ne (utu_nonneg _) fun e => h0 ((utu_eq_zero _).1 e.symm)
    refine div_pos hpos ?_
    rw [← card_prod]
    rcases Nat.eq_zero_or_pos (Fintype.card (τ × n)) with h | h
    · haveI := Fintype.card_eq_zero_iff.1 h
      simp [utu] at hpos
    · exact_mod_cast h
  refine le_antisymm (hmax _ _ _ hs) ?_
  rw [← hmu, ← bigW_spec, errLL_eq _ _ _ hs _ _ hA', errLL_eq _ _ _ hs _ _ hA', ← mulVec_sub, ← mulVec_sub]
  set A := (1 - lam • bigW τ W) with hAd
  have hAQ : quasi τ n 0 * A = A * quasi τ n 0 := by
    rw [hAd, Matrix.mul_sub, Matrix.sub_mul, Matrix.mul_one, Matrix.one_mul, Matrix.mul_smul, Matrix.smul_mul, quasi_comm]
  have e1 : (y - fun a : τ × n => ∑ j, x a j * f.b j + muErrFE y x f a.2) = quasi τ n 0 *ᵥ (y - x *ᵥ f.b) := by
    funext a
    rw [quasi0_apply]
    simp only [Pi.sub_apply, muErrFE, mulVec, dotProduct]
    ring
  have e2 : quasi τ n 0 *ᵥ (y - fun a : τ × n => ∑ j, x a j * f.b j + mu a.2) = quasi τ n 0 *ᵥ (y - x *ᵥ f.b) := by
    have : (y - fun a : τ × n => ∑ j, x a j * f.b j + mu a.2) = (y - x *ᵥ f.b) - fun a => mu a.2 := by
      funext a
      simp only [Pi.sub_apply, mulVec, dotProduct]
      ring
    rw [this, mulVec_sub, quasi0_unit, sub_zero]
  have hle : utu (A *ᵥ (y - fun a : τ × n => ∑ j, x a j * f.b j + muErrFE y x f a.2)) ≤
      utu (A *ᵥ (y - fun a : τ × n => ∑ j, x a j * f.b j + mu a.2)) := by
    rw [e1, ← e2, mulVec_mulVec, ← hAQ, ← mulVec_mulVec]
    exact utu_quasi0_le _
  unfold gaussLL
  have : utu (A *ᵥ (y - fun a : τ × n => ∑ j, x a j * f.b j + muErrFE y x f a.2)) / (2 * f.sig2) ≤
    utu (A *ᵥ (y - fun a : τ × n => ∑ j, x a j * f.b j + mu a.2)) / (2 * f.sig2) :=
    div_le_div_of_nonneg_right hle (by linarith)
  unfold utu at this
  linarith

/-- C99 fails for ML_LagFE: its `mu_i` leave out `rho` times the mean of `Wy`, and with them the log-likelihood is smaller
than the reported one, whenever rho is not zero and the mean of `Wy` of some unit is not zero. -/
theorem C99_lagFE_violated [Nonempty τ] (y : τ × n → ℝ) (x : Matrix (τ × n) k ℝ) (W : Matrix n n ℝ) (rho : ℝ)
    (f : LagFit τ n k) (h : lagFE y x W rho = some f) (hA : IsUnit (1 - rho • W).det) (h0 : f.u ≠ 0) (hr : rho ≠ 0)
    (i : n) (hi : ∑ s : τ, ∑ j, W i j * y (s, j) ≠ 0) :
    lagLL (panelW τ W) 1 rho f.sig2 (fun a => ∑ j, x a j * f.b j + muLagFE y x f a.2) y < f.logll := by
  have hT : (0 : ℝ) < Fintype.card τ := by exact_mod_cast Fintype.card_pos
  have hA' := det_bigW_isUnit (τ := τ) W rho hA
  have hmax := (C95_lagFE y x W rho f h hA h0).2
  have hs : 0 < f.sig2 := by
    have h' := h
    unfold lagFE at h'
    simp only [Option.map_eq_some_iff] at h'
    obtain ⟨p, -, rfl⟩ := h'
    dsimp only at h0 ⊢
    rw [← utu_eq_dot]
    have hpos : 0 < utu (p.e0 - rho • p.e1) := lt_of_le_of_ne (utu_nonneg _) fun e => h0 ((utu_eq_zero _).1 e.symm)
    refine div_pos hpos ?_
    rw [← card_prod]
    rcases Nat.eq_zero_or_pos (Fintype.card (τ × n)) with h | h
    · haveI := Fintype.card_eq_zero_iff.1 h
      simp [utu] at hpos
    · exact_mod_cast h
  have hval : ∀ m, lagLL (panelW τ W) 1 rho f.sig2 m y = gaussLL (y - rho • (bigW τ W *ᵥ y) - m) f.sig2 (jacob τ W rho) := by
    intro m
    rw [← bigW_spec, lagLL_eq (bigW τ W) 1 1 rho f.sig2 hs m y hA' (by rw [det_one]; exact isUnit_one) (by simp)]
    rw [one_mulVec, one_mulVec, det_one, abs_one, Real.log_one, zero_add, log_det_bigW, sub_smul_bigW]
  let e : τ × n → ℝ := y - rho • (bigW τ W *ᵥ y) - x *ᵥ f.b
  let mu : n → ℝ := fun i => (∑ s, e (s, i)) / Fintype.card τ
  refine lt_of_lt_of_le ?_ (hmax f.b mu f.sig2 hs)
  rw [hval, hval]
  have e1 : (y - rho • (bigW τ W *ᵥ y) - fun a : τ × n => ∑ j, x a j * f.b j + mu a.2) = quasi τ n 0 *ᵥ e := by
    funext a
    rw [quasi0_apply]
    simp only [Pi.sub_apply, mu, e, mulVec, dotProduct, Pi.smul_apply]
    ring
  let dl : n → ℝ := fun i => rho * ((∑ s : τ, ∑ j, W i j * y (s, j)) / Fintype.card τ)
  have hW : ∀ a : τ × n, (bigW τ W *ᵥ y) a = ∑ j, W a.2 j * y (a.1, j) := by
    intro a
    rw [bigW_eq, mix_apply]; simp
  have e2 : (y - rho • (bigW τ W *ᵥ y) - fun a : τ × n => ∑ j, x a j * f.b j + muLagFE y x f a.2) =
      quasi τ n 0 *ᵥ e - fun a => dl a.2 := by
    rw [← e1]
    funext a
    simp only [Pi.sub_apply, mu, e, dl, muLagFE, Pi.smul_apply, hW, Finset.sum_sub_distrib, smul_eq_mul, ← Finset.mul_sum]
    field_simp
    ring
  rw [e1, e2]
  have horth : (quasi τ n 0 *ᵥ e) ⬝ᵥ (fun a : τ × n => dl a.2) = 0 := by
    have hsy : (quasi τ n 0)ᵀ = quasi τ n 0 := by rw [quasi_eq, mix_transpose]; simp
    have : (quasi τ n 0 *ᵥ e) ⬝ᵥ (fun a : τ × n => dl a.2) = e ⬝ᵥ (quasi τ n 0 *ᵥ fun a : τ × n => dl a.2) := by
      rw [dotProduct_mulVec e (quasi τ n 0), ← mulVec_transpose, hsy]
    rw [this, quasi0_unit, dotProduct_zero]
  have hdl : 0 < utu (fun a : τ × n => dl a.2) := by
    refine lt_of_le_of_ne (utu_nonneg _) fun e => ?_
    have hz := (utu_eq_zero _).1 e.symm
    have := congrFun hz (Classical.arbitrary τ, i)
    simp only [dl, Pi.zero_apply, mul_eq_zero, div_eq_zero_iff] at this
    rcases this with h | h | h
    · exact hr h
    · exact hi h
    · exact hT.ne' h
  have hlt : utu (quasi τ n 0 *ᵥ e) < utu (quasi τ n 0 *ᵥ e - fun a => dl a.2) := by
    have : utu (quasi τ n 0 *ᵥ e - fun a => dl a.2) = utu (quasi τ n 0 *ᵥ e) + utu (fun a : τ × n => dl a.2) := by
      rw [utu_eq_dot, utu_eq_dot, utu_eq_dot, sub_dotProduct, dotProduct_sub, dotProduct_sub, horth,
        dotProduct_comm (fun a : τ × n => dl a.2), horth]
      ring
    linarith
  unfold gaussLL
  have := div_lt_div_of_pos_right hlt (by linarith : 0 < 2 * f.sig2)
  unfold utu at this
  linarith

end Spreg.PanelML
