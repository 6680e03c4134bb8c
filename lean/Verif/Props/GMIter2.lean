import Verif.Props.GMIter
import Verif.Props.LM
/-
C84: the coefficients of the heteroskedastic GM estimator with endogenous variables.
C85: the variance matrices of the iterated GM estimators are symmetric positive semidefinite.
-/
namespace Spreg.GM
open Matrix Spreg.Lin Spreg.LM

variable {n k l : Type} [Fintype n] [Fintype k] [Fintype l]

/-! ### C84 -/

theorem passes_last {S : Type} {R : ℝ → S → Prop} {newLam : S → ℝ} {lam : ℝ} {hist : List S} {s : S}
    (h : Passes R newLam lam hist) (hs : hist.getLast? = some s) : ∃ a, R a s := by
  induction hist generalizing lam with
  | nil => simp at hs
  | cons t r ih =>
    cases r with
    | nil =>
      simp at hs; subst hs
      exact ⟨lam, h.1⟩
    | cons t' r' =>
      rw [List.getLast?_cons_cons] at hs
      exact ih h.2 hs

/-- C84 (partial): the last reported coefficient (of the last endogenous variable) always lies in `[-0.9, 0.9]`; if it
lies strictly inside, the reported coefficients satisfy the first-order condition of two-stage least squares on data
filtered by the lambda of the pass. Missing: when the unrestricted coefficient lies outside, the reported
coefficients are not the two-stage least squares estimates, see `C84_clip_violated`. -/
theorem C84_foc_partial [DecidableEq n] [DecidableEq k] [DecidableEq l]
    {opt : Moments (Fin 2) (Fin 2) → Option (Matrix (Fin 2) (Fin 2) ℝ) → Py ℝ}
    {W : Matrix n n ℝ} {z : Matrix n (k ⊕ Unit) ℝ} {h : Matrix n l ℝ} {y : n → ℝ} {maxIter : ℕ} {epsilon : ℝ}
    {hardBound : Bool} {f : IterFit n (k ⊕ Unit)}
    (hf : gmEndogErrorHet opt W z h y maxIter epsilon hardBound = .ok f) :
    |f.betas (.inr ())| ≤ 9 / 10 ∧
    (|f.betas (.inr ())| < 9 / 10 → ∃ lam : ℝ,
      ((z - lam • (W * z))ᵀ * h * (hᵀ * h)⁻¹) *ᵥ (hᵀ *ᵥ (f.u - lam • (W *ᵥ f.u))) = 0) ∧
    ∀ i, f.u i = y i - ∑ j, z i j * f.betas j := by
  obtain ⟨lam0, hist, hrun, hrep⟩ := C48_het_endog hf
  obtain ⟨s, hs, hb, hl, hp, hu⟩ := hrep.last
  obtain ⟨lam, hp⟩ := passes_last hrun.passes hs
  obtain ⟨b, hfoc, hbl, hin, hup, hdn⟩ := hp.fit
  rw [hb, hu]
  have hcase : |b (.inr ())| ≤ 9 / 10 ∨ 9 / 10 < b (.inr ()) ∨ b (.inr ()) < -(9 / 10) := by
    by_cases h1 : |b (.inr ())| ≤ 9 / 10
    · exact Or.inl h1
    · right
      rw [not_le] at h1
      rcases lt_abs.1 h1 with h2 | h2
      · exact Or.inl h2
      · right; linarith
  refine ⟨?_, fun hlt => ⟨lam, ?_⟩, hp.resid⟩
  · rcases hcase with h1 | h1 | h1
    · rw [hin h1]; exact h1
    · rw [hup h1]; norm_num
    · rw [hdn h1]; norm_num
  · rcases hcase with h1 | h1 | h1
    · have hbb : s.betas = b := by
        ext j; rcases j with j | j
        · exact hbl j
        · exact hin h1
      have hue : s.u = y - z *ᵥ b := by
        ext i; rw [hp.resid i, hbb]; rfl
      rw [hue]; exact hfoc
    · rw [hup h1] at hlt; norm_num at hlt
    · rw [hdn h1] at hlt; norm_num at hlt

/-- Two-stage least squares recovers the coefficients of an exact relation. -/
theorem tsls_exact [DecidableEq k] [DecidableEq l] {z : Matrix n k ℝ} {h : Matrix n l ℝ} {b : k → ℝ}
    {t : TSLSFit n k l} (ht : tslsE z h (z *ᵥ b) = .ok t) : t.betas = b := by
  have h1 := tslsZH_foc (tslsE_ok ht)
  have hf := tslsZH_facts (tslsE_ok ht)
  obtain ⟨hh, -, -, hz, -, hb, hp, hu⟩ := hf
  rw [hu, hp, ← mulVec_sub, mulVec_mulVec, mulVec_mulVec] at h1
  have hz' : IsUnit (zᵀ * h * (hᵀ * h)⁻¹ * hᵀ * z).det := by
    rw [transpose_mul, transpose_transpose, ← Matrix.mul_assoc] at hz
    exact hz
  have h3 := congrArg (fun v => (zᵀ * h * (hᵀ * h)⁻¹ * hᵀ * z)⁻¹ *ᵥ v) h1
  simp only [mulVec_mulVec, nonsing_inv_mul _ hz', one_mulVec, mulVec_zero] at h3
  exact (sub_eq_zero.1 h3).symm

/-- C84, violated: whenever `y` is an exact linear function of the regressors in which the last endogenous variable has
a coefficient above 0.9, no residual at all is needed, and yet every successful estimation reports 0.9 for it (and
the residual `(b - 0.9) z`): the bound meant for a spatial lag coefficient is applied to any endogenous variable. -/
theorem C84_clip_violated [DecidableEq n] [DecidableEq k] [DecidableEq l]
    {opt : Moments (Fin 2) (Fin 2) → Option (Matrix (Fin 2) (Fin 2) ℝ) → Py ℝ}
    {W : Matrix n n ℝ} {z : Matrix n (k ⊕ Unit) ℝ} {h : Matrix n l ℝ} {y : n → ℝ} {maxIter : ℕ} {epsilon : ℝ}
    {hardBound : Bool} {f : IterFit n (k ⊕ Unit)}
    (hf : gmEndogErrorHet opt W z h y maxIter epsilon hardBound = .ok f)
    (b : k ⊕ Unit → ℝ) (hy : ∀ i, y i = ∑ j, z i j * b j) (hb : 9 / 10 < b (.inr ())) :
    (∀ j, f.betas (.inl j) = b (.inl j)) ∧ f.betas (.inr ()) = 9 / 10 ∧
    ∀ i, f.u i = (b (.inr ()) - 9 / 10) * z i (.inr ()) := by
  have hy' : y = z *ᵥ b := by ext i; exact hy i
  have hclip : ∀ i, clipLast b i = Sum.elim (fun j => b (.inl j)) (fun _ => 9 / 10) i := by
    intro i
    rcases i with j | j
    · rfl
    · show (if |b (.inr ())| ≤ 9 / 10 then _ else _) = _
      rw [if_neg, if_neg]
      · rfl
      · linarith
      · rw [not_le]; exact lt_of_lt_of_le hb (le_abs_self _)
  unfold gmEndogErrorHet at hf
  obtain ⟨o, ho, hf⟩ := bind_ok hf
  obtain ⟨lam1, h1, hf⟩ := bind_ok hf
  obtain ⟨⟨lst, it⟩, hl, hf⟩ := bind_ok hf
  obtain ⟨s, hs, hf⟩ := bind_ok hf
  split_ifs at hf
  obtain ⟨P, hP, hf⟩ := bind_ok hf
  obtain ⟨vm, hvm, hf⟩ := bind_ok hf
  cases hf
  obtain ⟨hist, hr, rfl, hlast⟩ := gmLoop_run hl hs
    (R := fun _ s => s.betas = clipLast b ∧ s.u = y - z *ᵥ clipLast b) (by
      intro a s hst
      unfold hetEndogStep at hst
      obtain ⟨o, ho, hst⟩ := bind_ok hst
      obtain ⟨lam, hlam, hst⟩ := bind_ok hst
      cases hst
      rw [hy', ← spFilterM_mulVec] at ho
      rw [tsls_exact ho]
      exact ⟨rfl, rfl⟩)
  obtain ⟨_, hsb, hsu⟩ := passes_last hr.passes hlast
  refine ⟨fun j => ?_, ?_, fun i => ?_⟩
  · simp only [hsb]; exact hclip (.inl j)
  · simp only [hsb]; exact hclip (.inr ())
  · simp only [hsu, Pi.sub_apply, hy i, mulVec, dotProduct, Fintype.sum_sum_type, hclip, Sum.elim_inl, Sum.elim_inr]
    simp; ring

/-- Non-vacuity for C84: such a run. Three units on a path, one endogenous variable that is its own instrument, true
coefficient 1.9, and an optimiser that returns 0. -/
theorem C84_example : ∃ f, gmEndogErrorHet (fun _ _ => .ok 0) !![0, 1, 0; 1, 0, 1; 0, 1, 0]
    (Matrix.of fun i (_ : Empty ⊕ Unit) => (![-2, -1, 3] : Fin 3 → ℝ) i)
    (Matrix.of fun i (_ : Unit) => (![-2, -1, 3] : Fin 3 → ℝ) i)
    ((19 / 10 : ℝ) • ![-2, -1, 3]) 1 (1 / 100000) false = .ok f ∧ f.betas (.inr ()) = 9 / 10 := by
  set W : Matrix (Fin 3) (Fin 3) ℝ := !![0, 1, 0; 1, 0, 1; 0, 1, 0] with hW
  set u : Fin 3 → ℝ := ![-2, -1, 3] with hu
  set z : Matrix (Fin 3) (Empty ⊕ Unit) ℝ := Matrix.of fun i _ => u i with hz
  set h : Matrix (Fin 3) Unit ℝ := Matrix.of fun i _ => u i with hh
  set y : Fin 3 → ℝ := (19 / 10 : ℝ) • u with hy
  have hyz : y = z *ᵥ (fun _ => 19 / 10) := by
    ext i; simp [hy, hz, mulVec, dotProduct]; ring
  have hhh : hᵀ * h = Matrix.of fun _ _ => 14 := by
    ext i j; simp [hh, hu, mul_apply, Fin.sum_univ_three]; norm_num
  have hzh : zᵀ * h = Matrix.of fun _ _ => 14 := by
    ext i j; simp [hz, hh, hu, mul_apply, Fin.sum_univ_three]; norm_num
  have hhz : hᵀ * z = Matrix.of fun _ _ => 14 := by
    ext i j; simp [hz, hh, hu, mul_apply, Fin.sum_univ_three]; norm_num
  have i1 : (Matrix.of fun (_ _ : Unit) => (14 : ℝ)) * (Matrix.of fun _ _ => 1 / 14) = 1 := by
    ext i j; simp [mul_apply]
  have hd : IsUnit (hᵀ * h).det := by rw [hhh]; exact isUnit_det_of_right_inverse i1
  have hhi : (hᵀ * h)⁻¹ = Matrix.of fun _ _ => 1 / 14 := by
    rw [hhh]; exact inv_eq_right_inv i1
  have hq : zᵀ * h * (hᵀ * h)⁻¹ * (zᵀ * h)ᵀ = Matrix.of fun _ _ => 14 := by
    rw [hzh, hhi]; ext i j; simp [mul_apply]
  have i2 : (Matrix.of fun (_ _ : Empty ⊕ Unit) => (14 : ℝ)) * (Matrix.of fun _ _ => 1 / 14) = 1 := by
    ext i j
    rcases i with i | i
    · exact i.elim
    · rcases j with j | j
      · exact j.elim
      · simp [mul_apply]
  have hdz : IsUnit (zᵀ * h * (hᵀ * h)⁻¹ * (zᵀ * h)ᵀ).det := by
    rw [hq]; exact isUnit_det_of_right_inverse i2
  obtain ⟨t, ht⟩ := tslsZH_of_isUnit z h y hd hdz
  have htE : tslsE z h y = .ok t := by unfold tslsE; rw [ht]
  have htb : t.betas = fun _ => 19 / 10 := by rw [hyz] at htE; exact tsls_exact htE
  obtain ⟨-, f1, f2, -, f3, -, -, -⟩ := tslsZH_facts ht
  rw [hq] at f3
  rw [hzh, hhi] at f2
  have f3' : t.varb = Matrix.of fun _ _ => 1 / 14 := by rw [f3]; exact inv_eq_right_inv i2
  have f2' : t.zthhthi = Matrix.of fun _ _ => 1 := by rw [f2]; ext i j; simp [mul_apply]
  have hcl : clipLast t.betas = fun _ => 9 / 10 := by
    ext i
    rcases i with i | i
    · exact i.elim
    · simp only [clipLast, htb]
      rw [if_neg, if_neg] <;> norm_num [abs_of_pos]
  have hF : spFilterM W 0 z = z := by simp [spFilterM]
  have hFy : spFilter W 0 y = y := by simp [spFilter]
  have hres : y - z *ᵥ (fun _ => 9 / 10) = u := by
    ext i; simp [hy, hz, mulVec, dotProduct]; ring
  have hP : N (Fin 3) • (t.zthhthiᵀ * t.varb) = Matrix.of fun _ _ => 3 / 14 := by
    rw [f2', f3']; ext i j; simp [N, mul_apply]; norm_num
  have hW2 : A1het W = !![0, 0, 1; 0, 0, 0; 1, 0, 0] := by
    unfold A1het
    ext i j
    fin_cases i <;> fin_cases j <;>
      simp [hW, mul_apply, Fin.sum_univ_three, Matrix.diagonal]
  set M := moments2eqs (A1het W) W u with hM
  have hstep : hetEndogStep (fun _ _ => .ok 0) W z h y 0 = .ok ⟨fun _ => 9 / 10, z *ᵥ (fun _ => 9 / 10), u, M, 0⟩ := by
    unfold hetEndogStep
    rw [hF, hFy]
    simp only
    rw [htE]
    simp only [bind, Except.bind, hcl, hres, pure, Except.pure]
    rfl
  have hpH : pHat h t.hthi z = .ok (Matrix.of fun _ _ => 3 / 14) := by
    unfold pHat
    have e0 : t.hthi * (hᵀ * z) = Matrix.of fun _ _ => 1 := by
      rw [f1, hhi, hhz]; ext i j; simp [mul_apply]
    have e1 : (hᵀ * z)ᵀ * (t.hthi * (hᵀ * z)) = Matrix.of fun _ _ => 14 := by
      rw [e0, hhz]; ext i j; simp [mul_apply]
    simp only
    rw [e1, invE_of_isUnit (isUnit_det_of_right_inverse i2), inv_eq_right_inv i2, e0]
    simp only [bind, Except.bind, pure, Except.pure]
    congr 1
    ext i j; simp [N, mul_apply]; norm_num
  have ha : a1a2 W (A1het W) h u 0 (Matrix.of fun _ _ => 3 / 14 : Matrix Unit (Empty ⊕ Unit) ℝ) z
      = ((12 / 7 : ℝ) • u, (2 / 7 : ℝ) • u) := by
    rw [hW2]
    unfold a1a2
    refine Prod.ext ?_ ?_
    · ext i
      fin_cases i <;> simp [spFilter, hz, hh, hu, N, mul_apply, mulVec, dotProduct, Fin.sum_univ_three] <;> norm_num
    · ext i
      fin_cases i <;> simp [spFilter, hW, hz, hh, hu, N, mul_apply, mulVec, dotProduct, Fin.sum_univ_three] <;> norm_num
  have hsig : psiSigma W u 0 = !![4, 0, 0; 0, 1, 0; 0, 0, 9] := by
    unfold psiSigma
    ext i j; fin_cases i <;> fin_cases j <;> simp [hu, Matrix.diagonal] <;> norm_num
  have hpsi : vcHet W (A1het W) (psiSigma W u 0) = !![48, 0; 0, 52/3] := by
    rw [hW2, hsig]
    ext i j
    fin_cases i <;> fin_cases j <;>
      simp [vcHet, hW, mul_apply, Fin.sum_univ_three, Matrix.diagonal, N] <;> norm_num
  have hvc : vcHetTsls W (A1het W) u 0 ((12 / 7 : ℝ) • u, (2 / 7 : ℝ) • u) = !![144, 16; 16, 20] := by
    unfold vcHetTsls
    simp only
    rw [hpsi, hsig]
    ext i j
    fin_cases i <;> fin_cases j <;>
      simp [hu, vecMul, dotProduct, Fin.sum_univ_three, N] <;> norm_num
  have hG : jac M.G 0 = Matrix.of fun i (_ : Unit) => ![-2/3, 2] i := by
    simp only [hM, jac, moments2eqs, hW2]
    ext i j
    fin_cases i <;> fin_cases j <;>
      simp [hW, hu, mul_apply, mulVec, dotProduct, Fin.sum_univ_three, Fin.sum_univ_two, N] <;> norm_num
  have i3 : (!![144, 16; 16, 20] : Matrix (Fin 2) (Fin 2) ℝ) * !![20/2624, -16/2624; -16/2624, 144/2624] = 1 := by
    ext i j
    fin_cases i <;> fin_cases j <;> simp [mul_apply, Fin.sum_univ_two] <;> norm_num
  have hjd : IsUnit ((Matrix.of fun i (_ : Unit) => (![-2/3, 2] : Fin 2 → ℝ) i)ᵀ *
      (!![20/2624, -16/2624; -16/2624, 144/2624] : Matrix (Fin 2) (Fin 2) ℝ)
      * (Matrix.of fun i (_ : Unit) => (![-2/3, 2] : Fin 2 → ℝ) i)).det := by
    rw [isUnit_iff_ne_zero]
    simp [mul_apply, transpose_apply, Fin.sum_univ_two]; norm_num
  have hvm : ∃ vm, omegaGS2SLS W 0 h u M.G !![144, 16; 16, 20] ((12 / 7 : ℝ) • u, (2 / 7 : ℝ) • u)
      (Matrix.of fun _ _ => 3 / 14 : Matrix Unit (Empty ⊕ Unit) ℝ) = .ok vm := by
    unfold omegaGS2SLS
    rw [hG]
    simp only
    rw [invE_of_isUnit (isUnit_det_of_right_inverse i3), inv_eq_right_inv i3]
    simp only [bind, Except.bind]
    rw [invE_of_isUnit hjd]
    exact ⟨_, rfl⟩
  obtain ⟨vm, hvm⟩ := hvm
  refine ⟨⟨fun _ => 9 / 10, 0, z *ᵥ (fun _ => 9 / 10), u, u - (0 : ℝ) • (W *ᵥ u), vm, 1, iterMsg 1 1⟩, ?_, rfl⟩
  unfold gmEndogErrorHet
  rw [htE]
  simp only [bind, Except.bind]
  have hloop : gmLoop (hetEndogStep (fun _ _ => .ok 0) W z h y) Step.lam (1 / 100000) 1 0 1 none
      = .ok (some ⟨fun _ => 9 / 10, z *ᵥ (fun _ => 9 / 10), u, M, 0⟩, 1) := by
    unfold gmLoop
    rw [if_pos (by norm_num), hstep]
    rfl
  rw [hloop]
  simp only [bound]
  rw [if_neg (by simp), hF, hpH]
  simp only
  rw [ha, hvc, hvm]
  rfl

/-! ### C85: heteroskedastic errors -/

theorem psd_inv' [DecidableEq k] {A B : Matrix k k ℝ} (h : SymPSD A) (hAB : A * B = 1) : SymPSD B := by
  refine ⟨?_, fun v => by rw [quad_eq]; exact (psd_inv h hAB v).1⟩
  rw [← inv_eq_right_inv hAB, transpose_nonsing_inv, h.1]

theorem psd_block {A : Matrix k k ℝ} {B : Matrix l l ℝ} (hA : SymPSD A) (hB : SymPSD B) :
    SymPSD (fromBlocks A 0 0 B) := by
  refine ⟨by rw [fromBlocks_transpose, hA.1, hB.1, transpose_zero, transpose_zero], fun v => ?_⟩
  have h1 := hA.2 (fun i => v (.inl i))
  have h2 := hB.2 (fun i => v (.inr i))
  simp only [Fintype.sum_sum_type, fromBlocks_apply₁₁, fromBlocks_apply₁₂, fromBlocks_apply₂₁, fromBlocks_apply₂₂,
    Matrix.zero_apply, mul_zero, zero_mul, Finset.sum_const_zero, add_zero, zero_add]
  linarith

theorem psd_zero : SymPSD (0 : Matrix k k ℝ) := ⟨transpose_zero, fun v => by simp⟩

theorem psd_wgram [DecidableEq n] (M : Matrix n k ℝ) (e : n → ℝ) (he : ∀ i, 0 ≤ e i) :
    SymPSD (Mᵀ * diagonal e * M) := by
  have h : SymPSD (diagonal e) := by
    refine ⟨diagonal_transpose _, fun v => ?_⟩
    rw [quad_eq]
    simp only [mulVec_diagonal, dotProduct]
    exact Finset.sum_nonneg fun i _ => by nlinarith [mul_nonneg (he i) (mul_self_nonneg (v i))]
  have := psd_conj h Mᵀ
  rwa [transpose_transpose, ← Matrix.mul_assoc] at this

theorem N_nonneg : 0 ≤ N n := by unfold N; positivity

theorem psiSigma_psd [DecidableEq n] (W : Matrix n n ℝ) (u : n → ℝ) (lam : ℝ) (M : Matrix n k ℝ) :
    SymPSD (Mᵀ * psiSigma W u lam * M) := psd_wgram M _ fun _ => sq_nonneg _

theorem unit_symm (A : Matrix Unit Unit ℝ) : Aᵀ = A := by ext i j; rfl

/-- Variance of lambda: the inverse of `j' V^{-1} j`. -/
theorem psd_lam [DecidableEq k] {V Vi : Matrix k k ℝ} {J : Matrix k Unit ℝ} {B : Matrix Unit Unit ℝ}
    (hV : SymPSD V) (h1 : V * Vi = 1) (h2 : (Jᵀ * Vi * J) * B = 1) : SymPSD B := by
  refine psd_inv' ?_ h2
  have := psd_conj (psd_inv' hV h1) Jᵀ
  rwa [transpose_transpose, ← Matrix.mul_assoc] at this

/-- C85: heteroskedastic errors, no endogenous variables: the variance matrix of every fitted model (whatever the
optimiser did) is symmetric positive semidefinite. -/
theorem C85_het [DecidableEq n] [DecidableEq k]
    {opt : Moments (Fin 2) (Fin 2) → Option (Matrix (Fin 2) (Fin 2) ℝ) → Py ℝ}
    {W : Matrix n n ℝ} {x : Matrix n k ℝ} {y : n → ℝ} {maxIter : ℕ} {epsilon : ℝ} {step1c hardBound : Bool}
    {f : IterFit n k} (hf : gmErrorHet opt W x y maxIter epsilon step1c hardBound = .ok f) : SymPSD f.vm := by
  unfold gmErrorHet at hf
  obtain ⟨o, ho, hf⟩ := bind_ok hf
  obtain ⟨lam1, h1, hf⟩ := bind_ok hf
  obtain ⟨lam2, h2, hf⟩ := bind_ok hf
  obtain ⟨⟨lst, it⟩, hl, hf⟩ := bind_ok hf
  obtain ⟨s, hs, hf⟩ := bind_ok hf
  split_ifs at hf
  obtain ⟨vm, hvm, hf⟩ := bind_ok hf
  cases hf
  simp only
  unfold vmHet at hvm
  simp only at hvm
  obtain ⟨zzi, hz, hvm⟩ := bind_ok hvm
  obtain ⟨psii, hp, hvm⟩ := bind_ok hvm
  obtain ⟨om22, ho2, hvm⟩ := bind_ok hvm
  cases hvm
  obtain ⟨-, hzi, -⟩ := invE_ok hz
  obtain ⟨-, -, hp1, -⟩ := invE_ok hp
  obtain ⟨-, -, ho1, -⟩ := invE_ok ho2
  refine psd_smul (psd_block ?_ (psd_lam (C57_vcHet W s.u s.lam) hp1 ho1)) _ (by have := N_nonneg (n := n); positivity)
  refine psd_smul ?_ _ N_nonneg
  have := psd_conj (psiSigma_psd W s.u s.lam (spFilterM W s.lam x)) zzi
  have hsym : zziᵀ = zzi := by rw [hzi]; exact xtxi_symm _
  rwa [hsym, ← Matrix.mul_assoc] at this

theorem vcHetTsls_eq [DecidableEq n] (W A1 : Matrix n n ℝ) (u : n → ℝ) (lam : ℝ) (a : (n → ℝ) × (n → ℝ)) :
    vcHetTsls W A1 u lam a = vcHet W A1 (psiSigma W u lam)
      + (1 / N n) • ((cols2 a.1 a.2)ᵀ * psiSigma W u lam * cols2 a.1 a.2) := by
  unfold vcHetTsls
  simp only
  congr 1
  generalize psiSigma W u lam = S
  ext i j
  fin_cases i <;> fin_cases j <;>
    simp [cols2, mul_apply, vecMul, dotProduct, div_eq_inv_mul]

/-- C85: the weighting matrix handed to the optimiser in every pass is positive semidefinite. -/
theorem C85_het_weight [DecidableEq n] (W : Matrix n n ℝ) (u : n → ℝ) (lam : ℝ) (a : (n → ℝ) × (n → ℝ)) :
    SymPSD (vcHetTsls W (A1het W) u lam a) := by
  rw [vcHetTsls_eq]
  exact psd_add (C57_vcHet W u lam) (psd_smul (psiSigma_psd _ _ _ _) _ (by have := N_nonneg (n := n); positivity))

/-- C85: heteroskedastic errors with endogenous variables. -/
theorem C85_het_endog [DecidableEq n] [DecidableEq k] [DecidableEq l]
    {opt : Moments (Fin 2) (Fin 2) → Option (Matrix (Fin 2) (Fin 2) ℝ) → Py ℝ}
    {W : Matrix n n ℝ} {z : Matrix n (k ⊕ Unit) ℝ} {h : Matrix n l ℝ} {y : n → ℝ} {maxIter : ℕ} {epsilon : ℝ}
    {hardBound : Bool} {f : IterFit n (k ⊕ Unit)}
    (hf : gmEndogErrorHet opt W z h y maxIter epsilon hardBound = .ok f) : SymPSD f.vm := by
  unfold gmEndogErrorHet at hf
  obtain ⟨o, ho, hf⟩ := bind_ok hf
  obtain ⟨lam1, h1, hf⟩ := bind_ok hf
  obtain ⟨⟨lst, it⟩, hl, hf⟩ := bind_ok hf
  obtain ⟨s, hs, hf⟩ := bind_ok hf
  split_ifs at hf
  obtain ⟨P, hP, hf⟩ := bind_ok hf
  obtain ⟨vm, hvm, hf⟩ := bind_ok hf
  cases hf
  simp only
  clear hs hl h1 ho hP
  generalize a1a2 W (A1het W) h s.u s.lam P (spFilterM W s.lam z) = a at hvm
  have hpsd := C85_het_weight W s.u s.lam a
  have hpe := vcHetTsls_eq W (A1het W) s.u s.lam a
  have hV := C57_vcHet W s.u s.lam
  unfold omegaGS2SLS at hvm
  simp only at hvm
  obtain ⟨psii, hp, hvm⟩ := bind_ok hvm
  obtain ⟨ji, hji, hvm⟩ := bind_ok hvm
  cases hvm
  obtain ⟨-, -, hp1, -⟩ := invE_ok hp
  set psi := vcHetTsls W (A1het W) s.u s.lam a
  set V := vcHet W (A1het W) (psiSigma W s.u s.lam)
  have hSt : (psiSigma W s.u s.lam)ᵀ = psiSigma W s.u s.lam := diagonal_transpose _
  have hS := fun (M : Matrix n (l ⊕ Fin 2) ℝ) => psiSigma_psd W s.u s.lam M
  set S := psiSigma W s.u s.lam
  clear_value S
  set A := cols2 a.1 a.2
  set J := jac s.moments.G s.lam
  have hpsiis : psiiᵀ = psii := (psd_inv' hpsd hp1).1
  have hO : SymPSD (fromBlocks ((1 / N n) • hᵀ * S * h) ((1 / N n) • hᵀ * S * A) ((1 / N n) • hᵀ * S * A)ᵀ psi) := by
    have e : fromBlocks ((1 / N n) • hᵀ * S * h) ((1 / N n) • hᵀ * S * A) ((1 / N n) • hᵀ * S * A)ᵀ psi
        = (1 / N n) • ((fromCols h A)ᵀ * S * fromCols h A) + fromBlocks 0 0 0 V := by
      rw [transpose_fromCols, fromRows_mul, fromRows_mul_fromCols, fromBlocks_smul, fromBlocks_add, add_zero, add_zero,
        add_zero, hpe, add_comm V]
      congr 1
      · simp only [Matrix.smul_mul]
      · simp only [Matrix.smul_mul]
      · simp only [Matrix.smul_mul, transpose_smul, transpose_mul, transpose_transpose, hSt, Matrix.mul_assoc]
    rw [e]
    exact psd_add (psd_smul (hS _) _ (by have := N_nonneg (n := n); positivity)) (psd_block psd_zero hV)
  have hom : (psii * J) * ji = (ji * (Jᵀ * psii))ᵀ := by
    rw [transpose_mul, transpose_mul, transpose_transpose, hpsiis, unit_symm ji]
  refine psd_smul ?_ _ (by have := N_nonneg (n := n); positivity)
  have := psd_conj hO (fromBlocks Pᵀ 0 0 (ji * (Jᵀ * psii)))
  rw [fromBlocks_transpose, transpose_transpose, transpose_zero, transpose_zero, ← hom, ← Matrix.mul_assoc] at this
  exact this

end Spreg.GM
