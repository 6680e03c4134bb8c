import Verif.Model.GMIter
import Verif.Props.GM
import Verif.Props.TSLS
/-
C48: iterated GM estimators. Every run is a history of passes; the message; runs without a pass.
-/
namespace Spreg.GM
open Matrix Spreg.Lin

variable {n k l : Type} [Fintype n] [Fintype k] [Fintype l]

/-! ### Specification -/

/-- A history of passes: each pass starts from the lambda of the previous one. -/
def Passes {S : Type} (R : ℝ → S → Prop) (newLam : S → ℝ) : ℝ → List S → Prop
  | _, [] => True
  | lam, s :: t => R lam s ∧ Passes R newLam (newLam s) t

/-- The `i`-th lambda of a history (`0`: the starting value). -/
def lamAt {S : Type} (newLam : S → ℝ) (lam0 : ℝ) (hist : List S) (i : ℕ) : ℝ := (lam0 :: hist.map newLam).getD i 0

/-- A run of the iterated estimator: at least one and at most `maxIter` passes; every pass but the last changed lambda
by more than `epsilon`; the run stopped because of the bound or because the last change was at most `epsilon`. -/
structure Run {S : Type} (R : ℝ → S → Prop) (newLam : S → ℝ) (maxIter : ℕ) (epsilon lam0 : ℝ) (hist : List S) : Prop where
  passes : Passes R newLam lam0 hist
  pos : hist ≠ []
  bound : hist.length ≤ maxIter
  going : ∀ i, i + 1 < hist.length → epsilon < |lamAt newLam lam0 hist (i + 1) - lamAt newLam lam0 hist i|
  stop : hist.length = maxIter ∨
    |lamAt newLam lam0 hist hist.length - lamAt newLam lam0 hist (hist.length - 1)| ≤ epsilon

/-- The last change of lambda is at most `epsilon`. -/
def Converged {S : Type} (newLam : S → ℝ) (epsilon lam0 : ℝ) (hist : List S) : Prop :=
  |lamAt newLam lam0 hist hist.length - lamAt newLam lam0 hist (hist.length - 1)| ≤ epsilon

/-- A pass of the estimators without endogenous variables, from `lam`: least squares on filtered data, residuals on the
original data, and the new lambda from the moments `M` of the residuals weighted by `V`. -/
structure OlsPass (opt : Moments (Fin 2) (Fin 2) → Option (Matrix (Fin 2) (Fin 2) ℝ) → Py ℝ)
    (M : (n → ℝ) → Moments (Fin 2) (Fin 2)) (V : ℝ → (n → ℝ) → Matrix (Fin 2) (Fin 2) ℝ)
    (W : Matrix n n ℝ) (x : Matrix n k ℝ) (y : n → ℝ) (lam : ℝ) (s : Step n k) : Prop where
  normal : ∀ j, ∑ i, (x i j - lam * ∑ m, W i m * x m j) * (s.u i - lam * ∑ m, W i m * s.u m) = 0
  resid : ∀ i, s.u i = y i - ∑ j, x i j * s.betas j
  predy : ∀ i, s.predy i = ∑ j, x i j * s.betas j
  moments : s.moments = M s.u
  lam : opt (M s.u) (some (V lam s.u)) = .ok s.lam

/-- A pass of the estimators with endogenous variables: two-stage least squares on filtered data with unfiltered
instruments. `V` also depends on nothing but the residuals and lambda. -/
structure IvPass (opt : Moments (Fin 2) (Fin 2) → Option (Matrix (Fin 2) (Fin 2) ℝ) → Py ℝ)
    (M : (n → ℝ) → Moments (Fin 2) (Fin 2)) (W : Matrix n n ℝ) (z : Matrix n k ℝ) [DecidableEq l] (h : Matrix n l ℝ)
    (y : n → ℝ) (lam : ℝ) (s : Step n k) : Prop where
  foc : ((z - lam • (W * z))ᵀ * h * (hᵀ * h)⁻¹) *ᵥ (hᵀ *ᵥ (s.u - lam • (W *ᵥ s.u))) = 0
  resid : ∀ i, s.u i = y i - ∑ j, z i j * s.betas j
  predy : ∀ i, s.predy i = ∑ j, z i j * s.betas j
  moments : s.moments = M s.u
  lam : ∃ V, opt (M s.u) (some V) = .ok s.lam

/-- A pass in which the last coefficient of the two-stage least squares fit `b` is forced into `[-0.9, 0.9]`. -/
structure ClippedIvPass (opt : Moments (Fin 2) (Fin 2) → Option (Matrix (Fin 2) (Fin 2) ℝ) → Py ℝ)
    (M : (n → ℝ) → Moments (Fin 2) (Fin 2)) (W : Matrix n n ℝ) (z : Matrix n (k ⊕ Unit) ℝ) [DecidableEq l]
    (h : Matrix n l ℝ) (y : n → ℝ) (lam : ℝ) (s : Step n (k ⊕ Unit)) : Prop where
  fit : ∃ b : k ⊕ Unit → ℝ,
    ((z - lam • (W * z))ᵀ * h * (hᵀ * h)⁻¹) *ᵥ (hᵀ *ᵥ ((y - z *ᵥ b) - lam • (W *ᵥ (y - z *ᵥ b)))) = 0 ∧
    (∀ j, s.betas (.inl j) = b (.inl j)) ∧ (|b (.inr ())| ≤ 9 / 10 → s.betas (.inr ()) = b (.inr ())) ∧
    (9 / 10 < b (.inr ()) → s.betas (.inr ()) = 9 / 10) ∧ (b (.inr ()) < -(9 / 10) → s.betas (.inr ()) = -(9 / 10))
  resid : ∀ i, s.u i = y i - ∑ j, z i j * s.betas j
  predy : ∀ i, s.predy i = ∑ j, z i j * s.betas j
  moments : s.moments = M s.u
  lam : ∃ V, opt (M s.u) (some V) = .ok s.lam

/-- The fitted object reports the last pass. -/
structure Reports (W : Matrix n n ℝ) (maxIter : ℕ) (hist : List (Step n k)) (f : IterFit n k) : Prop where
  last : ∃ s, hist.getLast? = some s ∧ f.betas = s.betas ∧ f.lam = s.lam ∧ f.predy = s.predy ∧ f.u = s.u
  filtered : ∀ i, f.eFiltered i = f.u i - f.lam * ∑ m, W i m * f.u m
  iteration : f.iteration = hist.length
  msg : f.iterStop = if hist.length = maxIter then "Maximum number of iterations reached."
    else "Convergence threshold (epsilon) reached."

/-! ### The loop -/

theorem bind_ok {α β : Type} {x : Py α} {f : α → Py β} {b : β} (h : (x >>= f) = .ok b) :
    ∃ a, x = .ok a ∧ f a = .ok b := by
  cases x with
  | error e => cases h
  | ok a => exact ⟨a, rfl, h⟩

theorem lamAt_cons {S : Type} (newLam : S → ℝ) (lam0 : ℝ) (s : S) (t : List S) (i : ℕ) :
    lamAt newLam lam0 (s :: t) (i + 1) = lamAt newLam (newLam s) t i := by simp [lamAt]

theorem lamAt_zero {S : Type} (newLam : S → ℝ) (lam0 : ℝ) (t : List S) : lamAt newLam lam0 t 0 = lam0 := by simp [lamAt]

theorem gmLoop_spec {S : Type} (step : ℝ → Py S) (newLam : S → ℝ) (epsilon : ℝ) (r : ℕ) (lam eps : ℝ) (last l : Option S)
    (it : ℕ) (h : gmLoop step newLam epsilon r lam eps last = .ok (l, it)) :
    ∃ hist, Passes (fun a s => step a = .ok s) newLam lam hist ∧ it = hist.length ∧ hist.length ≤ r ∧
      l = hist.getLast?.or last ∧ (hist = [] → r = 0 ∨ eps ≤ epsilon) ∧
      (∀ i, i + 1 < hist.length → epsilon < |lamAt newLam lam hist (i + 1) - lamAt newLam lam hist i|) ∧
      (hist ≠ [] → hist.length = r ∨
        |lamAt newLam lam hist hist.length - lamAt newLam lam hist (hist.length - 1)| ≤ epsilon) := by
  induction r generalizing lam eps last it with
  | zero =>
    cases h
    exact ⟨[], trivial, rfl, le_rfl, rfl, fun _ => Or.inl rfl, by simp, fun h => absurd rfl h⟩
  | succ r ih =>
    rw [gmLoop] at h
    split_ifs at h with he
    · obtain ⟨s, hs, h⟩ := bind_ok h
      obtain ⟨⟨l', it'⟩, h2, h⟩ := bind_ok h
      cases h
      obtain ⟨hist, p1, p2, p3, p4, p5, p6, p7⟩ := ih _ _ _ _ h2
      refine ⟨s :: hist, ⟨hs, p1⟩, by simp [p2], by simpa using p3, ?_, by simp, ?_, fun _ => ?_⟩
      · rw [p4]
        cases hist with
        | nil => rfl
        | cons a t => simp [List.getLast?_cons_cons, List.getLast?_cons]
      · intro i hi
        cases i with
        | zero =>
          rw [lamAt_cons, lamAt_zero, lamAt_zero]
          have hne : hist ≠ [] := by rintro rfl; simp at hi
          -- the next pass was made, so the change was large
          cases r with
          | zero =>
            have : hist = [] := by
              cases hist with
              | nil => rfl
              | cons a t => simp at p3
            exact absurd this hne
          | succ r =>
            rw [gmLoop] at h2
            by_contra hle
            rw [if_neg hle] at h2
            cases h2
            have : hist = [] := by
              cases hist with
              | nil => rfl
              | cons a t => simp at p2
            exact hne this
        | succ i =>
          rw [lamAt_cons, lamAt_cons]
          exact p6 i (by simpa using hi)
      · cases hist with
        | nil =>
          rcases p5 rfl with h0 | h0
          · left; simp [h0]
          · right
            simpa [lamAt] using h0
        | cons a t =>
          rcases p7 (by simp) with h0 | h0
          · left; simp at h0 ⊢; exact h0
          · right
            simp only [List.length_cons, Nat.add_sub_cancel] at h0 ⊢
            rw [lamAt_cons, lamAt_cons]
            exact h0
    · cases h
      exact ⟨[], trivial, rfl, Nat.zero_le _, rfl, fun _ => Or.inr (not_lt.1 he), by simp, fun h => absurd rfl h⟩

theorem Passes.mono {S : Type} {R R' : ℝ → S → Prop} {newLam : S → ℝ} (hR : ∀ a s, R a s → R' a s) :
    ∀ {lam : ℝ} {hist : List S}, Passes R newLam lam hist → Passes R' newLam lam hist
  | _, [], _ => trivial
  | _, _ :: _, h => ⟨hR _ _ h.1, h.2.mono hR⟩

/-- A run whose last pass is used. -/
theorem gmLoop_run {S : Type} {step : ℝ → Py S} {newLam : S → ℝ} {epsilon : ℝ} {maxIter : ℕ} {lam eps : ℝ}
    {l : Option S} {it : ℕ} {s : S} (h : gmLoop step newLam epsilon maxIter lam eps none = .ok (l, it))
    (hb : bound l = .ok s) {R : ℝ → S → Prop} (hR : ∀ a s, step a = .ok s → R a s) :
    ∃ hist, Run R newLam maxIter epsilon lam hist ∧ it = hist.length ∧ hist.getLast? = some s := by
  obtain ⟨hist, p1, p2, p3, p4, -, p6, p7⟩ := gmLoop_spec step newLam epsilon maxIter lam eps none l it h
  have hl : l = some s := by
    cases l with
    | none => cases hb
    | some s' => cases hb; rfl
  have hlast : hist.getLast? = some s := by
    rw [hl] at p4
    cases hg : hist.getLast? with
    | none => rw [hg] at p4; cases p4
    | some s' => rw [hg] at p4; simpa using p4.symm
  have hne : hist ≠ [] := by rintro rfl; cases hlast
  exact ⟨hist, ⟨p1.mono hR, hne, p3, p6, p7 hne⟩, p2, hlast⟩

/-! ### The passes -/

theorem olsE_ok [DecidableEq k] {x : Matrix n k ℝ} {y : n → ℝ} {o : OLSFit n k} (h : olsE x y = .ok o) :
    ols x y = some o := by
  unfold olsE at h
  cases ho : ols x y with
  | none => rw [ho] at h; cases h
  | some o' => rw [ho] at h; cases h; rfl

theorem tslsE_ok [DecidableEq k] [DecidableEq l] {z : Matrix n k ℝ} {h : Matrix n l ℝ} {y : n → ℝ} {t : TSLSFit n k l}
    (ht : tslsE z h y = .ok t) : tslsZH z h y = some t := by
  unfold tslsE at ht
  cases ho : tslsZH z h y with
  | none => rw [ho] at ht; cases ht
  | some o' => rw [ho] at ht; cases ht; rfl

theorem invE_ok {m : Type} [Fintype m] [DecidableEq m] {A B : Matrix m m ℝ} (h : invE A = .ok B) :
    IsUnit A.det ∧ B = A⁻¹ ∧ A * B = 1 ∧ B * A = 1 := by
  unfold invE at h
  cases hi : inv? A with
  | none => rw [hi] at h; cases h
  | some C => rw [hi] at h; cases h; exact inv?_eq_some hi

theorem spFilter_resid (W : Matrix n n ℝ) (lam : ℝ) (x : Matrix n k ℝ) (y : n → ℝ) (b : k → ℝ) :
    spFilter W lam y - spFilterM W lam x *ᵥ b = spFilter W lam (y - x *ᵥ b) := by
  unfold spFilter spFilterM
  rw [sub_mulVec, smul_mulVec, ← mulVec_mulVec, mulVec_sub, smul_sub]
  abel

theorem ols_pass [DecidableEq k] {W : Matrix n n ℝ} {x : Matrix n k ℝ} {y : n → ℝ} {lam : ℝ} {o : OLSFit n k}
    (h : olsE (spFilterM W lam x) (spFilter W lam y) = .ok o) (j : k) :
    ∑ i, (x i j - lam * ∑ m, W i m * x m j) * ((y - x *ᵥ o.betas) i - lam * ∑ m, W i m * (y - x *ᵥ o.betas) m) = 0 := by
  obtain ⟨hu, rfl⟩ := ols_eq_some (olsE_ok h)
  have := congrFun (normal_eq _ (spFilter W lam y) hu) j
  have hu2 : (olsWith (spFilterM W lam x) (spFilter W lam y) ((spFilterM W lam x)ᵀ * spFilterM W lam x)⁻¹).u
      = spFilter W lam (y - x *ᵥ (olsWith (spFilterM W lam x) (spFilter W lam y)
        ((spFilterM W lam x)ᵀ * spFilterM W lam x)⁻¹).betas) := by
    rw [← spFilter_resid]; rfl
  rw [hu2] at this
  simp only [mulVec, dotProduct, transpose_apply, Pi.zero_apply] at this
  rw [← this]
  refine Finset.sum_congr rfl fun i _ => ?_
  congr 1

/-- C48, heteroskedastic errors without endogenous variables: every successful estimation is a run. -/
theorem C48_het [DecidableEq n] [DecidableEq k]
    {opt : Moments (Fin 2) (Fin 2) → Option (Matrix (Fin 2) (Fin 2) ℝ) → Py ℝ}
    {W : Matrix n n ℝ} {x : Matrix n k ℝ} {y : n → ℝ} {maxIter : ℕ} {epsilon : ℝ} {step1c hardBound : Bool}
    {f : IterFit n k} (h : gmErrorHet opt W x y maxIter epsilon step1c hardBound = .ok f) :
    ∃ lam0 hist, Run (OlsPass opt (moments2eqs (A1het W) W) (fun a u => vcHet W (A1het W) (psiSigma W u a)) W x y)
      Step.lam maxIter epsilon lam0 hist ∧ Reports W maxIter hist f := by
  unfold gmErrorHet at h
  obtain ⟨o, ho, h⟩ := bind_ok h
  obtain ⟨lam1, h1, h⟩ := bind_ok h
  obtain ⟨lam2, h2, h⟩ := bind_ok h
  obtain ⟨⟨l, it⟩, hl, h⟩ := bind_ok h
  obtain ⟨s, hs, h⟩ := bind_ok h
  split_ifs at h
  obtain ⟨vm, hvm, h⟩ := bind_ok h
  cases h
  obtain ⟨hist, hr, rfl, hlast⟩ := gmLoop_run hl hs
    (R := OlsPass opt (moments2eqs (A1het W) W) (fun a u => vcHet W (A1het W) (psiSigma W u a)) W x y) (by
      intro a s h
      unfold hetStep at h
      obtain ⟨o, ho, h⟩ := bind_ok h
      obtain ⟨lam, hlam, h⟩ := bind_ok h
      cases h
      exact ⟨ols_pass ho, fun i => rfl, fun i => rfl, rfl, hlam⟩)
  exact ⟨lam2, hist, hr, ⟨⟨s, hlast, rfl, rfl, rfl, rfl⟩, fun i => rfl, rfl, rfl⟩⟩

/-- C48, homoskedastic errors without endogenous variables. -/
theorem C48_hom [DecidableEq n] [DecidableEq k]
    {opt : Moments (Fin 2) (Fin 2) → Option (Matrix (Fin 2) (Fin 2) ℝ) → Py ℝ}
    {W : Matrix n n ℝ} {x : Matrix n k ℝ} {y : n → ℝ} {maxIter : ℕ} {epsilon : ℝ} {a1 : String}
    {f : IterFit n k} (h : gmErrorHom opt W x y maxIter epsilon a1 = .ok f) :
    ∃ A1, chooseA1 a1 W = .ok A1 ∧ ∃ lam0 hist, Run (OlsPass opt (momentsHom W A1 (A2hom W))
      (fun a u => vcHom A1 (A2hom W) (spFilter W a u) 0 0) W x y) Step.lam maxIter epsilon lam0 hist ∧
      Reports W maxIter hist f := by
  unfold gmErrorHom at h
  obtain ⟨A1, hA, h⟩ := bind_ok h
  obtain ⟨o, ho, h⟩ := bind_ok h
  obtain ⟨lam1, h1, h⟩ := bind_ok h
  obtain ⟨⟨l, it⟩, hl, h⟩ := bind_ok h
  obtain ⟨s, hs, h⟩ := bind_ok h
  obtain ⟨vm, hvm, h⟩ := bind_ok h
  cases h
  obtain ⟨hist, hr, rfl, hlast⟩ := gmLoop_run hl hs
    (R := OlsPass opt (momentsHom W A1 (A2hom W)) (fun a u => vcHom A1 (A2hom W) (spFilter W a u) 0 0) W x y) (by
      intro a s h
      unfold homStep at h
      obtain ⟨o, ho, h⟩ := bind_ok h
      obtain ⟨lam, hlam, h⟩ := bind_ok h
      cases h
      exact ⟨ols_pass ho, fun i => rfl, fun i => rfl, rfl, hlam⟩)
  exact ⟨A1, hA, lam1, hist, hr, ⟨⟨s, hlast, rfl, rfl, rfl, rfl⟩, fun i => rfl, rfl, rfl⟩⟩

theorem iv_foc [DecidableEq k] [DecidableEq l] {W : Matrix n n ℝ} {z : Matrix n k ℝ} {h : Matrix n l ℝ} {y : n → ℝ}
    {lam : ℝ} {t : TSLSFit n k l} (ht : tslsE (spFilterM W lam z) h (spFilter W lam y) = .ok t) :
    ((z - lam • (W * z))ᵀ * h * (hᵀ * h)⁻¹) *ᵥ (hᵀ *ᵥ ((y - z *ᵥ t.betas) - lam • (W *ᵥ (y - z *ᵥ t.betas)))) = 0 := by
  have h1 := tslsZH_foc (tslsE_ok ht)
  obtain ⟨-, -, -, -, -, -, hp, hu⟩ := tslsZH_facts (tslsE_ok ht)
  rw [hu, hp, spFilter_resid] at h1
  exact h1

/-- C48, homoskedastic errors with endogenous variables. -/
theorem C48_hom_endog [DecidableEq n] [DecidableEq k] [DecidableEq l]
    {opt : Moments (Fin 2) (Fin 2) → Option (Matrix (Fin 2) (Fin 2) ℝ) → Py ℝ}
    {W : Matrix n n ℝ} {z : Matrix n k ℝ} {h : Matrix n l ℝ} {y : n → ℝ} {maxIter : ℕ} {epsilon : ℝ} {a1 : String}
    {f : IterFit n k} (hf : gmEndogErrorHom opt W z h y maxIter epsilon a1 = .ok f) :
    ∃ A1, chooseA1 a1 W = .ok A1 ∧ ∃ lam0 hist, Run (IvPass opt (momentsHom W A1 (A2hom W)) W z h y)
      Step.lam maxIter epsilon lam0 hist ∧ Reports W maxIter hist f := by
  unfold gmEndogErrorHom at hf
  obtain ⟨A1, hA, hf⟩ := bind_ok hf
  obtain ⟨o, ho, hf⟩ := bind_ok hf
  obtain ⟨lam1, h1, hf⟩ := bind_ok hf
  obtain ⟨⟨l, it⟩, hl, hf⟩ := bind_ok hf
  obtain ⟨s, hs, hf⟩ := bind_ok hf
  obtain ⟨vm, hvm, hf⟩ := bind_ok hf
  cases hf
  obtain ⟨hist, hr, rfl, hlast⟩ := gmLoop_run hl hs (R := IvPass opt (momentsHom W A1 (A2hom W)) W z h y) (by
      intro a s hst
      unfold homEndogStep at hst
      obtain ⟨o, ho, hst⟩ := bind_ok hst
      obtain ⟨p, hp, hst⟩ := bind_ok hst
      obtain ⟨lam, hlam, hst⟩ := bind_ok hst
      cases hst
      exact ⟨iv_foc ho, fun i => rfl, fun i => rfl, rfl, _, hlam⟩)
  exact ⟨A1, hA, lam1, hist, hr, ⟨⟨s, hlast, rfl, rfl, rfl, rfl⟩, fun i => rfl, rfl, rfl⟩⟩

/-- C48, heteroskedastic errors with endogenous variables. A pass is a two-stage least squares fit on filtered data in
which the last coefficient is then forced into `[-0.9, 0.9]` (see C84): the first-order condition holds for the
coefficients before that, which agree with the reported ones except possibly in the last place. -/
theorem C48_het_endog [DecidableEq n] [DecidableEq k] [DecidableEq l]
    {opt : Moments (Fin 2) (Fin 2) → Option (Matrix (Fin 2) (Fin 2) ℝ) → Py ℝ}
    {W : Matrix n n ℝ} {z : Matrix n (k ⊕ Unit) ℝ} {h : Matrix n l ℝ} {y : n → ℝ} {maxIter : ℕ} {epsilon : ℝ}
    {hardBound : Bool} {f : IterFit n (k ⊕ Unit)}
    (hf : gmEndogErrorHet opt W z h y maxIter epsilon hardBound = .ok f) :
    ∃ lam0 hist, Run (ClippedIvPass opt (moments2eqs (A1het W) W) W z h y)
      Step.lam maxIter epsilon lam0 hist ∧ Reports W maxIter hist f := by
  unfold gmEndogErrorHet at hf
  obtain ⟨o, ho, hf⟩ := bind_ok hf
  obtain ⟨lam1, h1, hf⟩ := bind_ok hf
  obtain ⟨⟨l, it⟩, hl, hf⟩ := bind_ok hf
  obtain ⟨s, hs, hf⟩ := bind_ok hf
  split_ifs at hf
  obtain ⟨P, hP, hf⟩ := bind_ok hf
  obtain ⟨vm, hvm, hf⟩ := bind_ok hf
  cases hf
  obtain ⟨hist, hr, rfl, hlast⟩ := gmLoop_run hl hs (R := ClippedIvPass opt (moments2eqs (A1het W) W) W z h y) (by
      intro a s hst
      unfold hetEndogStep at hst
      obtain ⟨o, ho, hst⟩ := bind_ok hst
      obtain ⟨lam, hlam, hst⟩ := bind_ok hst
      cases hst
      refine ⟨⟨o.betas, iv_foc ho, fun j => rfl, fun hb => if_pos hb, fun hb => ?_, fun hb => ?_⟩, fun i => rfl,
        fun i => rfl, rfl, _, hlam⟩
      · show (if |o.betas (.inr ())| ≤ 9 / 10 then _ else _) = _
        rw [if_neg, if_neg]
        · linarith
        · rw [not_le]; exact lt_of_lt_of_le hb (le_abs_self _)
      · show (if |o.betas (.inr ())| ≤ 9 / 10 then _ else _) = _
        rw [if_neg, if_pos hb]
        rw [not_le]; exact lt_of_lt_of_le (by linarith) (neg_le_abs _))
  exact ⟨lam1, hist, hr, ⟨⟨s, hlast, rfl, rfl, rfl, rfl⟩, fun i => rfl, rfl, rfl⟩⟩

/-! ### The message -/

/-- C48: the message "Convergence threshold (epsilon) reached." is right, and the message about the maximum means that
all `maxIter` passes were made. Missing for the full property: a run that converges in the last allowed pass is reported
as not converged, see `C48_message_violated`. -/
theorem C48_message_partial {S : Type} {R : ℝ → S → Prop} {newLam : S → ℝ} {maxIter : ℕ} {epsilon lam0 : ℝ} {hist : List S}
    (h : Run R newLam maxIter epsilon lam0 hist) :
    (iterMsg hist.length maxIter = "Convergence threshold (epsilon) reached." →
      Converged newLam epsilon lam0 hist ∧ hist.length < maxIter) ∧
    (iterMsg hist.length maxIter = "Maximum number of iterations reached." ↔ hist.length = maxIter) := by
  unfold iterMsg
  constructor
  · intro hm
    split_ifs at hm with he
    · exact absurd hm (by decide)
    · exact ⟨h.stop.resolve_left he, lt_of_le_of_ne h.bound he⟩
  · split_ifs with he
    · simp [he]
    · simp only [he, iff_false]; decide

/-- C48 fails: whenever the change of the `maxIter`-th pass is at most `epsilon`, the run has converged, but the message
is that the maximum number of iterations was reached. With the default `max_iter=1` this is every converged run. -/
theorem C48_message_violated [DecidableEq n] [DecidableEq k]
    {opt : Moments (Fin 2) (Fin 2) → Option (Matrix (Fin 2) (Fin 2) ℝ) → Py ℝ}
    {W : Matrix n n ℝ} {x : Matrix n k ℝ} {y : n → ℝ} {epsilon : ℝ} {step1c hardBound : Bool}
    {f : IterFit n k} (h : gmErrorHet opt W x y 1 epsilon step1c hardBound = .ok f) :
    f.iterStop = "Maximum number of iterations reached." := by
  obtain ⟨lam0, hist, hr, hrep⟩ := C48_het h
  have h1 := hr.bound
  have h2 : 0 < hist.length := List.length_pos_iff.2 hr.pos
  rw [hrep.msg, if_pos (by omega)]

/-- With `epsilon >= 1` or `max_iter = 0` no pass is made. -/
theorem gmLoop_none {S : Type} (step : ℝ → Py S) (newLam : S → ℝ) {maxIter : ℕ} {epsilon : ℝ}
    (he : maxIter = 0 ∨ 1 ≤ epsilon) (lam : ℝ) : gmLoop step newLam epsilon maxIter lam 1 none = .ok (none, 0) := by
  cases maxIter with
  | zero => rfl
  | succ r =>
    rw [gmLoop, if_neg]
    rcases he with h | h
    · omega
    · linarith

/-- C48 fails: with `epsilon >= 1` or `max_iter = 0` no pass is made, and the estimators without endogenous variables
stop with an `UnboundLocalError` whenever the first step succeeds. -/
theorem C48_no_pass_violated [DecidableEq n] [DecidableEq k]
    {opt : Moments (Fin 2) (Fin 2) → Option (Matrix (Fin 2) (Fin 2) ℝ) → Py ℝ}
    {W : Matrix n n ℝ} {x : Matrix n k ℝ} {y : n → ℝ} {maxIter : ℕ} {epsilon : ℝ} (he : maxIter = 0 ∨ 1 ≤ epsilon)
    {o : OLSFit n k} (ho : ols x y = some o) :
    (∀ lam, opt (moments2eqs (A1het W) W o.u) none = .ok lam →
      ∀ hb, gmErrorHet opt W x y maxIter epsilon false hb = .error .unboundLocal) ∧
    (∀ lam, opt (momentsHom W (A1hom W true) (A2hom W) o.u) none = .ok lam →
      gmErrorHom opt W x y maxIter epsilon "hom_sc" = .error .unboundLocal) := by
  have h1 : olsE x y = .ok o := by unfold olsE; rw [ho]
  constructor
  · intro lam hl hb
    unfold gmErrorHet
    rw [h1]
    simp only [bind, Except.bind, hl, step1cLam, Bool.false_eq_true, if_false]
    rw [gmLoop_none _ _ he]
    rfl
  · intro lam hl
    unfold gmErrorHom chooseA1
    rw [h1]
    simp only [bind, Except.bind, hl, show ("hom_sc" = "hom") = False by decide, if_false, if_true]
    rw [gmLoop_none _ _ he]
    rfl

/-- The same with endogenous variables. -/
theorem C48_no_pass_endog_violated [DecidableEq n] [DecidableEq k] [DecidableEq l]
    {opt : Moments (Fin 2) (Fin 2) → Option (Matrix (Fin 2) (Fin 2) ℝ) → Py ℝ}
    {W : Matrix n n ℝ} {z : Matrix n (k ⊕ Unit) ℝ} {h : Matrix n l ℝ} {y : n → ℝ} {maxIter : ℕ} {epsilon : ℝ}
    (he : maxIter = 0 ∨ 1 ≤ epsilon) {t : TSLSFit n (k ⊕ Unit) l} (ht : tslsZH z h y = some t) :
    (∀ lam, opt (moments2eqs (A1het W) W (y - z *ᵥ clipLast t.betas)) none = .ok lam →
      ∀ hb, gmEndogErrorHet opt W z h y maxIter epsilon hb = .error .unboundLocal) ∧
    (∀ lam, opt (momentsHom W (A1hom W true) (A2hom W) t.u) none = .ok lam →
      gmEndogErrorHom opt W z h y maxIter epsilon "hom_sc" = .error .unboundLocal) := by
  have h1 : tslsE z h y = .ok t := by unfold tslsE; rw [ht]
  constructor
  · intro lam hl hb
    unfold gmEndogErrorHet
    rw [h1]
    simp only [bind, Except.bind, hl]
    rw [gmLoop_none _ _ he]
    rfl
  · intro lam hl
    unfold gmEndogErrorHom chooseA1
    rw [h1]
    simp only [bind, Except.bind, hl, show ("hom_sc" = "hom") = False by decide, if_false, if_true]
    rw [gmLoop_none _ _ he]
    rfl

/-! ### A concrete run -/

theorem invE_of_isUnit {m : Type} [Fintype m] [DecidableEq m] {A : Matrix m m ℝ} (h : IsUnit A.det) : invE A = .ok A⁻¹ := by
  unfold invE; rw [inv?_of_isUnit h]

/-- A path of three nodes, a constant and an optimiser that returns 0: one pass, converged, and the message says
otherwise. -/
theorem C48_example : ∃ f, gmErrorHet (fun _ _ => .ok 0) !![0, 1, 0; 1, 0, 1; 0, 1, 0]
    (!![1; 1; 1] : Matrix (Fin 3) (Fin 1) ℝ) ![1, 2, 6] 1 (1 / 100000) false false = .ok f ∧ f.iteration = 1 ∧
    f.betas = ![3] ∧ f.u = ![-2, -1, 3] ∧ f.lam = 0 ∧ f.iterStop = "Maximum number of iterations reached." := by
  set W : Matrix (Fin 3) (Fin 3) ℝ := !![0, 1, 0; 1, 0, 1; 0, 1, 0] with hW
  set x : Matrix (Fin 3) (Fin 1) ℝ := !![1; 1; 1] with hx
  set y : Fin 3 → ℝ := ![1, 2, 6] with hy
  have hxx : xᵀ * x = !![3] := by
    ext i j; fin_cases i; fin_cases j
    simp [hx, mul_apply, Fin.sum_univ_three]; norm_num
  have hd : IsUnit (xᵀ * x).det := by rw [hxx, isUnit_iff_ne_zero]; simp
  have hinv : (xᵀ * x)⁻¹ = !![1/3] := by
    rw [hxx]
    apply inv_eq_right_inv
    ext i j; fin_cases i; fin_cases j
    simp [mul_apply]
  have hF : spFilterM W 0 x = x := by simp [spFilterM]
  have hFy : spFilter W 0 y = y := by simp [spFilter]
  have hxy : xᵀ *ᵥ y = ![9] := by
    ext j; fin_cases j
    simp only [mulVec, dotProduct, transpose_apply, Fin.sum_univ_three]
    simp [hx, hy]; norm_num
  have hb : (olsWith x y (xᵀ * x)⁻¹).betas = ![3] := by
    have : (olsWith x y (xᵀ * x)⁻¹).betas = (xᵀ * x)⁻¹ *ᵥ (xᵀ *ᵥ y) := rfl
    rw [this, hxy, hinv]
    ext j; fin_cases j
    simp [mulVec, dotProduct]; norm_num
  have hu : y - x *ᵥ ![3] = ![-2, -1, 3] := by
    ext i; fin_cases i <;> simp [hx, hy, mulVec, dotProduct] <;> norm_num
  have ho : olsE x y = .ok (olsWith x y (xᵀ * x)⁻¹) := by
    unfold olsE; rw [ols_of_isUnit _ _ hd]
  set u : Fin 3 → ℝ := ![-2, -1, 3] with hudef
  set M := moments2eqs (A1het W) W u with hM
  have hstep : hetStep (fun _ _ => .ok 0) W x y 0 = .ok ⟨![3], x *ᵥ ![3], u, M, 0⟩ := by
    unfold hetStep
    rw [hF, hFy, ho]
    simp only [bind, Except.bind, hb, hu, pure, Except.pure]
    rfl
  have hW2 : A1het W = !![0, 0, 1; 0, 0, 0; 1, 0, 0] := by
    unfold A1het
    ext i j
    fin_cases i <;> fin_cases j <;>
      simp [hW, mul_apply, Fin.sum_univ_three, Matrix.diagonal]
  have hsig : psiSigma W u 0 = !![4, 0, 0; 0, 1, 0; 0, 0, 9] := by
    unfold psiSigma
    ext i j; fin_cases i <;> fin_cases j <;> simp [hudef, Matrix.diagonal] <;> norm_num
  have hpsi : vcHet W (A1het W) (psiSigma W u 0) = !![48, 0; 0, 52/3] := by
    rw [hW2, hsig]
    ext i j
    fin_cases i <;> fin_cases j <;>
      simp [vcHet, hW, mul_apply, Fin.sum_univ_three, Matrix.diagonal, N] <;> norm_num
  have hG : jac M.G 0 = Matrix.of fun i (_ : Unit) => ![-2/3, 2] i := by
    simp only [hM, jac, moments2eqs, hW2]
    ext i j
    fin_cases i <;> fin_cases j <;>
      simp [hW, hudef, mul_apply, mulVec, dotProduct, Fin.sum_univ_three, Fin.sum_univ_two, N] <;> norm_num
  have hpd : IsUnit (!![48, 0; 0, 52/3] : Matrix (Fin 2) (Fin 2) ℝ).det := by
    rw [isUnit_iff_ne_zero]; simp [det_fin_two]
  have hpi : (!![48, 0; 0, 52/3] : Matrix (Fin 2) (Fin 2) ℝ)⁻¹ = !![1/48, 0; 0, 3/52] := by
    apply inv_eq_right_inv
    ext i j
    fin_cases i <;> fin_cases j <;> simp [mul_apply, Fin.sum_univ_two] <;> norm_num
  have hjd : IsUnit ((Matrix.of fun i (_ : Unit) => (![-2/3, 2] : Fin 2 → ℝ) i)ᵀ *
      (!![1/48, 0; 0, 3/52] : Matrix (Fin 2) (Fin 2) ℝ) * (Matrix.of fun i (_ : Unit) => (![-2/3, 2] : Fin 2 → ℝ) i)).det := by
    rw [isUnit_iff_ne_zero]
    simp [mul_apply, transpose_apply, Fin.sum_univ_two]; norm_num
  have hvm : ∃ vm, vmHet M.G 0 x u W (vcHet W (A1het W) (psiSigma W u 0)) = .ok vm := by
    unfold vmHet
    rw [hF, hG, hpsi]
    simp only
    rw [invE_of_isUnit hd, invE_of_isUnit hpd, hpi]
    simp only [bind, Except.bind]
    rw [invE_of_isUnit hjd]
    exact ⟨_, rfl⟩
  obtain ⟨vm, hvm⟩ := hvm
  refine ⟨⟨![3], 0, x *ᵥ ![3], u, u - (0 : ℝ) • (W *ᵥ u), vm, 1, iterMsg 1 1⟩, ?_, rfl, rfl, rfl, rfl, rfl⟩
  unfold gmErrorHet
  rw [ho]
  simp only [bind, Except.bind, step1cLam, Bool.false_eq_true, if_false, gmLoop, hstep]
  rw [if_pos (by norm_num)]
  simp only [pure, Except.pure, bound, false_and, if_false]
  rw [hvm]

end Spreg.GM
