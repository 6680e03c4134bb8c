import Verif.Model.GMRegimes
import Verif.Props.GMIter2
import Verif.Props.GMEquiv3
import Mathlib.Data.Fin.VecNotation
import Mathlib.Tactic.FieldSimp
/-
C144, C145: the joint branch of the regime versions of the GM error models.
-/
namespace Spreg.GM
open Matrix Spreg.Lin

variable {n k l ρ c : Type} [Fintype n] [Fintype k] [Fintype l] [Fintype ρ] [Fintype c]

/-! ### Filtering and framing -/

/-- No weight links observations of different regimes. -/
def NoLinks (g : n → ρ) (W : Matrix n n ℝ) : Prop := ∀ i j, g i ≠ g j → W i j = 0

omit [Fintype k] [Fintype ρ] in
theorem frame_filter [DecidableEq ρ] (g : n → ρ) (vary : k → Bool) (W : Matrix n n ℝ) (lam : ℝ) (x : Matrix n k ℝ)
    (h : (∀ j, vary j = false) ∨ NoLinks g W) :
    frame g vary (spFilterM W lam x) = spFilterM W lam (frame g vary x) := by
  ext i j
  rcases j with ⟨⟨v, hv⟩, r⟩ | ⟨v, hv⟩
  · rcases h with h | h
    · rw [h v] at hv; cases hv
    · simp only [frame, spFilterM, of_apply, Matrix.sub_apply, Matrix.smul_apply, smul_eq_mul, mul_apply]
      by_cases hr : g i = r
      · rw [if_pos hr, if_pos hr]
        congr 2
        refine Finset.sum_congr rfl fun m _ => ?_
        by_cases hm : g m = r
        · rw [if_pos hm]
        · rw [if_neg hm, h i m (by rw [hr]; exact fun e => hm e.symm)]; ring
      · rw [if_neg hr, if_neg hr]
        have : ∑ m, W i m * (if g m = r then x m v else 0) = 0 := by
          refine Finset.sum_eq_zero fun m _ => ?_
          by_cases hm : g m = r
          · rw [if_pos hm, h i m (by rw [hm]; exact hr)]; ring
          · rw [if_neg hm]; ring
        rw [this]; ring
  · rfl

omit [Fintype k] [Fintype ρ] in
/-- C144, the two orders: filtering the framed regressors is framing the filtered ones, for all regressors, exactly if lambda is
zero, no variable varies, or no weight crosses a border between regimes. -/
theorem C144_order_iff [DecidableEq ρ] (g : n → ρ) (vary : k → Bool) (W : Matrix n n ℝ) (lam : ℝ) :
    (∀ x, frame g vary (spFilterM W lam x) = spFilterM W lam (frame g vary x)) ↔
      lam = 0 ∨ (∀ j, vary j = false) ∨ NoLinks g W := by
  classical
  constructor
  · intro h
    by_contra hc
    simp only [NoLinks] at hc
    push Not at hc
    obtain ⟨h0, ⟨v, hv⟩, i, m, hg, hw⟩ := hc
    have hv' : vary v = true := by simpa using hv
    have := congrFun (congrFun (h (Matrix.of fun a _ => if a = m then 1 else 0)) i) (.inl (⟨v, hv'⟩, g m))
    simp only [frame, spFilterM, of_apply, Matrix.sub_apply, Matrix.smul_apply, smul_eq_mul, mul_apply, if_neg hg] at this
    have e : ∑ a, W i a * (if g a = g m then (if a = m then (1 : ℝ) else 0) else 0) = W i m := by
      rw [Finset.sum_eq_single m]
      · simp
      · intro b _ hb; simp [hb]
      · simp
    rw [e] at this
    have : lam * W i m = 0 := by linarith
    rcases mul_eq_zero.1 this with h | h
    · exact h0 h
    · exact hw h
  · rintro (h | h)
    · intro x
      subst h
      have : ∀ {κ : Type} (A : Matrix n κ ℝ), spFilterM W 0 A = A := fun A => by simp [spFilterM]
      rw [this, this]
    · exact fun x => frame_filter g vary W lam x h

/-! ### Where the orders agree the models are the plain ones with the regime design -/

/-- What the plain model returns, with its exception. -/
def ofOpt {α : Type} (o : Option α) : Py α :=
  match o with
  | some a => .ok a
  | none => .error .linAlgError

theorem olsE_ofOpt [DecidableEq k] (x : Matrix n k ℝ) (y : n → ℝ) : olsE x y = ofOpt (ols x y) := by
  unfold olsE ofOpt; cases ols x y <;> rfl

section
variable [DecidableEq ρ] [DecidableEq k] [DecidableEq l] {g : n → ρ} {vary : k → Bool} {W : Matrix n n ℝ}

/-- C144, `GM_Error_Regimes`: without links between regimes (or without varying variables) the joint model is `GM_Error` with the
regime design. -/
theorem C144_error_partial (h : (∀ j, vary j = false) ∨ NoLinks g W) (opt : Moments (Fin 3) (Fin 3) → ℝ) (x : Matrix n k ℝ)
    (y : n → ℝ) : gmErrorRegimes (fun M => .ok (opt M)) (frame g vary) W x y = ofOpt (gmError opt W (frame g vary x) y) := by
  unfold gmErrorRegimes gmError
  rw [olsE_ofOpt]
  rcases Lin.ols (frame g vary x) y with _ | o
  · rw [Option.bind_none]; rfl
  rw [Option.bind_some]
  show (olsE (frame g vary (spFilterM W (opt (momentsGM W o.u)) x)) _ >>= _) = _
  dsimp only
  generalize opt (momentsGM W o.u) = lam
  rw [frame_filter g vary W lam x h, olsE_ofOpt]
  rcases Lin.ols (spFilterM W lam (frame g vary x)) (spFilter W lam y) with _ | o2
  · rw [Option.map_none]; rfl
  · rw [Option.map_some, smul_mulVec]; rfl

/-- C144, `GM_Endog_Error_Regimes` and `GM_Combo_Regimes`. -/
theorem C144_endog_partial (h : (∀ j, vary j = false) ∨ NoLinks g W) (opt : Moments (Fin 3) (Fin 3) → Py ℝ) (z : Matrix n k ℝ)
    (hh : Matrix n l ℝ) (y : n → ℝ) :
    gmEndogErrorRegimes opt (frame g vary) W z hh y = gmEndogError opt W (frame g vary z) hh y := by
  unfold gmEndogErrorRegimes gmEndogError
  simp only [frame_filter g vary W _ z h, smul_mulVec]

/-- C144, `GM_Error_Het_Regimes`. -/
theorem C144_het_partial [DecidableEq n] (h : (∀ j, vary j = false) ∨ NoLinks g W)
    (opt : Moments (Fin 2) (Fin 2) → Option (Matrix (Fin 2) (Fin 2) ℝ) → Py ℝ) (x : Matrix n k ℝ) (y : n → ℝ)
    (maxIter : ℕ) (epsilon : ℝ) (step1c : Bool) :
    gmErrorHetRegimes opt (frame g vary) W x y maxIter epsilon step1c =
      gmErrorHet opt W (frame g vary x) y maxIter epsilon step1c false := by
  have hs : hetStepR opt (frame g vary) W x y = hetStep opt W (frame g vary x) y := by
    funext lam
    unfold hetStepR hetStep
    rw [frame_filter g vary W _ x h]
  unfold gmErrorHetRegimes gmErrorHet
  rw [hs]
  simp

omit [DecidableEq ρ] [DecidableEq k] [Fintype k] [Fintype ρ] [Fintype n] in
theorem gmLoop_one {S : Type} (f f' : ℝ → Py S) (newLam : S → ℝ) (epsilon lam : ℝ) {r : ℕ} (hr : r ≤ 1) (he : f lam = f' lam)
    (eps : ℝ) : gmLoop f newLam epsilon r lam eps none = gmLoop f' newLam epsilon r lam eps none := by
  have h1 : ∀ (f : ℝ → Py S) (a b : ℝ) (s : Option S), gmLoop f newLam epsilon 0 a b s = .ok (s, 0) := fun f a b s => rfl
  rcases Nat.le_one_iff_eq_zero_or_eq_one.1 hr with rfl | rfl
  · rfl
  · show (if epsilon < eps then _ else _) = (if epsilon < eps then _ else _)
    rw [he]
    simp only [h1]

/-- C144, `GM_Error_Hom_Regimes` with at most one pass (the default; for more passes see C145). -/
theorem C144_hom_partial [DecidableEq n] (h : (∀ j, vary j = false) ∨ NoLinks g W)
    (opt : Moments (Fin 2) (Fin 2) → Option (Matrix (Fin 2) (Fin 2) ℝ) → Py ℝ) (x : Matrix n k ℝ) (y : n → ℝ)
    {maxIter : ℕ} (hm : maxIter ≤ 1) (epsilon : ℝ) (a1 : String) :
    gmErrorHomRegimes opt (frame g vary) W x y maxIter epsilon a1 = gmErrorHom opt W (frame g vary x) y maxIter epsilon a1 := by
  have hs : ∀ A1 A2 lam, homStepR opt (frame g vary) W A1 A2 x y lam lam = homStep opt W A1 A2 (frame g vary x) y lam := by
    intro A1 A2 lam
    unfold homStepR homStep
    rw [frame_filter g vary W _ x h]
  unfold gmErrorHomRegimes gmErrorHom
  simp only [fun A1 A2 lam => gmLoop_one _ _ Step.lam epsilon lam hm (hs A1 A2 lam) 1]

/-- C144, `GM_Endog_Error_Hom_Regimes` and `GM_Combo_Hom_Regimes` with at most one pass. -/
theorem C144_hom_endog_partial [DecidableEq n] (h : (∀ j, vary j = false) ∨ NoLinks g W)
    (opt : Moments (Fin 2) (Fin 2) → Option (Matrix (Fin 2) (Fin 2) ℝ) → Py ℝ) (z : Matrix n k ℝ) (hh : Matrix n l ℝ) (y : n → ℝ)
    {maxIter : ℕ} (hm : maxIter ≤ 1) (epsilon : ℝ) (a1 : String) :
    gmEndogErrorHomRegimes opt (frame g vary) W z hh y maxIter epsilon a1 =
      gmEndogErrorHom opt W (frame g vary z) hh y maxIter epsilon a1 := by
  have hs : ∀ A1 A2 lam, homEndogStepR opt (frame g vary) W A1 A2 z hh y lam lam =
      homEndogStep opt W A1 A2 (frame g vary z) hh y lam := by
    intro A1 A2 lam
    unfold homEndogStepR homEndogStep
    rw [frame_filter g vary W _ z h]
  unfold gmEndogErrorHomRegimes gmEndogErrorHom
  simp only [fun A1 A2 lam => gmLoop_one _ _ Step.lam epsilon lam hm (hs A1 A2 lam) 1]

end

/-! ### Where they do not -/

section
variable [DecidableEq c]

theorem olsE_shift (x : Matrix n c ℝ) (y : n → ℝ) (d : c → ℝ) :
    olsE x (y + x *ᵥ d) = (olsE x y).map fun o => { o with betas := o.betas + d, predy := o.predy + x *ᵥ d } := by
  let t : Tr n n c := ⟨Equiv.refl n, 1, 1, 1, d, by simp, by simp, one_ne_zero⟩
  have h := t.olsE x y
  have hx : t.x x = x := by simp [Tr.x, t]
  have hy : t.y x y = y + x *ᵥ d := by funext i; simp [Tr.y, t]
  rw [hx, hy] at h
  rw [h]
  congr 1
  funext o
  rcases o with ⟨a, b, e, p, u⟩
  simp only [Tr.ols, OLSFit.mk.injEq]
  refine ⟨by simp [t], by simp [t], by simp [Tr.b, t], ?_, ?_⟩
  · funext i; simp [Tr.y, t]
  · funext i; simp [Tr.u, t]

theorem olsE_betas {x : Matrix n c ℝ} {y : n → ℝ} {o : OLSFit n c} (h : olsE x y = .ok o) :
    o.betas = (xᵀ * x)⁻¹ *ᵥ (xᵀ *ᵥ y) := by
  obtain ⟨-, rfl⟩ := ols_eq_some (olsE_ok h)
  rfl

/-- C144, what a change of the dependent variable by a combination `F x d` of the regressors does to the estimates of
`GM_Error_Regimes`: lambda does not change, and the coefficients change by the regression of the filtered `F x d` on the framed
filtered regressors - not by `d`. -/
theorem C144_shift {opt : Moments (Fin 3) (Fin 3) → Py ℝ} {F : Matrix n k ℝ → Matrix n c ℝ} {W : Matrix n n ℝ}
    {x : Matrix n k ℝ} {y : n → ℝ} (d : c → ℝ) {f f' : GMErrorFit n c} (h : gmErrorRegimes opt F W x y = .ok f)
    (h' : gmErrorRegimes opt F W x (y + F x *ᵥ d) = .ok f') :
    f'.lam = f.lam ∧ IsUnit ((F (spFilterM W f.lam x))ᵀ * F (spFilterM W f.lam x)).det ∧ f'.betas = f.betas + ((F (spFilterM W f.lam x))ᵀ * F (spFilterM W f.lam x))⁻¹ *ᵥ
      ((F (spFilterM W f.lam x))ᵀ *ᵥ (spFilterM W f.lam (F x) *ᵥ d)) := by
  unfold gmErrorRegimes at h h'
  rw [olsE_shift] at h'
  obtain ⟨o, ho, h⟩ := bind_ok h
  obtain ⟨lam, hl, h⟩ := bind_ok h
  obtain ⟨o2, ho2, h⟩ := bind_ok h
  cases h
  obtain ⟨o', ho', h'⟩ := bind_ok h'
  rw [ho] at ho'
  cases ho'
  obtain ⟨lam', hl', h'⟩ := bind_ok h'
  have : lam' = lam := by
    have : Except.ok lam' = (Except.ok lam : Py ℝ) := hl'.symm.trans hl
    cases this; rfl
  subst this
  obtain ⟨o2', ho2', h'⟩ := bind_ok h'
  cases h'
  refine ⟨rfl, (ols_eq_some (olsE_ok ho2)).1, ?_⟩
  show o2'.betas = o2.betas + _
  rw [olsE_betas ho2, olsE_betas ho2', ← mulVec_add, ← mulVec_add]
  congr 2
  show spFilter W lam' (y + F x *ᵥ d) = spFilter W lam' y + spFilterM W lam' (F x) *ᵥ d
  unfold spFilter spFilterM
  rw [mulVec_add, smul_add, sub_mulVec, smul_mulVec, ← mulVec_mulVec]
  abel

end

omit [Fintype n] in
theorem frame_mulVec_all [DecidableEq ρ] (g : n → ρ) (x : Matrix n k ℝ) (b : RCol (fun _ : k => true) ρ → ℝ) (i : n) :
    (frame g (fun _ => true) x *ᵥ b) i = ∑ j, x i j * b (.inl (⟨j, rfl⟩, g i)) := by
  simp only [mulVec, dotProduct, Fintype.sum_sum_type, Fintype.sum_prod_type]
  rw [show ∑ v : {j : k // true = false}, frame g (fun _ => true) x i (.inr v) * b (.inr v) = 0 from
    Finset.sum_eq_zero fun v _ => by cases v.2]
  refine (add_zero _).trans ?_
  refine Fintype.sum_equiv (Equiv.subtypeUnivEquiv fun _ => rfl) _ _ fun v => ?_
  rw [Finset.sum_eq_single (g i)]
  · simp [frame]
  · intro r _ hr
    simp [frame, hr.symm]
  · simp

/-- Four observations in a row, the first two in regime 0, the others in regime 1; every observation is linked to its neighbours,
row-standardised. -/
noncomputable def wRow4 : Matrix (Fin 4) (Fin 4) ℝ := !![0, 1, 0, 0; 1 / 2, 0, 1 / 2, 0; 0, 1 / 2, 0, 1 / 2; 0, 0, 1, 0]
def gRow4 : Fin 4 → Fin 2 := ![0, 0, 1, 1]

/-- The coefficient of the constant in regime `r`. -/
def cst (r : Fin 2) : RCol (fun _ : Unit => true) (Fin 2) := .inl (⟨(), rfl⟩, r)

/-- C144, violation: in a model with one constant per regime, whatever the data and the optimiser, let the estimate of lambda be
different from zero. Add 1 to the dependent variable in regime 1 and nothing in regime 0. The estimate of lambda is the same, but
the constant of regime 0 changes by `-lam / (4 (1 - lam))` and that of regime 1 by `(4 - 3 lam) / (4 (1 - lam))`. -/
theorem C144_violated {opt : Moments (Fin 3) (Fin 3) → Py ℝ} {y : Fin 4 → ℝ} {f f' : GMErrorFit (Fin 4) _}
    (h : gmErrorRegimes opt (frame gRow4 fun _ : Unit => true) wRow4 (Matrix.of fun _ _ => 1) y = .ok f)
    (h' : gmErrorRegimes opt (frame gRow4 fun _ : Unit => true) wRow4 (Matrix.of fun _ _ => 1)
      (fun i => y i + if gRow4 i = 1 then 1 else 0) = .ok f') (hl : f.lam ≠ 0) :
    f'.lam = f.lam ∧ f.lam ≠ 1 ∧ f'.betas (cst 0) = f.betas (cst 0) - f.lam / (4 * (1 - f.lam)) ∧
      f'.betas (cst 1) = f.betas (cst 1) + (4 - 3 * f.lam) / (4 * (1 - f.lam)) ∧ f'.betas (cst 0) ≠ f.betas (cst 0) := by
  set x : Matrix (Fin 4) Unit ℝ := Matrix.of fun _ _ => 1 with hx
  set d : RCol (fun _ : Unit => true) (Fin 2) → ℝ := fun j => match j with
    | .inl (_, r) => if r = 1 then 1 else 0
    | .inr _ => 0 with hd
  have hy : (fun i => y i + if gRow4 i = 1 then 1 else 0) = y + frame gRow4 (fun _ : Unit => true) x *ᵥ d := by
    funext i
    rw [Pi.add_apply, frame_mulVec_all]
    simp [hx, hd]
  rw [hy] at h'
  obtain ⟨e1, hu, e2⟩ := C144_shift d h h'
  generalize f.lam = lam at *
  set X := frame gRow4 (fun _ : Unit => true) (spFilterM wRow4 lam x) with hX
  have hxs : ∀ i j, spFilterM wRow4 lam x i j = 1 - lam := by
    intro i j
    simp only [spFilterM, Matrix.sub_apply, Matrix.smul_apply, mul_apply, smul_eq_mul, hx, of_apply, Fin.sum_univ_four, wRow4]
    fin_cases i <;> simp <;> ring
  set δ := f'.betas - f.betas with hδ
  have hn : Xᵀ *ᵥ (X *ᵥ δ) = Xᵀ *ᵥ (spFilterM wRow4 lam (frame gRow4 (fun _ : Unit => true) x) *ᵥ d) := by
    have : δ = (Xᵀ * X)⁻¹ *ᵥ (Xᵀ *ᵥ (spFilterM wRow4 lam (frame gRow4 (fun _ : Unit => true) x) *ᵥ d)) := by
      rw [hδ, e2]; abel
    rw [mulVec_mulVec, this, mulVec_mulVec, Matrix.mul_nonsing_inv _ hu, one_mulVec]
  have hXδ : ∀ i, (X *ᵥ δ) i = (1 - lam) * δ (cst (gRow4 i)) := by
    intro i
    rw [hX, frame_mulVec_all]
    simp [hxs, cst]
  have hfd : ∀ i, (spFilterM wRow4 lam (frame gRow4 (fun _ : Unit => true) x) *ᵥ d) i =
      ![0, -lam / 2, 1 - lam / 2, 1 - lam] i := by
    intro i
    have e : spFilterM wRow4 lam (frame gRow4 (fun _ : Unit => true) x) *ᵥ d =
        frame gRow4 (fun _ : Unit => true) x *ᵥ d - lam • (wRow4 *ᵥ (frame gRow4 (fun _ : Unit => true) x *ᵥ d)) := by
      unfold spFilterM
      rw [sub_mulVec, smul_mulVec, ← mulVec_mulVec]
    have e' : frame gRow4 (fun _ : Unit => true) x *ᵥ d = ![0, 0, 1, 1] := by
      funext i
      rw [frame_mulVec_all]
      fin_cases i <;> simp [hx, hd, gRow4]
    rw [e, e']
    fin_cases i <;> simp [wRow4, mulVec, dotProduct, Fin.sum_univ_four] <;> ring
  have hcol : ∀ r (v : Fin 4 → ℝ), (Xᵀ *ᵥ v) (cst r) = ∑ i, (if gRow4 i = r then (1 - lam) * v i else 0) := by
    intro r v
    simp only [mulVec, dotProduct, transpose_apply]
    refine Finset.sum_congr rfl fun i _ => ?_
    simp only [hX, cst, frame, of_apply, hxs]
    by_cases hg : gRow4 i = r <;> simp [hg]
  have h0 := congrFun hn (cst 0)
  have h1 := congrFun hn (cst 1)
  rw [hcol, hcol] at h0 h1
  simp only [hXδ, hfd, Fin.sum_univ_four] at h0 h1
  simp [gRow4] at h0 h1
  have hl1 : lam ≠ 1 := by
    rintro rfl
    have hX0 : X = 0 := by
      ext i j
      rcases j with ⟨v, r⟩ | v
      · simp [hX, frame, hxs]
      · cases v.2
    rw [hX0] at hu
    have : (0 : Matrix (RCol (fun _ : Unit => true) (Fin 2)) (RCol (fun _ : Unit => true) (Fin 2)) ℝ).det = 0 :=
      haveI : Nonempty (RCol (fun _ : Unit => true) (Fin 2)) := ⟨cst 0⟩
      det_zero
    simp only [Matrix.mul_zero, this, isUnit_zero_iff, zero_ne_one] at hu
  have hd1 : 1 - lam ≠ 0 := sub_ne_zero.2 hl1.symm
  have b0 : δ (cst 0) = -lam / (4 * (1 - lam)) := by
    have : (1 - lam) * (δ (cst 0) * (4 * (1 - lam)) + lam) = 0 := by linear_combination 2 * h0
    rcases mul_eq_zero.1 this with h | h
    · exact absurd h hd1
    · rw [eq_div_iff (by simpa using hd1)]; linarith
  have b1 : δ (cst 1) = (4 - 3 * lam) / (4 * (1 - lam)) := by
    have : (1 - lam) * (δ (cst 1) * (4 * (1 - lam)) - (4 - 3 * lam)) = 0 := by linear_combination 2 * h1
    rcases mul_eq_zero.1 this with h | h
    · exact absurd h hd1
    · rw [eq_div_iff (by simpa using hd1)]; linarith
  rw [hδ, Pi.sub_apply] at b0 b1
  refine ⟨e1, hl1, by rw [← sub_eq_iff_eq_add']at *; linarith [b0, neg_div (4 * (1 - lam)) lam], by linarith, fun e => ?_⟩
  rw [e, sub_self] at b0
  have := div_ne_zero (neg_ne_zero.2 hl) (mul_ne_zero four_ne_zero hd1)
  exact this b0.symm

/-- The hypotheses of `C144_violated` are met by every dependent variable, with an optimiser that returns 1/2. -/
theorem C144_example (y : Fin 4 → ℝ) : ∃ f, gmErrorRegimes (fun _ => .ok (1 / 2)) (frame gRow4 fun _ : Unit => true) wRow4
    (Matrix.of fun _ _ => 1) y = .ok f ∧ f.lam = 1 / 2 := by
  have hu : ∀ a : ℝ, a ≠ 0 → ∀ (x : Matrix (Fin 4) Unit ℝ), (∀ i j, x i j = a) → ∀ y, ∃ o,
      olsE (frame gRow4 (fun _ : Unit => true) x) y = .ok o := by
    intro a ha x hx y
    have hi : IsUnit ((frame gRow4 (fun _ : Unit => true) x)ᵀ * frame gRow4 (fun _ : Unit => true) x).det := by
      rw [xtx_isUnit_iff]
      intro b hb
      funext j
      rcases j with ⟨v, r⟩ | v
      · have hr : ∃ i, gRow4 i = r := by fin_cases r; exacts [⟨0, rfl⟩, ⟨2, rfl⟩]
        obtain ⟨i, rfl⟩ := hr
        have := congrFun hb i
        rw [frame_mulVec_all] at this
        simpa [hx, ha] using this
      · cases v.2
    exact ⟨_, by rw [olsE_ofOpt, ols_of_isUnit _ _ hi]; rfl⟩
  have hxs : ∀ i (j : Unit), spFilterM wRow4 (1 / 2) (Matrix.of fun _ _ => 1) i j = 1 / 2 := by
    intro i j
    simp only [spFilterM, Matrix.sub_apply, Matrix.smul_apply, mul_apply, smul_eq_mul, of_apply, Fin.sum_univ_four, wRow4]
    fin_cases i <;> simp <;> norm_num
  obtain ⟨o, ho⟩ := hu 1 one_ne_zero (Matrix.of fun _ _ => 1) (fun _ _ => rfl) y
  obtain ⟨o2, ho2⟩ := hu (1 / 2) (by norm_num) _ hxs (spFilter wRow4 (1 / 2) y)
  unfold gmErrorRegimes
  rw [ho]
  show ∃ f, (olsE (frame gRow4 (fun _ : Unit => true) (spFilterM wRow4 (1 / 2) (Matrix.of fun _ _ => 1)))
    (spFilter wRow4 (1 / 2) y) >>= _) = .ok f ∧ _
  rw [ho2]
  exact ⟨_, rfl, rfl⟩

/-! ### More than one pass -/

/-- All passes of a loop leave the same coefficients, predictions and residuals if each single pass does. -/
theorem gmLoop_fixed {step : ℝ → Py (Step n c)} {epsilon lam eps : ℝ} {maxIter it : ℕ} {l : Option (Step n c)} {s : Step n c}
    (h : gmLoop step Step.lam epsilon maxIter lam eps none = .ok (l, it)) (hb : bound l = .ok s)
    {P : Step n c → Prop} (hP : ∀ a s, step a = .ok s → P s) : P s := by
  obtain ⟨hist, hr, -, hl⟩ := gmLoop_run h hb (R := fun _ s => P s) hP
  have : ∀ (hist : List (Step n c)) (a : ℝ), Passes (fun _ s => P s) Step.lam a hist → hist.getLast? = some s → P s := by
    intro hist
    induction hist with
    | nil => intro a _ h; cases h
    | cons t r ih =>
      intro a hp h
      cases r with
      | nil => cases h; exact hp.1
      | cons t' r' => exact ih _ hp.2 (by rw [List.getLast?_cons_cons] at h; exact h)
  exact this hist lam hr.passes hl

section
variable [DecidableEq n] [DecidableEq c] [DecidableEq l] {opt : Moments (Fin 2) (Fin 2) → Option (Matrix (Fin 2) (Fin 2) ℝ) → Py ℝ}
  {F : Matrix n k ℝ → Matrix n c ℝ} {W : Matrix n n ℝ} {x : Matrix n k ℝ} {y : n → ℝ} {hh : Matrix n l ℝ}

/-- C145, violation in `GM_Error_Hom_Regimes`: whatever the bound on the number of passes and the tolerance, the coefficients,
predictions and residuals are those of the first pass. -/
theorem C145_hom_violated {a1 : String} {m m' : ℕ} {e e' : ℝ} {f f' : IterFit n c}
    (h : gmErrorHomRegimes opt F W x y m e a1 = .ok f) (h' : gmErrorHomRegimes opt F W x y m' e' a1 = .ok f') :
    f'.betas = f.betas ∧ f'.predy = f.predy ∧ f'.u = f.u := by
  unfold gmErrorHomRegimes at h h'
  obtain ⟨A1, hA, h⟩ := bind_ok h
  obtain ⟨o, ho, h⟩ := bind_ok h
  obtain ⟨lam1, h1, h⟩ := bind_ok h
  obtain ⟨⟨l, it⟩, hl, h⟩ := bind_ok h
  obtain ⟨s, hs, h⟩ := bind_ok h
  obtain ⟨vm, hvm, h⟩ := bind_ok h
  cases h
  obtain ⟨A1', hA', h'⟩ := bind_ok h'
  rw [hA] at hA'; cases hA'
  obtain ⟨o', ho', h'⟩ := bind_ok h'
  rw [ho] at ho'; cases ho'
  obtain ⟨lam1', h1', h'⟩ := bind_ok h'
  rw [h1] at h1'; cases h1'
  obtain ⟨⟨l', it'⟩, hl', h'⟩ := bind_ok h'
  obtain ⟨s', hs', h'⟩ := bind_ok h'
  obtain ⟨vm', hvm', h'⟩ := bind_ok h'
  cases h'
  have key : ∀ a t, homStepR opt F W A1 (A2hom W) x y lam1 a = .ok t → ∃ o2 : OLSFit n c,
      olsE (F (spFilterM W lam1 x)) (spFilter W lam1 y) = .ok o2 ∧ t.betas = o2.betas ∧ t.predy = F x *ᵥ o2.betas ∧
      t.u = y - F x *ᵥ o2.betas := by
    intro a t ht
    unfold homStepR at ht
    obtain ⟨o2, ho2, ht⟩ := bind_ok ht
    obtain ⟨lam, hlam, ht⟩ := bind_ok ht
    cases ht
    exact ⟨o2, ho2, rfl, rfl, rfl⟩
  obtain ⟨o2, q, q1, q2, q3⟩ := gmLoop_fixed hl hs key
  obtain ⟨o2', q', q1', q2', q3'⟩ := gmLoop_fixed hl' hs' key
  rw [q] at q'; cases q'
  exact ⟨q1'.trans q1.symm, q2'.trans q2.symm, q3'.trans q3.symm⟩

/-- C145, violation in `GM_Endog_Error_Hom_Regimes` and `GM_Combo_Hom_Regimes`. -/
theorem C145_hom_endog_violated {a1 : String} {m m' : ℕ} {e e' : ℝ} {f f' : IterFit n c}
    (h : gmEndogErrorHomRegimes opt F W x hh y m e a1 = .ok f) (h' : gmEndogErrorHomRegimes opt F W x hh y m' e' a1 = .ok f') :
    f'.betas = f.betas ∧ f'.predy = f.predy ∧ f'.u = f.u := by
  unfold gmEndogErrorHomRegimes at h h'
  obtain ⟨A1, hA, h⟩ := bind_ok h
  obtain ⟨o, ho, h⟩ := bind_ok h
  obtain ⟨lam1, h1, h⟩ := bind_ok h
  obtain ⟨⟨l, it⟩, hl, h⟩ := bind_ok h
  obtain ⟨s, hs, h⟩ := bind_ok h
  obtain ⟨vm, hvm, h⟩ := bind_ok h
  cases h
  obtain ⟨A1', hA', h'⟩ := bind_ok h'
  rw [hA] at hA'; cases hA'
  obtain ⟨o', ho', h'⟩ := bind_ok h'
  rw [ho] at ho'; cases ho'
  obtain ⟨lam1', h1', h'⟩ := bind_ok h'
  rw [h1] at h1'; cases h1'
  obtain ⟨⟨l', it'⟩, hl', h'⟩ := bind_ok h'
  obtain ⟨s', hs', h'⟩ := bind_ok h'
  obtain ⟨vm', hvm', h'⟩ := bind_ok h'
  cases h'
  have key : ∀ a t, homEndogStepR opt F W A1 (A2hom W) x hh y lam1 a = .ok t → ∃ o2 : TSLSFit n c _,
      tslsE (F (spFilterM W lam1 x)) hh (spFilter W lam1 y) = .ok o2 ∧ t.betas = o2.betas ∧ t.predy = F x *ᵥ o2.betas ∧
      t.u = y - F x *ᵥ o2.betas := by
    intro a t ht
    unfold homEndogStepR at ht
    obtain ⟨o2, ho2, ht⟩ := bind_ok ht
    obtain ⟨p, hp, ht⟩ := bind_ok ht
    obtain ⟨lam, hlam, ht⟩ := bind_ok ht
    cases ht
    exact ⟨o2, ho2, rfl, rfl, rfl⟩
  obtain ⟨o2, q, q1, q2, q3⟩ := gmLoop_fixed hl hs key
  obtain ⟨o2', q', q1', q2', q3'⟩ := gmLoop_fixed hl' hs' key
  rw [q] at q'; cases q'
  exact ⟨q1'.trans q1.symm, q2'.trans q2.symm, q3'.trans q3.symm⟩

/-- C145, violation in `GM_Endog_Error_Het_Regimes` and `GM_Combo_Het_Regimes`. -/
theorem C145_het_endog_violated {m m' : ℕ} {e e' : ℝ} {f f' : IterFit n c}
    (h : gmEndogErrorHetRegimes opt F W x hh y m e = .ok f) (h' : gmEndogErrorHetRegimes opt F W x hh y m' e' = .ok f') :
    f'.betas = f.betas ∧ f'.predy = f.predy ∧ f'.u = f.u := by
  unfold gmEndogErrorHetRegimes at h h'
  obtain ⟨o, ho, h⟩ := bind_ok h
  obtain ⟨lam1, h1, h⟩ := bind_ok h
  obtain ⟨⟨l, it⟩, hl, h⟩ := bind_ok h
  obtain ⟨s, hs, h⟩ := bind_ok h
  obtain ⟨P, hP, h⟩ := bind_ok h
  obtain ⟨vm, hvm, h⟩ := bind_ok h
  cases h
  obtain ⟨o', ho', h'⟩ := bind_ok h'
  rw [ho] at ho'; cases ho'
  obtain ⟨lam1', h1', h'⟩ := bind_ok h'
  rw [h1] at h1'; cases h1'
  obtain ⟨⟨l', it'⟩, hl', h'⟩ := bind_ok h'
  obtain ⟨s', hs', h'⟩ := bind_ok h'
  obtain ⟨P', hP', h'⟩ := bind_ok h'
  obtain ⟨vm', hvm', h'⟩ := bind_ok h'
  cases h'
  have key : ∀ a t, hetEndogStepR opt F W x hh y lam1 a = .ok t → ∃ o2 : TSLSFit n c _,
      tslsE (F (spFilterM W lam1 x)) hh (spFilter W lam1 y) = .ok o2 ∧ t.betas = o2.betas ∧ t.predy = F x *ᵥ o2.betas ∧
      t.u = y - F x *ᵥ o2.betas := by
    intro a t ht
    unfold hetEndogStepR at ht
    obtain ⟨o2, ho2, ht⟩ := bind_ok ht
    obtain ⟨lam, hlam, ht⟩ := bind_ok ht
    cases ht
    exact ⟨o2, ho2, rfl, rfl, rfl⟩
  obtain ⟨o2, q, q1, q2, q3⟩ := gmLoop_fixed hl hs key
  obtain ⟨o2', q', q1', q2', q3'⟩ := gmLoop_fixed hl' hs' key
  rw [q] at q'; cases q'
  exact ⟨q1'.trans q1.symm, q2'.trans q2.symm, q3'.trans q3.symm⟩

end

/-- A pass of `GM_Error_Het_Regimes` from `lam`: the coefficients are those of the regression of the filtered dependent variable
on the framed filtered regressors. -/
structure HetRPass [DecidableEq n] (opt : Moments (Fin 2) (Fin 2) → Option (Matrix (Fin 2) (Fin 2) ℝ) → Py ℝ)
    (F : Matrix n k ℝ → Matrix n c ℝ) (W : Matrix n n ℝ) (x : Matrix n k ℝ) (y : n → ℝ) (lam : ℝ) (s : Step n c) : Prop where
  normal : (F (spFilterM W lam x))ᵀ *ᵥ (spFilter W lam y - F (spFilterM W lam x) *ᵥ s.betas) = 0
  resid : ∀ i, s.u i = y i - ∑ j, F x i j * s.betas j
  predy : ∀ i, s.predy i = ∑ j, F x i j * s.betas j
  lam : opt (moments2eqs (A1het W) W s.u) (some (vcHet W (A1het W) (psiSigma W s.u lam))) = .ok s.lam

/-- C145, `GM_Error_Het_Regimes`: every pass starts from the lambda of the previous one, and the filter uses it. -/
theorem C145_het_partial [DecidableEq n] [DecidableEq c]
    {opt : Moments (Fin 2) (Fin 2) → Option (Matrix (Fin 2) (Fin 2) ℝ) → Py ℝ} {F : Matrix n k ℝ → Matrix n c ℝ}
    {W : Matrix n n ℝ} {x : Matrix n k ℝ} {y : n → ℝ} {maxIter : ℕ} {epsilon : ℝ} {step1c : Bool} {f : IterFit n c}
    (h : gmErrorHetRegimes opt F W x y maxIter epsilon step1c = .ok f) :
    ∃ lam0 hist, Run (HetRPass opt F W x y) Step.lam maxIter epsilon lam0 hist ∧ Reports W maxIter hist f := by
  unfold gmErrorHetRegimes at h
  obtain ⟨o, ho, h⟩ := bind_ok h
  obtain ⟨lam1, h1, h⟩ := bind_ok h
  obtain ⟨lam2, h2, h⟩ := bind_ok h
  obtain ⟨⟨l, it⟩, hl, h⟩ := bind_ok h
  obtain ⟨s, hs, h⟩ := bind_ok h
  obtain ⟨vm, hvm, h⟩ := bind_ok h
  cases h
  obtain ⟨hist, hr, rfl, hlast⟩ := gmLoop_run hl hs (R := HetRPass opt F W x y) (by
      intro a s h
      unfold hetStepR at h
      obtain ⟨o, ho, h⟩ := bind_ok h
      obtain ⟨lam, hlam, h⟩ := bind_ok h
      cases h
      refine ⟨?_, fun i => rfl, fun i => rfl, hlam⟩
      obtain ⟨hu, rfl⟩ := ols_eq_some (olsE_ok ho)
      exact normal_eq _ _ hu)
  exact ⟨lam2, hist, hr, ⟨⟨s, hlast, rfl, rfl, rfl, rfl⟩, fun i => rfl, rfl, rfl⟩⟩

end Spreg.GM
