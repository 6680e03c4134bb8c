import Verif.Model.GMEndog
/-
Model of the joint branch (`regime_err_sep=False`) of the regime versions of the GM error models: error_sp_regimes.py,
error_sp_het_regimes.py, error_sp_hom_regimes.py.

* `F` is `Regimes_Frame.__init__` on the whole matrix of regressors: `frame g vary` below. The code frames `x` and `yend`
  separately and puts the results side by side; index types carry no order, so one matrix `z` stands for both.
* The optimiser is a parameter, arithmetic is exact, `max_iter` a natural number, as in `Verif.Model.GMIter`.
-/
namespace Spreg.GM
open Matrix Spreg.Lin

variable {n k l ρ c : Type} [Fintype n] [Fintype k] [Fintype l] [Fintype ρ] [Fintype c]

/-- Columns of a regime design: one per regime for a variable that varies, one for a variable that does not. -/
abbrev RCol (vary : k → Bool) (ρ : Type) : Type := ({j : k // vary j = true} × ρ) ⊕ {j : k // vary j = false}

/-- `regimeX_setup`, regimes.py:428-438 (entries; the order of the columns is the subject of C24): a varying variable is set to
zero outside the regime of the column. -/
def frame [DecidableEq ρ] (g : n → ρ) (vary : k → Bool) (x : Matrix n k ℝ) : Matrix n (RCol vary ρ) ℝ :=
  Matrix.of fun i j => match j with
  | .inl (v, r) => if g i = r then x i v.1 else 0
  | .inr v => x i v.1

/-- Joint branch of `GM_Error_Regimes.__init__`, error_sp_regimes.py:340-369: the first stage uses the framed regressors, the
second stage the regressors filtered first and framed afterwards, the predictions the framed regressors. -/
noncomputable def gmErrorRegimes [DecidableEq c] (opt : Moments (Fin 3) (Fin 3) → Py ℝ) (F : Matrix n k ℝ → Matrix n c ℝ)
    (W : Matrix n n ℝ) (x : Matrix n k ℝ) (y : n → ℝ) : Py (GMErrorFit n c) := do
  let o ← olsE (F x) y
  let lam ← opt (momentsGM W o.u)
  let o2 ← olsE (F (spFilterM W lam x)) (spFilter W lam y)
  let predy := F x *ᵥ o2.betas
  let u := y - predy
  return { betas := o2.betas, lam := lam, predy := predy, u := u, eFiltered := u - lam • (W *ᵥ u),
           sig2 := sig2n o2.u, vm := sig2n o2.u • o2.xtxi }

/-- Joint branch of `GM_Endog_Error_Regimes.__init__`, error_sp_regimes.py:884-938; `h = [x, q]` framed (`tsls.h`). -/
noncomputable def gmEndogErrorRegimes [DecidableEq c] [DecidableEq l] (opt : Moments (Fin 3) (Fin 3) → Py ℝ)
    (F : Matrix n k ℝ → Matrix n c ℝ) (W : Matrix n n ℝ) (z : Matrix n k ℝ) (h : Matrix n l ℝ) (y : n → ℝ) :
    Py (GMErrorFit n c) := do
  let t ← tslsE (F z) h y
  let lam ← opt (momentsGM W t.u)
  let t2 ← tslsE (F (spFilterM W lam z)) h (spFilter W lam y)
  let predy := F z *ᵥ t2.betas
  let u := y - predy
  return { betas := t2.betas, lam := lam, predy := predy, u := u, eFiltered := u - lam • (W *ᵥ u),
           sig2 := (t2.u ⬝ᵥ t2.u) / N n, vm := ((t2.u ⬝ᵥ t2.u) / N n) • t2.varb }

/-- One pass of the loop of `GM_Error_Het_Regimes`, error_sp_het_regimes.py:415-433. -/
noncomputable def hetStepR [DecidableEq n] [DecidableEq c]
    (opt : Moments (Fin 2) (Fin 2) → Option (Matrix (Fin 2) (Fin 2) ℝ) → Py ℝ) (F : Matrix n k ℝ → Matrix n c ℝ)
    (W : Matrix n n ℝ) (x : Matrix n k ℝ) (y : n → ℝ) (lamOld : ℝ) : Py (Step n c) := do
  let o ← olsE (F (spFilterM W lamOld x)) (spFilter W lamOld y)
  let predy := F x *ᵥ o.betas
  let u := y - predy
  let vc := vcHet W (A1het W) (psiSigma W u lamOld)
  let M := moments2eqs (A1het W) W u
  let lam ← opt M (some vc)
  return ⟨o.betas, predy, u, M, lam⟩

/-- Joint branch of `GM_Error_Het_Regimes.__init__`, error_sp_het_regimes.py:386-441. `hard_bound` is part of `opt`; unlike in
`BaseGM_Error_Het` the final lambda is not checked again. -/
noncomputable def gmErrorHetRegimes [DecidableEq n] [DecidableEq c]
    (opt : Moments (Fin 2) (Fin 2) → Option (Matrix (Fin 2) (Fin 2) ℝ) → Py ℝ) (F : Matrix n k ℝ → Matrix n c ℝ)
    (W : Matrix n n ℝ) (x : Matrix n k ℝ) (y : n → ℝ) (maxIter : ℕ) (epsilon : ℝ) (step1c : Bool) : Py (IterFit n c) := do
  let o ← olsE (F x) y
  let M := moments2eqs (A1het W) W o.u
  let lam1 ← opt M none
  let lam2 ← step1cLam opt W M o.u lam1 step1c
  let (last, it) ← gmLoop (hetStepR opt F W x y) Step.lam epsilon maxIter lam2 1 none
  let s ← bound last
  let vm ← vmHet s.moments.G s.lam (F x) s.u W (vcHet W (A1het W) (psiSigma W s.u s.lam))
  return ⟨s.betas, s.lam, s.predy, s.u, s.u - s.lam • (W *ᵥ s.u), vm, it, iterMsg it maxIter⟩

/-- One pass of the loop of `GM_Endog_Error_Het_Regimes`, error_sp_het_regimes.py:1065-1099: the filter is that of `lambda1`, the
estimate of the first step, in every pass. -/
noncomputable def hetEndogStepR [DecidableEq n] [DecidableEq c] [DecidableEq l]
    (opt : Moments (Fin 2) (Fin 2) → Option (Matrix (Fin 2) (Fin 2) ℝ) → Py ℝ) (F : Matrix n k ℝ → Matrix n c ℝ)
    (W : Matrix n n ℝ) (z : Matrix n k ℝ) (h : Matrix n l ℝ) (y : n → ℝ) (lam1 lamOld : ℝ) : Py (Step n c) := do
  let zs := F (spFilterM W lam1 z)
  let t ← tslsE zs h (spFilter W lam1 y)
  let predy := F z *ᵥ t.betas
  let u := y - predy
  let P := N n • (t.zthhthiᵀ * t.varb)                          -- pfora1a2, twosls.py:204-207
  let vc := vcHetTsls W (A1het W) u lamOld (a1a2 W (A1het W) h u lamOld P zs)
  let M := moments2eqs (A1het W) W u
  let lam ← opt M (some vc)
  return ⟨t.betas, predy, u, M, lam⟩

/-- Joint branch of `GM_Endog_Error_Het_Regimes.__init__`, error_sp_het_regimes.py:1009-1110, with `step1c=False` (the
default). -/
noncomputable def gmEndogErrorHetRegimes [DecidableEq n] [DecidableEq c] [DecidableEq l]
    (opt : Moments (Fin 2) (Fin 2) → Option (Matrix (Fin 2) (Fin 2) ℝ) → Py ℝ) (F : Matrix n k ℝ → Matrix n c ℝ)
    (W : Matrix n n ℝ) (z : Matrix n k ℝ) (h : Matrix n l ℝ) (y : n → ℝ) (maxIter : ℕ) (epsilon : ℝ) : Py (IterFit n c) := do
  let t ← tslsE (F z) h y
  let lam1 ← opt (moments2eqs (A1het W) W t.u) none
  let (last, it) ← gmLoop (hetEndogStepR opt F W z h y lam1) Step.lam epsilon maxIter lam1 1 none
  let s ← bound last
  let zs := spFilterM W s.lam (F z)
  let P ← pHat h t.hthi zs
  let a := a1a2 W (A1het W) h s.u s.lam P zs
  let vm ← omegaGS2SLS W s.lam h s.u s.moments.G (vcHetTsls W (A1het W) s.u s.lam a) a P
  return ⟨s.betas, s.lam, s.predy, s.u, s.u - s.lam • (W *ᵥ s.u), vm, it, iterMsg it maxIter⟩

/-- One pass of the loop of `GM_Error_Hom_Regimes`, error_sp_hom_regimes.py:428-445: again the filter is that of `lambda1`. -/
noncomputable def homStepR [DecidableEq c] (opt : Moments (Fin 2) (Fin 2) → Option (Matrix (Fin 2) (Fin 2) ℝ) → Py ℝ)
    (F : Matrix n k ℝ → Matrix n c ℝ) (W A1 A2 : Matrix n n ℝ) (x : Matrix n k ℝ) (y : n → ℝ) (lam1 lamOld : ℝ) :
    Py (Step n c) := do
  let o ← olsE (F (spFilterM W lam1 x)) (spFilter W lam1 y)
  let predy := F x *ᵥ o.betas
  let u := y - predy
  let M := momentsHom W A1 A2 u
  let lam ← opt M (some (vcHom A1 A2 (spFilter W lamOld u) 0 0))
  return ⟨o.betas, predy, u, M, lam⟩

/-- Joint branch of `GM_Error_Hom_Regimes.__init__`, error_sp_hom_regimes.py:398-454. -/
noncomputable def gmErrorHomRegimes [DecidableEq n] [DecidableEq c]
    (opt : Moments (Fin 2) (Fin 2) → Option (Matrix (Fin 2) (Fin 2) ℝ) → Py ℝ) (F : Matrix n k ℝ → Matrix n c ℝ)
    (W : Matrix n n ℝ) (x : Matrix n k ℝ) (y : n → ℝ) (maxIter : ℕ) (epsilon : ℝ) (a1 : String) : Py (IterFit n c) := do
  let A1 ← chooseA1 a1 W
  let A2 := A2hom W
  let o ← olsE (F x) y
  let lam1 ← opt (momentsHom W A1 A2 o.u) none
  let (last, it) ← gmLoop (homStepR opt F W A1 A2 x y lam1) Step.lam epsilon maxIter lam1 1 none
  let s ← bound last
  let vm ← omegaHomOls W A1 A2 (F x) s.u s.lam s.moments.G
  return ⟨s.betas, s.lam, s.predy, s.u, s.u - s.lam • (W *ᵥ s.u), vm, it, iterMsg it maxIter⟩

/-- One pass of the loop of `GM_Endog_Error_Hom_Regimes`, error_sp_hom_regimes.py:1070-1096. -/
noncomputable def homEndogStepR [DecidableEq c] [DecidableEq l]
    (opt : Moments (Fin 2) (Fin 2) → Option (Matrix (Fin 2) (Fin 2) ℝ) → Py ℝ) (F : Matrix n k ℝ → Matrix n c ℝ)
    (W A1 A2 : Matrix n n ℝ) (z : Matrix n k ℝ) (h : Matrix n l ℝ) (y : n → ℝ) (lam1 lamOld : ℝ) : Py (Step n c) := do
  let zs := F (spFilterM W lam1 z)
  let t ← tslsE zs h (spFilter W lam1 y)
  let predy := F z *ᵥ t.betas
  let u := y - predy
  let M := momentsHom W A1 A2 u
  let us := spFilter W lamOld u
  let p ← pHom h zs
  let a := aHom A1 A2 h p zs us
  let lam ← opt M (some (vcHom A1 A2 us a.1 a.2))
  return ⟨t.betas, predy, u, M, lam⟩

/-- Joint branch of `GM_Endog_Error_Hom_Regimes.__init__`, error_sp_hom_regimes.py:1025-1105. -/
noncomputable def gmEndogErrorHomRegimes [DecidableEq n] [DecidableEq c] [DecidableEq l]
    (opt : Moments (Fin 2) (Fin 2) → Option (Matrix (Fin 2) (Fin 2) ℝ) → Py ℝ) (F : Matrix n k ℝ → Matrix n c ℝ)
    (W : Matrix n n ℝ) (z : Matrix n k ℝ) (h : Matrix n l ℝ) (y : n → ℝ) (maxIter : ℕ) (epsilon : ℝ) (a1 : String) :
    Py (IterFit n c) := do
  let A1 ← chooseA1 a1 W
  let A2 := A2hom W
  let t ← tslsE (F z) h y
  let lam1 ← opt (momentsHom W A1 A2 t.u) none
  let (last, it) ← gmLoop (homEndogStepR opt F W A1 A2 z h y lam1) Step.lam epsilon maxIter lam1 1 none
  let s ← bound last
  let vm ← omegaHom W A1 A2 h (F z) s.u s.lam s.moments.G
  return ⟨s.betas, s.lam, s.predy, s.u, s.u - s.lam • (W *ᵥ s.u), vm, it, iterMsg it maxIter⟩

end Spreg.GM
