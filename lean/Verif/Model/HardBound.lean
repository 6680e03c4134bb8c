import Verif.Model.GMRegimes
import Verif.Model.LagRegimes
import Verif.Model.Impacts
/-
Model of the option `hard_bound` and of what the spatial lag and combo classes do with the spatial coefficient after the
estimation: `sp_att`.
-/
namespace Spreg.HardBound
open Matrix Spreg Spreg.Lin Spreg.GM Spreg.LagReg

/-- `optim_moments(..., hard_bound=hb)`, utils.py:387-395: the check after the optimiser `opt`. -/
noncomputable def guarded {α : Type} (hb : Bool) (opt : α → Py ℝ) (a : α) : Py ℝ := do
  let lam ← opt a
  if hb ∧ 99 / 100 ≤ |lam| then .error .exception else .ok lam

/-- The same for two arguments (moments and weighting matrix). -/
noncomputable def guarded2 {α β : Type} (hb : Bool) (opt : α → β → Py ℝ) (a : α) (b : β) : Py ℝ := do
  let lam ← opt a b
  if hb ∧ 99 / 100 ≤ |lam| then .error .exception else .ok lam

variable {n k l kx ke kq ρ : Type} [Fintype n] [Fintype k] [Fintype l] [Fintype kx] [Fintype ke] [Fintype kq]
  [DecidableEq n] [DecidableEq k] [DecidableEq l] [DecidableEq kx] [DecidableEq ke] [DecidableEq kq]

/-- Attributes `predy_e` and `e_pred`, and whether the warning on the spatial lag coefficient was added. -/
structure SpPred (n : Type) where
  predy_e : n → ℝ
  e_pred : n → ℝ
  warned : Bool

/-- `self.predy_e, self.e_pred, warn = sp_att(...); set_warn(self, warn)`. -/
noncomputable def post (W : Matrix n n ℝ) (y predy wy : n → ℝ) (rho : ℝ) (hb : Bool) : Py (SpPred n) := do
  let (p, e, w) ← Impacts.spAtt W y predy wy rho hb
  return ⟨p, e, w⟩

/-- The regressors of a lag model; the spatial lag is the last one. -/
abbrev ZCol (kx ke : Type) : Type := (Unit ⊕ kx) ⊕ (ke ⊕ Unit)

/-- Index of the spatial lag. -/
abbrev lagCol : ZCol kx ke := .inr (.inr ())

/-- `GM_Lag.__init__`, twosls_sp.py:599-618 without `slx_lags`: the estimation and the predictions. -/
noncomputable def gmLagC (W : Matrix n n ℝ) (x : Matrix n kx ℝ) (yend : Matrix n ke ℝ) (q : Matrix n kq ℝ) (y : n → ℝ)
    (L : ℕ) (lagQ hb : Bool) :
    Py (TSLSFit n (ZCol kx ke) ((Unit ⊕ kx) ⊕ (kq ⊕ LagCol kx kq lagQ × Fin L)) × SpPred n) := do
  let f ← tslsE (lagZ W x yend y) (lagH W x q L lagQ) y
  let p ← post W y f.predy (W *ᵥ y) (f.betas lagCol) hb
  return (f, p)

/-- `GM_Combo.__init__`, error_sp.py:998-1004 without `slx_lags`: `hard_bound` goes to the estimation of lambda, `sp_att` is called
without it. -/
noncomputable def gmComboC (opt : Moments (Fin 3) (Fin 3) → Py ℝ) (W : Matrix n n ℝ) (x : Matrix n kx ℝ) (yend : Matrix n ke ℝ)
    (q : Matrix n kq ℝ) (y : n → ℝ) (L : ℕ) (lagQ hb : Bool) : Py (GMErrorFit n (ZCol kx ke) × SpPred n) := do
  let f ← gmEndogError (guarded hb opt) W (lagZ W x yend y) (lagH W x q L lagQ) y
  let p ← post W y f.predy (W *ᵥ y) (f.betas lagCol) false
  return (f, p)

/-- `GM_Combo_Hom.__init__`, error_sp_hom.py:1392-1411: as `GM_Combo`. -/
noncomputable def gmComboHomC (opt : Moments (Fin 2) (Fin 2) → Option (Matrix (Fin 2) (Fin 2) ℝ) → Py ℝ) (W : Matrix n n ℝ)
    (x : Matrix n kx ℝ) (yend : Matrix n ke ℝ) (q : Matrix n kq ℝ) (y : n → ℝ) (L : ℕ) (lagQ : Bool) (maxIter : ℕ) (epsilon : ℝ)
    (a1 : String) (hb : Bool) : Py (IterFit n (ZCol kx ke) × SpPred n) := do
  let f ← gmEndogErrorHom (guarded2 hb opt) W (lagZ W x yend y) (lagH W x q L lagQ) y maxIter epsilon a1
  let p ← post W y f.predy (W *ᵥ y) (f.betas lagCol) false
  return (f, p)

/-- `GM_Combo_Het.__init__`, error_sp_het.py:1440-1461, with `step1c=False`: the base class checks both coefficients, `optim_moments`
is called without `hard_bound`. -/
noncomputable def gmComboHetC (opt : Moments (Fin 2) (Fin 2) → Option (Matrix (Fin 2) (Fin 2) ℝ) → Py ℝ) (W : Matrix n n ℝ)
    (x : Matrix n kx ℝ) (yend : Matrix n ke ℝ) (q : Matrix n kq ℝ) (y : n → ℝ) (L : ℕ) (lagQ : Bool) (maxIter : ℕ) (epsilon : ℝ)
    (hb : Bool) : Py (IterFit n (((Unit ⊕ kx) ⊕ ke) ⊕ Unit) × SpPred n) := do
  let f ← gmEndogErrorHet opt W ((lagZ W x yend y).submatrix id (Equiv.sumAssoc _ _ _)) (lagH W x q L lagQ) y maxIter epsilon hb
  let p ← post W y f.predy (W *ᵥ y) (f.betas (.inr ())) false
  return (f, p)

variable [Fintype ρ] [DecidableEq ρ]

/-- `GM_Lag_Regimes.sp_att_reg`, twosls_sp_regimes.py:883-904 (called at 632-633): one call of `sp_att` per regime without
`hard_bound`; the variable `warn` is not used. -/
noncomputable def spAttReg (g : n → ρ) (W : Matrix n n ℝ) (y predy : n → ℝ) (rho : ρ → ℝ) (ids : List ρ) :
    Py (List (ρ × (n → ℝ) × (n → ℝ))) :=
  ids.mapM fun r => do
    let a ← Impacts.spAtt (subW g W r) (RegimesMat.subv y g r) (RegimesMat.subv predy g r) (RegimesMat.subv (W *ᵥ y) g r) (rho r) false
    return (r, (fun i => if h : g i = r then a.1 ⟨i, h⟩ else 0), (fun i => if h : g i = r then a.2.1 ⟨i, h⟩ else 0))

/-- `GM_Lag_Regimes` with `regime_lag_sep=True` in one equation (with HAC), twosls_sp_regimes.py:604-633; `ids` is the set of regimes.
`hard_bound` is not used in this branch. -/
noncomputable def gmLagRegC (g : n → ρ) (ids : List ρ) (W : Matrix n n ℝ) (x : Matrix n kx ℝ) (yend : Matrix n ke ℝ)
    (q : Matrix n kq ℝ) (y : n → ℝ) (L : ℕ) (lagQ _hb : Bool) :
    Py (TSLSFit n (ZCol kx ke × ρ) (((Unit ⊕ kx) ⊕ (kq ⊕ LagCol kx kq lagQ × Fin L)) × ρ) × SpPred n) := do
  let f ← tslsE (RegimesMat.expand (lagZ W x yend y) g) (RegimesMat.expand (lagH W x q L lagQ) g) y
  let ps ← spAttReg g W y f.predy (fun r => f.betas (lagCol, r)) ids
  return (f, ⟨fun i => (ps.map fun p => p.2.1 i).sum, fun i => (ps.map fun p => p.2.2 i).sum, false⟩)

end Spreg.HardBound
