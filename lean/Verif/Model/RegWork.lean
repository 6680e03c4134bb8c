import Verif.Model.RegimesMulti
import Verif.Model.WRegimes
import Verif.Model.Lags
import Verif.Model.GMEndog
import Verif.Model.MLFull
/-
Model of the spatial error classes that estimate one model per regime, from the data of the user to the assembled attributes: the workers
`_work_error` and `_work_endog_error` of error_sp_regimes.py, error_sp_het_regimes.py, error_sp_hom_regimes.py and ml_error_regimes.py with
the estimators they call, the spatially lagged regressors (`slx_lags`) and the assembly of `Model/RegimesMulti.lean`.

Observations are positions; a column is a function of the position. The optimisers are parameters, as in the models of the estimators.
Names and titles are not modelled here (`Model/Tables.lean`, `Model/Output.lean`).
-/
namespace Spreg.RegWork
open Matrix Spreg Spreg.Lin Spreg.GM Spreg.Regimes Spreg.Multi

variable {ι ρ : Type} [DecidableEq ι] [DecidableEq ρ]

/-- Entry of `w.sparse`: row and column are positions in `id_order`. -/
noncomputable def entry (w : WReg.W ι) (a b : ℕ) : ℝ :=
  match w.ids[a]?, w.ids[b]? with
  | some i, some j => w.eff i j
  | _, _ => 0

/-- `lag_spatial(w, c)` for one column. -/
noncomputable def lagC (w : WReg.W ι) (c : ℕ → ℝ) (a : ℕ) : ℝ := ((List.range w.ids.length).map fun b => entry w a b * c b).sum

/-- `c[regi_ids[r]]`. -/
def rows (ids : List ℕ) (c : ℕ → ℝ) : Fin ids.length → ℝ := fun a => c ids[a]

/-- `w_r.sparse`, for weights with `m` observations. -/
noncomputable def wMat (m : ℕ) (w : WReg.W ι) : Matrix (Fin m) (Fin m) ℝ := Matrix.of fun a b => entry w a b

/-- A matrix from its columns. -/
def matOf {m : ℕ} (l : List (Fin m → ℝ)) : Matrix (Fin m) (Fin l.length) ℝ := Matrix.of fun i j => l[j] i

/-- A matrix from its columns, the last one set apart. -/
def matLast {m : ℕ} (l : List (Fin m → ℝ)) (c : Fin m → ℝ) : Matrix (Fin m) (Fin l.length ⊕ Unit) ℝ :=
  Matrix.of fun i j => Sum.elim (fun j : Fin l.length => l[j] i) (fun _ => c i) j

/-- Position `i` of `vstack((betas, lambda))`. -/
def ixLam (K i : ℕ) : Fin K ⊕ Unit := if h : i < K then .inl ⟨i, h⟩ else .inr ()

/-- The same when the last coefficient is set apart. -/
def ixLast (K i : ℕ) : (Fin K ⊕ Unit) ⊕ Unit := if h : i < K then .inl (.inl ⟨i, h⟩) else if i = K then .inl (.inr ()) else .inr ()

/-- What a worker returns: the attributes read by the assembling loop, the filtered residuals and, with a spatial lag, `predy_e` and
`e_pred`. -/
structure Res where
  reg : RegRes ℝ
  eFiltered : List ℝ
  pred : Option (List ℝ × List ℝ)

/-- Attributes of `BaseGM_Error` and `BaseGM_Endog_Error`: the variance matrix has no row for lambda, error_sp.py:97-107, 433-441. -/
def ofGM {m K : ℕ} (f : GMErrorFit (Fin m) (Fin K)) : Res :=
  { reg := { kb := K + 1, kv := K, betas := fun i => Sum.elim f.betas (fun _ => f.lam) (ixLam K i),
             vm := fun i j => if h : i < K ∧ j < K then f.vm ⟨i, h.1⟩ ⟨j, h.2⟩ else 0, u := List.ofFn f.u, predy := List.ofFn f.predy },
    eFiltered := List.ofFn f.eFiltered, pred := none }

/-- Attributes of `BaseGM_Error_Het`, `BaseGM_Error_Hom` and `BaseGM_Endog_Error_Hom`. -/
def ofIter {m K : ℕ} (f : IterFit (Fin m) (Fin K)) : Res :=
  { reg := { kb := K + 1, kv := K + 1, betas := fun i => Sum.elim f.betas (fun _ => f.lam) (ixLam K i),
             vm := fun i j => f.vm (ixLam K i) (ixLam K j), u := List.ofFn f.u, predy := List.ofFn f.predy },
    eFiltered := List.ofFn f.eFiltered, pred := none }

/-- Attributes of `BaseGM_Endog_Error_Het`. -/
def ofLast {m K : ℕ} (f : IterFit (Fin m) (Fin K ⊕ Unit)) : Res :=
  { reg := { kb := K + 2, kv := K + 2, betas := fun i => Sum.elim f.betas (fun _ => f.lam) (ixLast K i),
             vm := fun i j => f.vm (ixLast K i) (ixLast K j), u := List.ofFn f.u, predy := List.ofFn f.predy },
    eFiltered := List.ofFn f.eFiltered, pred := none }

/-- Attributes of `BaseML_Error`: `betas` is followed by lambda, ml_error.py:236. -/
def ofML {m K : ℕ} (f : ML.ErrFit (Fin m) (Fin K)) (vm : Matrix (Fin K ⊕ Unit) (Fin K ⊕ Unit) ℝ) : Res :=
  { reg := { kb := K + 1, kv := K + 1, betas := fun i => Sum.elim f.b (fun _ => f.lam) (ixLam K i),
             vm := fun i j => vm (ixLam K i) (ixLam K j), u := List.ofFn f.u, predy := List.ofFn f.predy },
    eFiltered := List.ofFn f.eFiltered, pred := none }

/-- Estimators of a regime with exogenous variables only, with their options and optimisers (`A1het` and `step1c` of
`GM_Error_Het_Regimes`, `A1` of `GM_Error_Hom_Regimes`; `jac` is the log-Jacobian of the weights, by method). -/
inductive Est where
  | gm (opt : Moments (Fin 3) (Fin 3) → ℝ)
  | het (opt : Moments (Fin 2) (Fin 2) → Option (Matrix (Fin 2) (Fin 2) ℝ) → Py ℝ) (maxIter : ℕ) (eps : ℝ) (step1c hard : Bool)
  | hom (opt : Moments (Fin 2) (Fin 2) → Option (Matrix (Fin 2) (Fin 2) ℝ) → Py ℝ) (maxIter : ℕ) (eps : ℝ) (a1 : String)
  | ml (opt : (ℝ → Option ℝ) → ℝ) (jac : (m : ℕ) → Matrix (Fin m) (Fin m) ℝ → ℝ → ℝ)

/-- The call of the estimator in `_work_error`: error_sp_regimes.py:1977, error_sp_het_regimes.py:1840-1842,
error_sp_hom_regimes.py:1839-1841, ml_error_regimes.py:527. `x` are the columns after the constant. -/
noncomputable def fitExog (e : Est) {m : ℕ} (y : Fin m → ℝ) (x : List (Fin m → ℝ)) (W : Matrix (Fin m) (Fin m) ℝ) : Py Res :=
  let X := matOf ((fun _ => 1) :: x)
  match e with
  | .gm opt => match gmError opt W X y with
    | some f => .ok (ofGM f)
    | none => .error .linAlgError
  | .het opt mi eps s1 hb => (gmErrorHet opt W X y mi eps s1 hb).map ofIter
  | .hom opt mi eps a1 => (gmErrorHom opt W X y mi eps a1).map ofIter
  | .ml opt jac =>
    let lam := opt (ML.errObj y X W (jac m W))
    match ML.errFit y X W lam (jac m W lam) with
    | none => .error .linAlgError
    | some f => match ML.mlErrVm W f with
      | none => .error .linAlgError
      | some vm => .ok (ofML f vm)

/-- `_work_error`: error_sp_regimes.py:1973-1986, error_sp_het_regimes.py:1820-1854, error_sp_hom_regimes.py:1819-1853,
ml_error_regimes.py:521-541. `ids` is `regi_ids[r]`. -/
noncomputable def workError (e : Est) (w : WReg.W ι) (y : ℕ → ℝ) (ids : List ℕ) (x : List (ℕ → ℝ)) : Py Res := do
  let (wr, _) ← WReg.wRegime w ids true none
  fitExog e (rows ids y) (x.map (rows ids)) (wMat ids.length wr)

/-- Estimators of a regime with endogenous variables. -/
inductive EstEnd where
  | gm (opt : Moments (Fin 3) (Fin 3) → Py ℝ)
  | het (opt : Moments (Fin 2) (Fin 2) → Option (Matrix (Fin 2) (Fin 2) ℝ) → Py ℝ) (maxIter : ℕ) (eps : ℝ) (hard : Bool)
  | hom (opt : Moments (Fin 2) (Fin 2) → Option (Matrix (Fin 2) (Fin 2) ℝ) → Py ℝ) (maxIter : ℕ) (eps : ℝ) (a1 : String)

/-- The call of the estimator in `_work_endog_error`: error_sp_regimes.py:2019, error_sp_het_regimes.py:1892-1903 (with `step1c=False`),
error_sp_hom_regimes.py:1891-1893, from the columns of `x` after the constant, of `yend` and of `q`. A model without any endogenous
variable and without spatial lag (`yend=None`) raises in `BaseTSLS`. -/
noncomputable def fitEndog (e : EstEnd) {m : ℕ} (y : Fin m → ℝ) (x yend q : List (Fin m → ℝ)) (W : Matrix (Fin m) (Fin m) ℝ) : Py Res :=
  let xc := (fun _ => 1) :: x
  let H := matOf (xc ++ q)
  match e with
  | .gm opt => (gmEndogError opt W (matOf (xc ++ yend)) H y).map ofGM
  | .het opt mi eps hb => match yend.getLast? with
    | none => .error .exception
    | some c => (gmEndogErrorHet opt W (matLast (xc ++ yend.dropLast) c) H y mi eps hb).map ofLast
  | .hom opt mi eps a1 => (gmEndogErrorHom opt W (matOf (xc ++ yend)) H y mi eps a1).map ofIter

/-- `sp_att` in `_work_endog_error` (error_sp_regimes.py:2021-2027, error_sp_het_regimes.py:1905-1910, error_sp_hom_regimes.py:1895-1900):
`rho = betas[-2]`, `hard_bound` is not passed. -/
noncomputable def reduced {m : ℕ} (W : Matrix (Fin m) (Fin m) ℝ) (y wy : Fin m → ℝ) (r : Res) : Py Res := do
  let rho := r.reg.betas (r.reg.kb - 2)
  let p ← Impacts.spAtt W y (fun a => (r.reg.predy[(a : ℕ)]?).getD 0) wy rho false
  return { r with pred := some (List.ofFn p.1, List.ofFn p.2.1) }

/-- `_work_endog_error`: error_sp_regimes.py:1989-2048, error_sp_het_regimes.py:1857-1931, error_sp_hom_regimes.py:1856-1920. `addLag` is
`[w_lags, lag_q]` for a spatial lag added within the regime. -/
noncomputable def workEndog (e : EstEnd) (addLag : Option (ℕ × Bool)) (w : WReg.W ι) (y : ℕ → ℝ) (yend q : Option (List (ℕ → ℝ)))
    (ids : List ℕ) (x : List (ℕ → ℝ)) : Py Res := do
  let (wr, _) ← WReg.wRegime w ids true none
  let W := wMat ids.length wr
  let yr := rows ids y
  let xr := x.map (rows ids)
  let yer := yend.map fun l => l.map (rows ids)
  let qr := q.map fun l => l.map (rows ids)
  match addLag with
  | some p => do
    let o ← Lags.setEndog (fun c => W *ᵥ c) yr xr yer qr p.1 p.2 0 .all
    let r ← fitEndog e yr xr o.yend o.q W
    reduced W yr (W *ᵥ yr) r
  | none => fitEndog e yr xr (yer.getD []) (qr.getD []) W

/-! ### The classes -/

/-- Data and options common to the classes. -/
structure Data (ι ρ : Type) where
  y : ℕ → ℝ
  x : List (ℕ → ℝ)
  yend : Option (List (ℕ → ℝ))
  q : Option (List (ℕ → ℝ))
  w : WReg.W ι
  regimes : List ρ

/-- `np.ptp(x[regi_ids[r], i]) == 0`, regimes.py:676: all values equal. -/
noncomputable def constOn (ids : List ℕ) (c : ℕ → ℝ) : Bool :=
  open Classical in decide (∀ a ∈ ids, ∀ b ∈ ids, c a = c b)

/-- `x_constant` after `if slx_lags > 0: USER.flex_wx(w, ...)`: the complete weights are used (error_sp_regimes.py:308-311,
error_sp_het_regimes.py:350-353, error_sp_hom_regimes.py:361-364, ml_error_regimes.py:323-326). -/
noncomputable def withWX (w : WReg.W ι) (x : List (ℕ → ℝ)) (names : List String) (s : ℕ) (slx : Option (List Bool)) :
    Py (List (ℕ → ℝ) × List String) :=
  if s > 0 then do
    let o ← Lags.flexWx (lagC w) x names false s slx 0
    return (o.x, o.nameX)
  else .ok (x, names)

/-- The classes of `Model/RegimesMulti.lean` for these estimators. -/
def Est.cls : Est → Cls
  | .gm _ => .gmError
  | .het .. => .hhError
  | .hom .. => .hhError
  | .ml .. => .mlError

/-- The same with endogenous variables. -/
def EstEnd.cls (addLag : Option (ℕ × Bool)) : EstEnd → Cls
  | .gm _ => .gmEndogError addLag.isSome
  | .het .. => .hhEndogError addLag.isSome
  | .hom .. => .hhEndogError addLag.isSome

/-- `GM_Error_Regimes`, `GM_Error_Het_Regimes`, `GM_Error_Hom_Regimes`, `ML_Error_Regimes` with `regime_err_sep=True` and all coefficients
varying: error_sp_regimes.py:300-339, 385-498, error_sp_het_regimes.py:340-382, 459-584, error_sp_hom_regimes.py:351-394, 472-596,
ml_error_regimes.py:313-346, 399-518. `rs` is the set of regimes. -/
noncomputable def errorRegimes (e : Est) (D : Data ι ρ) (rs : List ρ) (names : List String) (s : ℕ) (slx : Option (List Bool)) :
    Py (List String × Asm ℝ) := do
  let p ← withWX D.w D.x names s slx
  multi e.cls 0 constOn rs D.regimes p.2 p.1 fun r cols => (workError e D.w D.y (regiIds D.regimes r) cols).map (·.reg)

/-- `GM_Endog_Error_Regimes`, `GM_Combo_Regimes` and their Het and Hom variants with `regime_err_sep=True` (with `addLag`: and
`regime_lag_sep=True`, `slx_lags=0`), without the input checks: error_sp_regimes.py:961-1130, error_sp_het_regimes.py:1133-1315,
error_sp_hom_regimes.py:1129-1309. -/
noncomputable def endogRegimes (e : EstEnd) (addLag : Option (ℕ × Bool)) (D : Data ι ρ) (rs : List ρ) (names : List String) (s : ℕ)
    (slx : Option (List Bool)) : Py (List String × Asm ℝ) := do
  let p ← withWX D.w D.x names s slx
  multi (e.cls addLag) (D.yend.getD []).length constOn rs D.regimes p.2 p.1 fun r cols =>
    (workEndog e addLag D.w D.y D.yend D.q (regiIds D.regimes r) cols).map (·.reg)

end Spreg.RegWork
