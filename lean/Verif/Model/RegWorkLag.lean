import Verif.Model.RegWork
import Verif.Model.PooledRegimes
import Verif.Model.OptGMM
/-
Model of the other classes that estimate one model per regime, from the data of the user to the assembled attributes: the workers `_work`
of ols_regimes.py, twosls_regimes.py, twosls_sp_regimes.py and ml_lag_regimes.py. Conventions of `Model/RegWork.lean`. `robust="hac"` is not
modelled; names and titles neither.
-/
namespace Spreg.RegWork
open Matrix Spreg Spreg.Lin Spreg.GM Spreg.Regimes Spreg.Multi

variable {ι ρ : Type} [DecidableEq ι] [DecidableEq ρ]

/-- Attributes of a model with `K` coefficients. -/
def ofFit {m K : ℕ} (betas : Fin K → ℝ) (vm : Matrix (Fin K) (Fin K) ℝ) (u predy : Fin m → ℝ) : RegRes ℝ :=
  { kb := K, kv := K, betas := fun i => if h : i < K then betas ⟨i, h⟩ else 0,
    vm := fun i j => if h : i < K ∧ j < K then vm ⟨i, h.1⟩ ⟨j, h.2⟩ else 0, u := List.ofFn u, predy := List.ofFn predy }

/-- `_work` of ols_regimes.py:693-717: `BaseOLS` on the rows of the regime, with `robust` None or "white". -/
noncomputable def workOLS (white sig2nk : Bool) (y : ℕ → ℝ) (ids : List ℕ) (x : List (ℕ → ℝ)) : Py (RegRes ℝ) := do
  let X := matOf ((fun _ => 1) :: x.map (rows ids))
  let o ← olsE X (rows ids y)
  return ofFit o.betas (Pooled.vmOLS (if white then .white else .none') sig2nk X o) o.u o.predy

/-- The argument `robust` of the 2SLS classes. -/
inductive Rob where
  | none' | white | ogmm

/-- `BaseTSLS`, and `_optimal_weight` with `robust="ogmm"`: twosls_regimes.py:672-682, twosls_sp_regimes.py:964-972. -/
noncomputable def fitTSLS (rob : Rob) (sig2nk : Bool) {m : ℕ} (y : Fin m → ℝ) (x yend q : List (Fin m → ℝ)) : Py (RegRes ℝ) :=
  let xc := (fun _ => 1) :: x
  match rob with
  | .ogmm => match OptGMM.ogmm (matOf (xc ++ yend)) (matOf (xc ++ q)) y sig2nk with
    | some f => .ok (ofFit f.betas f.vm f.u f.predy)
    | none => .error .exception
  | .white => (Pooled.tslsStep (matOf (xc ++ yend)) (matOf (xc ++ q)) y true sig2nk).map fun f => ofFit f.betas f.vm f.u f.predy
  | .none' => (Pooled.tslsStep (matOf (xc ++ yend)) (matOf (xc ++ q)) y false sig2nk).map fun f => ofFit f.betas f.vm f.u f.predy

/-- `_work` of twosls_regimes.py:649-697. -/
noncomputable def workTSLS (rob : Rob) (sig2nk : Bool) (y : ℕ → ℝ) (yend q : List (ℕ → ℝ)) (ids : List ℕ) (x : List (ℕ → ℝ)) : Py (RegRes ℝ) :=
  fitTSLS rob sig2nk (rows ids y) (x.map (rows ids)) (yend.map (rows ids)) (q.map (rows ids))

/-- `_work` of twosls_sp_regimes.py:928-985. With `slx_lags > 0` the endogenous variables and the instruments are taken as they are. -/
noncomputable def workGMLag (rob : Rob) (sig2nk : Bool) (s wLags : ℕ) (lagQ : Bool) (y : ℕ → ℝ) (yend q : Option (List (ℕ → ℝ)))
    (wr : WReg.W ι) (ids : List ℕ) (x : List (ℕ → ℝ)) : Py (RegRes ℝ) := do
  let W := wMat ids.length wr
  let yr := rows ids y
  let xr := x.map (rows ids)
  let yer := yend.map fun l => l.map (rows ids)
  let qr := q.map fun l => l.map (rows ids)
  if s = 0 then
    let o ← Lags.setEndogSparse (fun c => W *ᵥ c) yr xr yer qr wLags lagQ
    fitTSLS rob sig2nk yr xr o.yend o.q
  else fitTSLS rob sig2nk yr xr (yer.getD []) (qr.getD [])

/-- Attributes of `BaseML_Lag`: ml_lag.py:272, 317 (`betas` is followed by rho, `vm` is without the row of the error variance). -/
noncomputable def ofLag {m K : ℕ} (f : ML.LagAll (Fin m) (Fin K)) : RegRes ℝ :=
  { kb := K + 1, kv := K + 1, betas := fun i => Sum.elim f.fit.b (fun _ => f.fit.rho) (ixLam K i),
    vm := fun i j => f.vm1 ((ixLam K i).map id Sum.inl) ((ixLam K j).map id Sum.inl), u := List.ofFn f.fit.u, predy := List.ofFn f.fit.predy }

/-- `_work` of ml_lag_regimes.py:628-661; the optimiser is a parameter and `jac` the log-Jacobian of the weights. -/
noncomputable def workMLLag (opt : (ℝ → ℝ) → ℝ) (jac : (m : ℕ) → Matrix (Fin m) (Fin m) ℝ → ℝ → ℝ) (eps : ℝ) (y : ℕ → ℝ) (wr : WReg.W ι)
    (ids : List ℕ) (x : List (ℕ → ℝ)) : Py (RegRes ℝ) := do
  let W := wMat ids.length wr
  let X := matOf ((fun _ => 1) :: x.map (rows ids))
  let p ← ML.orLinAlg (ML.lagPre (rows ids y) X W)
  let rho := opt (ML.lagObj p (jac ids.length W))
  let f ← ML.mlLag (rows ids y) X W rho (jac ids.length W rho) eps
  return ofLag f

/-! ### The classes -/

/-- `OLS_Regimes` with `regime_err_sep=True` and all coefficients varying: ols_regimes.py:446-495, 542-660. -/
noncomputable def olsRegimes (white sig2nk : Bool) (D : Data ι ρ) (rs : List ρ) (names : List String) (s : ℕ) (slx : Option (List Bool)) :
    Py (List String × Asm ℝ) := do
  let p ← withWX D.w D.x names s slx
  multi .ols 0 constOn rs D.regimes p.2 p.1 fun r cols => workOLS white sig2nk D.y (regiIds D.regimes r) cols

/-- `TSLS_Regimes` with `regime_err_sep=True` and all coefficients varying: twosls_regimes.py:362-414, 466-600. -/
noncomputable def tslsRegimes (rob : Rob) (sig2nk : Bool) (D : Data ι ρ) (rs : List ρ) (names : List String) (s : ℕ) (slx : Option (List Bool)) :
    Py (List String × Asm ℝ) := do
  let p ← withWX D.w D.x names s slx
  multi .tsls (D.yend.getD []).length constOn rs D.regimes p.2 p.1 fun r cols =>
    workTSLS rob sig2nk D.y (D.yend.getD []) (D.q.getD []) (regiIds D.regimes r) cols

/-- `ML_Lag_Regimes` with `regime_lag_sep=True`: ml_lag_regimes.py:349-412, 473-625. -/
noncomputable def mlLagRegimes (opt : (ℝ → ℝ) → ℝ) (jac : (m : ℕ) → Matrix (Fin m) (Fin m) ℝ → ℝ → ℝ) (eps : ℝ) (D : Data ι ρ) (rs : List ρ)
    (names : List String) (s : ℕ) (slx : Option (List Bool)) : Py (List String × Asm ℝ) := do
  let p ← withWX D.w D.x names s slx
  let wi ← WReg.wRegimes D.w D.regimes rs true (some (p.1.length + 2))
  multi .mlLag 0 constOn rs D.regimes p.2 p.1 fun r cols => do
    let wr ← WReg.getW wi.1 r
    workMLLag opt jac eps D.y wr (regiIds D.regimes r) cols

/-- `x_constant`, `yend2` and `q2` of `GM_Lag_Regimes`, twosls_sp_regimes.py:515-537: with `slx_lags > 0` the spatial lag of `y` and its
instruments are computed here, with the complete weights. -/
noncomputable def gmLagPre (D : Data ι ρ) (wLags : ℕ) (lagQ : Bool) (s : ℕ) (slx : Lags.SlxVars) :
    Py (List (ℕ → ℝ) × Option (List (ℕ → ℝ)) × Option (List (ℕ → ℝ))) :=
  if s > 0 then do
    let o ← Lags.setEndog (lagC D.w) D.y D.x D.yend D.q wLags lagQ s slx
    return (D.x ++ o.lagX.getD [], some o.yend, some o.q)
  else .ok (D.x, D.yend, D.q)

/-- `GM_Lag_Regimes` with `regime_lag_sep=True` and `regime_err_sep=True`: twosls_sp_regimes.py:504-598, 667-840. `names` are those of the
regressors after line 523. -/
noncomputable def gmLagRegimes (rob : Rob) (sig2nk : Bool) (wLags : ℕ) (lagQ : Bool) (D : Data ι ρ) (rs : List ρ) (names : List String) (s : ℕ)
    (slx : Lags.SlxVars) : Py (List String × Asm ℝ) := do
  let p ← gmLagPre D wLags lagQ s slx
  let wi ← WReg.wRegimes D.w D.regimes rs true (some (p.1.length + (D.yend.getD []).length + 2))
  multi .gmLag (D.yend.getD []).length constOn rs D.regimes names p.1 fun r cols => do
    let wr ← WReg.getW wi.1 r
    workGMLag rob sig2nk s wLags lagQ D.y p.2.1 p.2.2 wr (regiIds D.regimes r) cols

end Spreg.RegWork
