import Verif.Model.Basic
import Verif.Model.Linear
import Mathlib.Analysis.SpecialFunctions.Pow.Real
import Mathlib.LinearAlgebra.Matrix.Trace
/-
Model of the spatial multiplier code: power expansion, inverse products, reduced-form predictions
(utils.py), average and individual multipliers and impacts (sputils.py).
-/
namespace Spreg.Impacts
open Matrix Spreg Spreg.Lin

variable {n : Type} [Fintype n]

/-- `la.norm` of an `n × 1` array: the Euclidean norm. -/
noncomputable def norm2 (v : n → ℝ) : ℝ := Real.sqrt (∑ i, v i ^ 2)

/-- The loop of `power_expansion`, utils.py:660-676 (`post_multiply=False`): `fuel` is
`max_iterations - count + 1`. -/
noncomputable def powLoop (W : Matrix n n ℝ) (scalar threshold : ℝ) :
    (fuel : ℕ) → (total increment : n → ℝ) → (test : ℝ) → Py (n → ℝ)
  | 0, total, _, _ => .ok total
  | fuel + 1, total, increment, test =>
    if threshold < test then
      let increment := scalar • (W *ᵥ increment)
      let total := total + increment
      let test_old := test
      let test := norm2 increment
      if test_old < test then .error .exception
      else powLoop W scalar threshold fuel total increment test
    else .ok total

/-- `power_expansion(w, data, scalar, threshold=..., max_iterations=...)`, utils.py:636-677;
`max_iterations=None` means 10000000. With `post_multiply=True` the code works on the row vector
`data.T`, which is the same loop with `Wᵀ` (`increment @ ws`). -/
noncomputable def powerExpansion (W : Matrix n n ℝ) (data : n → ℝ) (scalar : ℝ) (postMultiply : Bool)
    (threshold : ℝ) (maxIter : Option ℕ) : Py (n → ℝ) :=
  powLoop (if postMultiply then Wᵀ else W) scalar threshold (maxIter.getD 10000000) data data 10000000

/-- `inv_method` -/
inductive InvMethod
  | powerExp | trueInv | other
  deriving DecidableEq

/-- `inverse_prod`, utils.py:545-633, for a libpysal `W`. When the inversion fails, the handler evaluates
`w.shape`, which a `W` object does not have: AttributeError. -/
noncomputable def inverseProd [DecidableEq n] (W : Matrix n n ℝ) (data : n → ℝ) (scalar : ℝ)
    (postMultiply : Bool) (method : InvMethod) (threshold : ℝ) (maxIter : Option ℕ) : Py (n → ℝ) :=
  match method with
  | .powerExp => powerExpansion W data scalar postMultiply threshold maxIter
  | .trueInv =>
    match inv? (1 - scalar • W) with
    | some m => .ok (if postMultiply then data ᵥ* m else m *ᵥ data)
    | none => .error .attributeError
  | .other => .error .exception

/-- Default threshold of `inverse_prod`. -/
noncomputable def defThreshold : ℝ := 0.0000000001

/-- `sp_att(w, y, predy, w_y, rho, hard_bound)`, utils.py:757-777; the Boolean says that the out-of-bounds
warning is returned. -/
noncomputable def spAtt [DecidableEq n] (W : Matrix n n ℝ) (y predy w_y : n → ℝ) (rho : ℝ)
    (hardBound : Bool) : Py ((n → ℝ) × (n → ℝ) × Bool) :=
  let xb := predy - rho • w_y
  if |rho| < 1 then
    (inverseProd W xb rho false .powerExp defThreshold none).map fun p => (p, y - p, false)
  else if hardBound then .error .exception
  else .ok (0, 0, true)

/-! ### Average multipliers -/

/-- `method` of `spmultiplier`. -/
inductive MultMethod
  | simple | full | power | other
  deriving DecidableEq

/-- The dictionary returned by `spmultiplier`. -/
structure Mult where
  ati : ℝ
  adi : ℝ
  aii : ℝ
  pow : ℕ
  method : MultMethod
  warn : Bool

/-- The loop of the power method, sputils.py:317-329: returns `adi` and `pow`; `none` when `fuel` passes do
not reach the tolerance. The loop of the code has no bound. -/
noncomputable def powerAdi [DecidableEq n] (W : Matrix n n ℝ) (rho mtol : ℝ) :
    (fuel : ℕ) → (ww : Matrix n n ℝ) → (rhop : ℝ) → (pow : ℕ) → (adi adidiff : ℝ) → Option (ℝ × ℕ)
  | 0, _, _, pow, adi, adidiff => if mtol < adidiff then none else some (adi, pow)
  | fuel + 1, ww, rhop, pow, adi, adidiff =>
    if mtol < adidiff then
      let pow := pow + 1
      let ww := ww * W
      let trw := trace ww
      let rhop := rhop * rho
      let adidiff := rhop * trw / Fintype.card n
      powerAdi W rho mtol fuel ww rhop pow (adi + adidiff) adidiff
    else some (adi, pow)

/-- `spmultiplier(w, rho, method, mtol)`, sputils.py:280-335. `fuel` bounds the passes of the power loop
(`Except.error .exception` stands for "still running"; every theorem quantifies over `fuel`). -/
noncomputable def spmultiplier [DecidableEq n] (W : Matrix n n ℝ) (rho : ℝ) (method : MultMethod)
    (mtol : ℝ) (fuel : ℕ) : Py Mult :=
  let ati := 1.0 / (1.0 - rho)
  let fin := fun (adi : ℝ) (pow : ℕ) (m : MultMethod) (warn : Bool) =>
    ({ ati := ati, adi := adi, aii := ati - adi, pow := pow, method := m, warn := warn } : Mult)
  if 1.0 - rho = 0 then .error .zeroDivision else
  match method with
  | .simple => .ok (fin 1 0 .simple false)
  | .full => match inv? (1 - rho • W) with
    | some i => .ok (fin ((∑ j, i j j) / Fintype.card n) 0 .full false)
    | none => .error .linAlgError
  | .power => match powerAdi W rho mtol fuel W rho 1 1.0 100.00 with
    | some (adi, pow) => .ok (fin adi pow .power false)
    | none => .error .exception
  | .other => .ok (fin 1 0 .simple true)

/-- `_sp_effects` without spatially lagged regressors, sputils.py:357-361, 393-397: total, direct and
indirect effects of each variable. -/
def spEffects (m : Mult) (betas : List ℝ) : List ℝ × List ℝ × List ℝ :=
  (betas.map (m.ati * ·), betas.map (m.adi * ·), betas.map (m.aii * ·))

/-- One step of the SLX loop of `_sp_effects` (no regimes), sputils.py:385-390: the coefficients of one
block of lagged variables, times `ati`, are added to the totals at positions `xind`. -/
noncomputable def addBlock (ati : ℝ) (btot : List ℝ) (xind : List ℕ) (block : List ℝ) : List ℝ :=
  (xind.zip block).foldl (fun t p => t.set p.1 (t.getD p.1 0 + ati * p.2)) btot

/-- `_sp_effects` with `slx_lags > 0` and no regimes, sputils.py:372-392: `wx` are the coefficients of the
lagged variables (all blocks), `mask` is `slx_vars` (or all true). NumPy's `btot[xind] = btot[xind] + bmult`
reads all entries before writing; the positions `xind` are distinct, so the sequential form is the same. -/
noncomputable def spEffectsSLX (m : Mult) (betas wx : List ℝ) (slxLags : ℕ) (mask : List Bool) :
    List ℝ × List ℝ × List ℝ :=
  let btot := betas.map (m.ati * ·)
  let bdir := betas.map (m.adi * ·)
  let xind := ((List.range betas.length).zip mask).filterMap fun p => if p.2 then some p.1 else none
  let chunk := wx.length / slxLags
  let btot := (List.range slxLags).foldl (fun t i => addBlock m.ati t xind ((wx.drop (i * chunk)).take chunk)) btot
  (btot, bdir, List.zipWith (· - ·) btot bdir)

/-! ### Individual multipliers -/

/-- One row of the table of `i_multipliers`. -/
structure Impact where
  direct : ℝ
  eofNbrs : ℝ
  eonNbrs : ℝ

/-- `i_multipliers(w, coef, model)` for dense or `W` weights, sputils.py:441-487. -/
inductive IModel
  | slx | kernel | lag | other
  deriving DecidableEq

/-- Rows of the table for a matrix of direct effects and a matrix with them removed, sputils.py:470-487. -/
def impactRows (direct : n → ℝ) (ww : Matrix n n ℝ) (i : n) : Impact :=
  { direct := direct i, eofNbrs := ∑ j, ww i j, eonNbrs := ∑ j, ww j i }

/-- `np.fill_diagonal(ww, 0)` -/
def zeroDiag [DecidableEq n] (a : Matrix n n ℝ) : Matrix n n ℝ :=
  Matrix.of fun i j => if i = j then 0 else a i j

/-- `i_multipliers`, sputils.py:399-487. -/
noncomputable def iMultipliers [DecidableEq n] (W : Matrix n n ℝ) (coef : ℝ) (model : IModel) :
    Py (n → Impact) :=
  match model with
  | .slx => .ok (impactRows 0 W)
  | .kernel => .ok (impactRows (fun i => W i i) (zeroDiag W))
  | .lag => match inv? (1 - coef • W) with
    | some m => .ok (impactRows (fun i => m i i) (zeroDiag m))
    | none => .error .linAlgError
  | .other => .error .exception

end Spreg.Impacts
