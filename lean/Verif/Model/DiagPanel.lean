import Verif.Model.LM
import Verif.Model.Basic
import Mathlib.Data.Matrix.Block
import Mathlib.LinearAlgebra.Matrix.Kronecker
import Mathlib.Analysis.SpecialFunctions.Pow.Real
/-
Model of diagnostics_panel.py. Observations of a panel are pairs (period, unit); the stacked weights matrix
`kron(I_t, W)` is a Kronecker product. p-values are not modelled except for the mixture of the joint
BSK test, where the chi-square survival function is a parameter.
-/
namespace Spreg.DPanel
open Matrix Spreg.Lin Spreg.LM
open scoped Kronecker

variable {t n k : Type} [Fintype t] [Fintype n] [Fintype k] [DecidableEq t]

/-- `Wsp_nt`, diagnostics_panel.py:56, 97, 133, 175. -/
def wnt (W : Matrix n n ℝ) : Matrix (t × n) (t × n) ℝ := (1 : Matrix t t ℝ) ⊗ₖ W

/-- `trw`, diagnostics_panel.py:58-60, 98-100, 135-137, 177-179. -/
def trw (W : Matrix n n ℝ) : ℝ := (∑ i, (W * W) i i) + ∑ i, (Wᵀ * W) i i

/-- `num2 = wxb' (I - x xtxi x') wxb`, diagnostics_panel.py:57-62, 134-140, 176-182. -/
noncomputable def num2 [DecidableEq n] (r : Reg (t × n) k) (W : Matrix n n ℝ) : ℝ :=
  let wxb := wnt (t := t) W *ᵥ r.fit.predy
  wxb ⬝ᵥ (((1 : Matrix (t × n) (t × n) ℝ) - r.x * (r.fit.xtxi * r.xᵀ)) *ᵥ wxb)

/-- `utwy`, diagnostics_panel.py:65, 143, 185. -/
def utwy (r : Reg (t × n) k) (W : Matrix n n ℝ) : ℝ := r.fit.u ⬝ᵥ (wnt (t := t) W *ᵥ r.y)

/-- `utwu`, diagnostics_panel.py:101, 138, 180. -/
def utwu (r : Reg (t × n) k) (W : Matrix n n ℝ) : ℝ := r.fit.u ⬝ᵥ (wnt (t := t) W *ᵥ r.fit.u)

/-- `panel_LMlag`, diagnostics_panel.py:52-66, for a regression `r` with variance estimate `s2`
(`ols.sig2`). -/
noncomputable def panelLMlag [DecidableEq n] (r : Reg (t × n) k) (s2 : ℝ) (W : Matrix n n ℝ) : ℝ :=
  let num := num2 r W + trw W * trw W * s2
  let J := num / s2
  utwy r W ^ 2 / (s2 ^ 2 * J)

/-- `panel_LMerror`, diagnostics_panel.py:93-102. -/
noncomputable def panelLMerror (r : Reg (t × n) k) (s2 : ℝ) (W : Matrix n n ℝ) : ℝ :=
  utwu r W ^ 2 / (s2 ^ 2 * Fintype.card t * trw W)

/-- `panel_rLMlag`, diagnostics_panel.py:129-144. -/
noncomputable def panelRLMlag [DecidableEq n] (r : Reg (t × n) k) (s2 : ℝ) (W : Matrix n n ℝ) : ℝ :=
  let num := num2 r W + Fintype.card t * trw W * s2
  let J := num / s2
  (utwy r W / s2 - utwu r W / s2) ^ 2 / (J - Fintype.card t * trw W)

/-- `panel_rLMerror`, diagnostics_panel.py:171-188. -/
noncomputable def panelRLMerror [DecidableEq n] (r : Reg (t × n) k) (s2 : ℝ) (W : Matrix n n ℝ) : ℝ :=
  let num := num2 r W + Fintype.card t * trw W * s2
  let J := num / s2
  (utwu r W / s2 - Fintype.card t * trw W / J * utwy r W / s2) ^ 2 /
    (Fintype.card t * trw W * (1 - Fintype.card t * trw W / J))

/-! ### Hausman -/

/-- `panel_Hausman`, diagnostics_panel.py:211-221, spatial lag case: `dfe` are the coefficients of the fixed
effects model (slopes, rho), `dre` those of the random effects model without constant and phi, `vfe`, `vre`
the corresponding blocks of `varb`. `none`: `LinAlgError`. -/
noncomputable def hausman [DecidableEq k] (dfe dre : k → ℝ) (vfe vre : Matrix k k ℝ) : Option ℝ :=
  let d := dfe - dre
  let vard := vre - vfe
  (inv? vard).map fun vardi => d ⬝ᵥ (vardi *ᵥ d)

/-- The degrees of freedom handed to `chisqprob`, diagnostics_panel.py:221, and the length of `d`, for `kx`
regressors besides the constant. `panel_re.k` is `kx + 2` for `Panel_RE_Lag` (panel_re.py:113, 398; `x`
includes the constant) and `kx + 1` for `Panel_RE_Error` (panel_re.py:474). -/
def hausmanDf (lag : Bool) (kx : ℕ) : ℕ := if lag then kx + 2 else kx + 1
/-- Length of `d`: diagnostics_panel.py:212 (slopes and rho), 214 (slopes). -/
def hausmanLen (lag : Bool) (kx : ℕ) : ℕ := if lag then kx + 1 else kx

/-! ### Baltagi-Song-Koh tests -/

/-- names accepted in `which` -/
inductive BSK | LMJ | LM1 | LM2 | LMCspatial | LMCre
  deriving DecidableEq, Repr

/-- The argument `which`: `"all"`, one name, or a list (diagnostics_panel.py:253-256). -/
inductive Which | all | one (b : BSK) | list (l : List BSK)

/-- diagnostics_panel.py:253-256. -/
def Which.expand : Which → List BSK
  | .all => [.LMJ, .LM1, .LM2, .LMCspatial, .LMCre]
  | .one b => [b]
  | .list l => l

/-- `G`, diagnostics_panel.py:282-286; `u s i` is the residual of unit `i` in period `s`. -/
noncomputable def bskG (u : t → n → ℝ) : ℝ :=
  (∑ i, (∑ s, u s i) ^ 2) / (∑ s, ∑ i, u s i ^ 2) - 1

/-- `LM1`, diagnostics_panel.py:289. `(N * T) / (2 * (T - 1))` is a division of Python integers, which
raises `ZeroDivisionError` for one period. -/
noncomputable def bskLM1 (u : t → n → ℝ) : Py ℝ :=
  if Fintype.card t = 1 then .error .zeroDivision
  else
    let N : ℝ := Fintype.card n
    let T : ℝ := Fintype.card t
    .ok (Real.sqrt ((N * T) / (2 * (T - 1))) * bskG u)

/-- `LM2`, diagnostics_panel.py:310-316. -/
noncomputable def bskLM2 (W : Matrix n n ℝ) (u : t → n → ℝ) : ℝ :=
  let N : ℝ := Fintype.card n
  let T : ℝ := Fintype.card t
  let numH := ∑ s, ∑ i, u s i * (W *ᵥ u s) i
  let H := numH / (∑ s, ∑ i, u s i ^ 2)
  Real.sqrt ((N ^ 2 * T) / tr_t W) * H

/-- The joint test, diagnostics_panel.py:327-340: statistic and p-value; `sf x d` is
`1 - chi2.cdf(x, df=d)`. -/
noncomputable def bskJoint (sf : ℝ → ℕ → ℝ) (lm1 lm2 : ℝ) : ℝ × ℝ :=
  open Classical in
  if lm1 > 0 ∧ lm2 > 0 then
    let j := lm1 ^ 2 + lm2 ^ 2
    (j, 0.5 * sf j 1 + 0.25 * sf j 2)
  else if lm1 > 0 ∧ lm2 ≤ 0 then (lm1 ^ 2, 0.5 * sf (lm1 ^ 2) 1)
  else if lm1 ≤ 0 ∧ lm2 > 0 then (lm2 ^ 2, 0.5 * sf (lm2 ^ 2) 1)
  else (0, 1)

/-- One row of the result: test, statistic, `df`. -/
structure Row where
  test : BSK
  stat : ℝ
  df : ℕ

/-- `BSK_tests`, diagnostics_panel.py:258-501: rows of the result. `u` are the residuals of the pooled
regression, `cs` and `cre` the two conditional statistics (not modelled; lines 353-390, 440-485). In the block
of `LM2` (lines 298-323) the names `u_mat`, `u` and `u_sq_sum` are bound only if the block of `LMJ`/`LM1`
(lines 280-296) ran: otherwise `UnboundLocalError`. -/
noncomputable def bskTests (which : Which) (W : Matrix n n ℝ) (u : t → n → ℝ) (sf : ℝ → ℕ → ℝ)
    (cs cre : ℝ) : Py (List Row) := do
  let w := which.expand
  let first := w.contains .LMJ || w.contains .LM1
  let second := w.contains .LMJ || w.contains .LM2
  let lm1 : Option ℝ ← if first then (bskLM1 u).map some else .ok none
  let r1 : List Row :=
    match lm1 with
    | some v => if w.contains .LM1 then [⟨.LM1, v, 1⟩] else []
    | none => []
  let lm2 : Option ℝ ←
    if second then
      (if first then .ok (some (bskLM2 W u)) else .error .unboundLocal)
    else .ok none
  let r2 : List Row :=
    match lm2 with
    | some v => if w.contains .LM2 then [⟨.LM2, v, 1⟩] else []
    | none => []
  let r3 : List Row :=
    match lm1, lm2 with
    | some a, some b => if w.contains .LMJ then [⟨.LMJ, (bskJoint sf a b).1, 2⟩] else []
    | _, _ => []
  let r4 : List Row := if w.contains .LMCspatial then [⟨.LMCspatial, cs, 1⟩] else []
  let r5 : List Row := if w.contains .LMCre then [⟨.LMCre, cre, 1⟩] else []
  .ok (r1 ++ r2 ++ r3 ++ r4 ++ r5)

end Spreg.DPanel
