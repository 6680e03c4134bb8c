import Verif.Model.Skater
import Verif.Model.OptimK
import Verif.Model.RegimesMat
import Verif.Model.Lags
import Verif.Model.ML
/-
Model of the endogenous regimes classes: OLS_Endog_Regimes (ols_regimes.py:1045-1089), TSLS_Endog_Regimes
(twosls_regimes.py:1062-1105), GM_Lag_Endog_Regimes (twosls_sp_regimes.py:1315-1356): clustering with
`Skater_reg`, choice of the number of regimes, regression by regimes.

* The spanning forest, the connected components and the score of one region are parameters, as in `Verif.Model.Skater`.
  Exceptions raised by the regressions of the search are not modelled.
* `n*0.70//quorum` is computed with exact numbers (the code uses binary floating point).
* Checks of the arguments before the search, names and the summary are not modelled here.
-/
namespace Spreg.Endog
open Spreg Spreg.Skater Matrix

variable {n : ℕ}

/-- First component of an entry of `_trace`: the list `[]`, `None`, or an array of labels. -/
inductive Lab (n : ℕ) where
  | empty
  | noLab
  | lab (l : Labels n)

/-- An entry of `_trace`: labels and `deletion.score`; `none` is infinity. -/
abbrev Entry (n : ℕ) := Lab n × Option ℝ

/-- `self._trace.append((current_labels, best_deletion))`, skater_reg.py:330-331. -/
def entryOf : Option (Labels n × ℝ) → Entry n
  | none => (.noLab, none)
  | some (l, s) => (.lab l, some s)

/-- `_trace` of a search with `trace=True`: the first entry is `([], inf)`, skater_reg.py:281-282, 330-331. -/
def pyTrace (R : Res n) : List (Entry n) := (.empty, none) :: R.trace.map entryOf

/-- `[_trace[i][1][2] for i in range(1, len(_trace))]`, ols_regimes.py:1068, 1084. -/
def ssrOf (t : List (Entry n)) : List (Option ℝ) := t.tail.map Prod.snd

/-- The comparison utils.py:866 on a list that may hold infinity: `inf < v` is False. An infinite entry can only be the
last one, and then no window of the loop contains it (see `C156_auto_partial`). -/
def condX (t : List (Option ℝ)) (w i : ℕ) : Prop :=
  match t.getD (i + w) none with
  | none => False
  | some _ => OptK.cond (t.map fun v => v.getD 0) w i

open Classical in
/-- The loop utils.py:861-867. -/
noncomputable def goX (t : List (Option ℝ)) (w : ℕ) : ℕ → ℕ → ℕ
  | 0, i => i
  | fuel + 1, i => if condX t w i then goX t w fuel (i + 1) else i + 1

/-- `optim_k(trace)` with the default window, utils.py:850-868. -/
noncomputable def optimKX (t : List (Option ℝ)) : Py ℕ :=
  let w := OptK.window t.length none
  if t.length = 0 then .error .valueError
  else if w = 1 ∧ 1 < t.length then .error .zeroDivision
  else .ok (goX t w (t.length - w) 0 + w)

/-- `if quorum < 0: quorum = np.max([(x.shape[1]+1)*10, 30])`, ols_regimes.py:1059-1060, twosls_regimes.py:1079-1080,
twosls_sp_regimes.py:1329-1330. -/
def quorumOf (cols : ℕ) (quorum : ℤ) : ℕ := if quorum < 0 then max ((cols + 1) * 10) 30 else quorum.toNat

/-- `x.shape[0]*0.70//quorum`, ols_regimes.py:1063. -/
def nOpt (n q : ℕ) : ℕ := 7 * n / (10 * q)

/-- What the constructor has set after the search. -/
structure Search (n : ℕ) where
  clusters : Lab n
  score : Option ℝ
  trace : List (Entry n)

/-- `current_labels_`, skater_reg.py:333. -/
def labOf : Option (Labels n) → Lab n
  | none => .noLab
  | some l => .lab l

/-- ols_regimes.py:1059-1084, twosls_regimes.py:1079-1101, twosls_sp_regimes.py:1329-1352. With a number of clusters, an
exception of `fit` is printed and the next statement uses the unbound name `sk_reg_results`; with `trace=False` the
attribute `_trace` does not exist. -/
noncomputable def search (cc : List (Edge n) → ℕ × Labels n) (ρ : Finset (Fin n) → Option ℝ) (E : List (Edge n))
    (cols : ℕ) (nClusters : Option ℕ) (quorum : ℤ) (trace : Bool) : Py (Search n) :=
  let q := quorumOf cols quorum
  match nClusters with
  | some (k + 1) =>
    match fit cc ρ q (k + 1) false E with
    | .error _ => .error .unboundLocal
    | .ok R =>
      if trace then .ok ⟨labOf R.labels, ((pyTrace R).getLast?.map Prod.snd).getD none, pyTrace R⟩
      else .error .attributeError
  | _ =>
    if q = 0 then .error .zeroDivision
    else if nOpt n q < 2 then .error .valueError
    else do
      let R ← fit cc ρ q (nOpt n q) false E
      let k ← optimKX (ssrOf (pyTrace R))
      match (pyTrace R)[k - 1]? with
      | none => .error .indexError
      | some e => return ⟨e.1, e.2, pyTrace R⟩

/-- Checks of the regimes at the start of the regimes classes: `check_reg_list` user_output.py:801-814 and `check_regimes`
user_output.py:817-840 with `K` columns. -/
def accept (K : ℕ) : Lab n → Py (Labels n)
  | .noLab => .error .exception
  | .empty => if n = 0 then .ok fun _ => 0 else .error .exception
  | .lab g =>
    let R := (Finset.univ.image g).card
    if R < 2 then .error .exception
    else if n < (K + 1) * R then .error .exception
    else .ok g

/-- Attributes of the fitted object. `fit r` is the regression of regime `r` (`none` for labels that do not occur). -/
structure Fitted (n : ℕ) (k : Type) where
  clusters : Labels n
  score : Option ℝ
  ssr : List (Option ℝ)
  betas : ℕ → k → ℝ
  u : Fin n → ℝ

open Classical in
/-- `OLS_Endog_Regimes`, ols_regimes.py:1059-1087: the search, then `OLS_Regimes(..., constant_regi='many', cols2regi='all',
regime_err_sep=True)`, that is one regression for every regime (ols_regimes.py:470-495, 560-640), with `x` including the
constant and `cols` the number of its other columns. `LinAlgError` when a regime is singular. -/
noncomputable def olsEndog {k : Type} [Fintype k] [DecidableEq k] (cc : List (Edge n) → ℕ × Labels n)
    (ρ : Finset (Fin n) → Option ℝ) (E : List (Edge n)) (x : Matrix (Fin n) k ℝ) (y : Fin n → ℝ) (cols : ℕ)
    (nClusters : Option ℕ) (quorum : ℤ) (trace : Bool) : Py (Fitted n k) := do
  let S ← search cc ρ E cols nClusters quorum trace
  let g ← accept cols S.clusters
  if ∀ i, (Lin.ols (RegimesMat.sub x g (g i)) (RegimesMat.subv y g (g i))).isSome then
    return ⟨g, S.score, ssrOf S.trace,
      fun r => match Lin.ols (RegimesMat.sub x g r) (RegimesMat.subv y g r) with
        | some f => f.betas
        | none => 0,
      fun i => match Lin.ols (RegimesMat.sub x g (g i)) (RegimesMat.subv y g (g i)) with
        | some f => f.u ⟨i, rfl⟩
        | none => 0⟩
  else .error .linAlgError

/-- The state of the weights object after `fit`: `W.transform = "b"`, skater_reg.py:225. -/
def fitTransform (_t : ML.Transform) : ML.Transform := .b

/-- The weights with which `GM_Lag_Endog_Regimes` estimates the final model, twosls_sp_regimes.py:1335-1356: the object that
`fit` received, whatever its transform was. -/
noncomputable def finalW (A : Matrix (Fin n) (Fin n) ℝ) (t : ML.Transform) : Matrix (Fin n) (Fin n) ℝ :=
  ML.weightsOf A (fitTransform t)

/-- Endogenous variables and instruments of the regressions of the search, `_prep_lag` skater_reg.py:538-542; `x` are the
columns of `data_reg["x"]`, which the classes pass without a constant (twosls_sp_regimes.py:1320, 1338). -/
def prepLag {α : Type} (W : α → α) (y : α) (x : List α) : Py (Lags.EndogOut α) :=
  Lags.setEndog W y x.tail none none 1 true 0 .all

end Spreg.Endog
