import Verif.Model.Basic
import Mathlib.Data.Real.Basic
import Mathlib.Order.Lattice
/-
Model of spsearch.py: the specification searches.

A p-value is a real or NaN (`none`); a comparison with NaN is false. Estimation is an oracle: for each
specification it gives the p-values the search looks at, or says that the constructor raised (parameters out
of bounds with `hard_bound=True`, singular matrices). The OLS constructor is taken not to raise. The oracle
is deterministic: the same call gives the same answer. The arguments that only label the output, `robust` and
`sig2n_k` are not modelled (the code does not use the last two). Printing is not modelled.
-/
namespace Spreg.Search

/-- A p-value; `none` is NaN. -/
abbrev PV := Option ℝ

/-- `a < p`. -/
noncomputable def lt (a : PV) (p : ℝ) : Bool := match a with | some r => decide (r < p) | none => false
/-- `a >= p`. -/
noncomputable def ge (a : PV) (p : ℝ) : Bool := match a with | some r => decide (p ≤ r) | none => false
/-- `a > p`. -/
noncomputable def gt (a : PV) (p : ℝ) : Bool := match a with | some r => decide (p < r) | none => false
/-- `a <= p`. -/
noncomputable def le (a : PV) (p : ℝ) : Bool := match a with | some r => decide (r ≤ p) | none => false
/-- `a <= b` of two p-values. -/
noncomputable def le2 (a b : PV) : Bool := match a, b with | some r, some s => decide (r ≤ s) | _, _ => false
/-- `a > b` of two p-values. -/
noncomputable def gt2 (a b : PV) : Bool := match a, b with | some r, some s => decide (s < r) | _, _ => false

/-- The regressions a search can return: least squares, spatial lag, spatial error and lag-plus-error, each
with the number of spatial lags of x in the regression. -/
inductive Fit where
  | ols (slx : ℕ)
  | lag (slx : ℕ)
  | err (slx : ℕ)
  | sarsar (slx : ℕ)
  deriving DecidableEq

/-- Diagnostics of an OLS regression read by the searches (spsearch.py:163-169, 409-413, 607-608). -/
structure OlsOut where
  lmError : PV
  lmLag : PV
  rlmError : PV
  rlmLag : PV
  lmWx : PV
  rlmWx : PV
  rlmDurlag : PV
  lmSpdurbin : PV

/-- What is read from a lag model: the p-values of `z_stat` from position `1 + k`, the common factor test and
the Anselin-Kelejian test (which may raise). -/
structure LagOut where
  spat : List PV
  cfh : PV
  ak : Py PV

/-- The estimators, as oracles; the argument is `slx_lags`. `none`: the constructor raised. -/
structure World where
  ols : ℕ → OlsOut
  lag : ℕ → Option LagOut
  err : ℕ → Option (List PV)
  sarsar : ℕ → Option (List PV)

/-- Does the estimation of a specification succeed? -/
def World.ok (E : World) : Fit → Bool
  | .ols _ => true
  | .lag s => (E.lag s).isSome
  | .err s => (E.err s).isSome
  | .sarsar s => (E.sarsar s).isSome

/-- `np.max` with NaN propagation; `ValueError` on an empty array. -/
noncomputable def npMax : List PV → Py PV
  | [] => .error .valueError
  | a :: l => .ok (l.foldl (fun m b => match m, b with | some x, some y => some (max x y) | _, _ => none) a)
/-- `np.min` with NaN propagation. -/
noncomputable def npMin : List PV → Py PV
  | [] => .error .valueError
  | a :: l => .ok (l.foldl (fun m b => match m, b with | some x, some y => some (min x y) | _, _ => none) a)

/-- `np.argmax`: the first NaN if there is one, otherwise the first position of the maximum. The scan keeps the
best position and value so far. -/
noncomputable def argmaxGo : ℕ → ℕ → PV → List PV → ℕ
  | _, best, _, [] => best
  | _, best, none, _ => best
  | i, best, some m, b :: l =>
    match b with
    | none => i
    | some y => if m < y then argmaxGo (i + 1) i (some y) l else argmaxGo (i + 1) best (some m) l
noncomputable def argmax : List PV → Py ℕ
  | [] => .error .valueError
  | a :: l => .ok (argmaxGo 1 0 a l)

/-- The final estimation `try: finreg = ... except: result = result + msg; finreg = False`. -/
def estimate (E : World) (f : Fit) (name msg : String) : String × Option Fit :=
  if E.ok f then (name, some f) else (name ++ msg, none)

def msgLag := " -- Exception: GM LAG parameters outside bounds"
def msgLagKB := " -- Exception: GM Lag parameters outside bounds"
def msgErr := " -- Exception: GMM Error parameters outside bounds"
def msgSarsar := " -- Exception: SARSAR parameters outside bounds"
def msgSdm := " -- Exception: SDM parameters outside bounds"
def msgPre := " -- Exception: autoregressive parameters outside bounds"

/-- The selection of `stge_classic`, spsearch.py:172-234: the label and the model indicator `k`; `none` when no
branch assigns `result`. -/
noncomputable def classicSel (E : World) (p : ℝ) : Option (String × ℕ) :=
  let d := E.ols 0
  if ge d.lmLag p && ge d.lmError p then some ("OLS", 0)
  else if lt d.lmLag p && ge d.lmError p then some ("LAG", 1)
  else if ge d.lmLag p && lt d.lmError p then some ("ERROR", 2)
  else if lt d.lmLag p && lt d.lmError p then
    if lt d.rlmLag p && ge d.rlmError p then some ("LAGr", 1)
    else if ge d.rlmLag p && lt d.rlmError p then some ("ERRORr", 2)
    else if lt d.rlmLag p && lt d.rlmError p then
      match (E.lag 0).map LagOut.ak with
      | some (.ok a) =>
        if le a p then some ("SARSAR", 3)
        else if le2 d.rlmLag d.rlmError then some ("LAG_BR", 4)
        else if gt2 d.rlmLag d.rlmError then some ("ERROR_Br", 2)
        else none
      | _ =>                                             -- except:
        if le2 d.rlmLag d.rlmError then some ("LAG_BR", 1) else some ("ERROR_Br", 2)
    else if le2 d.rlmLag d.rlmError then some ("LAG_Nr", 4)
    else if gt2 d.rlmLag d.rlmError then some ("ERROR_Nr", 2)
    else none
  else none

/-- `stge_classic`, spsearch.py:20-302 (after the OLS regression). The result is used (printed or returned)
in every case, so an unassigned `result` raises. -/
noncomputable def stgeClassic (E : World) (p : ℝ) (finmod : Bool) : Py (String × Option Fit) :=
  match classicSel E p with
  | none => .error .unboundLocal
  | some (result, k) =>
    if finmod then
      if k = 0 then .ok (result, some (.ols 0))
      else if k = 1 ∨ k = 4 then .ok (estimate E (.lag 0) result msgLag)
      else if k = 2 then .ok (estimate E (.err 0) result msgErr)
      else if k = 3 then .ok (estimate E (.sarsar 0) result msgSarsar)
      else .ok (result, none)
    else .ok (result, none)

/-- `stge_kb`, spsearch.py:418-493. -/
noncomputable def stgeKb (E : World) (p : ℝ) (finmod : Bool) : Py (String × Option Fit) :=
  let d := E.ols 0
  let (result, k) : String × ℕ :=
    if gt d.lmSpdurbin p then ("OLS", 0)
    else if lt d.rlmWx p && lt d.rlmDurlag p then ("SDM", 3)
    else if lt d.rlmDurlag p then ("LAG", 1)
    else if lt d.rlmWx p then ("SLX", 2)
    else ("OLS", 0)
  if finmod then
    if k = 0 then .ok (result, some (.ols 0))
    else if k = 1 then .ok (estimate E (.lag 0) result msgLagKB)
    else if k = 2 then .ok (result, some (.ols 1))
    else if k = 3 then .ok (estimate E (.lag 1) result msgSdm)
    else .ok (result, none)
  else .ok (result, none)

/-- The list `models` of `stge_pre`, spsearch.py:576. -/
def models : List String := ["OLS", "LAG", "ERROR", "SARSAR", "SLX", "SDM", "SLX-ERR", "GNS"]

/-- The selection of `stge_pre`, spsearch.py:611-713: `slx`, label and indicator. The indicator never
exceeds 7, so the list access does not fail. -/
noncomputable def preSel (E : World) (p : ℝ) : ℕ × Option (String × ℕ) :=
  let slx := if lt (E.ols 0).lmWx p && lt (E.ols 0).rlmWx p then 1 else 0
  let idv := slx * 4
  let d := E.ols slx
  let pick (j : ℕ) : Option (String × ℕ) := some (models.getD (idv + j) "", idv + j)
  (slx,
    if ge d.lmLag p && ge d.lmError p then pick 0
    else if lt d.lmLag p && ge d.lmError p then pick 1
    else if ge d.lmLag p && lt d.lmError p then pick 2
    else if lt d.lmLag p && lt d.lmError p then
      if lt d.rlmLag p && ge d.rlmError p then pick 1
      else if ge d.rlmLag p && lt d.rlmError p then pick 2
      else if lt d.rlmLag p && lt d.rlmError p then
        match (E.lag slx).map LagOut.ak with
        | some (.ok a) =>
          if le a p then pick 3
          else if le2 d.rlmLag d.rlmError then pick 1
          else if gt2 d.rlmLag d.rlmError then pick 2
          else none
        | _ =>
          if le2 d.rlmLag d.rlmError then some (models.getD 1 "", idv + 1)   -- models[1], not models[k]
          else pick 2
      else if le2 d.rlmLag d.rlmError then pick 1
      else if gt2 d.rlmLag d.rlmError then pick 2
      else none
    else none)

/-- `stge_pre`, spsearch.py:496-780. -/
noncomputable def stgePre (E : World) (p : ℝ) (finmod : Bool) : Py (String × Option Fit) :=
  let (slx, sel) := preSel E p
  match sel with
  | none => .error .unboundLocal
  | some (result, k) =>
    if finmod then
      if k = 0 ∨ k = 4 then .ok (result, some (.ols slx))
      else if k = 1 ∨ k = 5 then .ok (estimate E (.lag slx) result msgLag)
      else if k = 2 ∨ k = 6 then .ok (estimate E (.err slx) result msgErr)
      else if k = 3 ∨ k = 7 then .ok (estimate E (.sarsar slx) result msgPre)
      else .ok (result, none)
    else .ok (result, none)

/-- Outcome of the selection part of a general-to-specific search: a model label with the regression already
kept, or an early `return` with an exception message. -/
inductive Sel where
  | stop (msg : String)
  | go (result : String) (kept : Option Fit)

/-- `finreg = model if finmod`. -/
def keep (finmod : Bool) (f : Fit) : Option Fit := if finmod then some f else none

/-- Selection of `gets_gns`, spsearch.py:885-1045. -/
noncomputable def gnsSel (E : World) (p : ℝ) (finmod : Bool) : Py Sel :=
  match E.sarsar 1 with
  | none => .ok (.stop "Exception: GNS parameters out of bounds")
  | some ps => do
    let mx ← npMax ps
    let mn ← npMin ps
    if lt mx p then return .go "GNS" (keep finmod (.sarsar 1))
    else if ge mn p then return .go "OLS" none
    else
      let cand ← argmax ps
      if cand = ps.length - 1 then
        match E.lag 1 with
        | none => return .stop "Exception: SDM parameters out of bounds"
        | some m =>
          let mx ← npMax m.spat
          let mn ← npMin m.spat
          if lt mx p then
            if lt m.cfh p then return .go "SDM" (keep finmod (.lag 1))
            else return .go "ERROR" none
          else if ge mn p then return .go "OLS" none
          else
            let c ← argmax m.spat
            if c = m.spat.length - 1 then return .go "SLX" none
            else return .go "LAG" none
      else if cand + 2 = ps.length then
        match E.err 1 with
        | none => return .stop "Exception: SLX Error parameters out of bounds"
        | some m =>
          let mx ← npMax m
          let mn ← npMin m
          if lt mx p then return .go "SLX-ERR" (keep finmod (.err 1))
          else if ge mn p then return .go "OLS" none
          else
            let c ← argmax m
            if c = m.length - 1 then return .go "SLX" none
            else return .go "ERROR" none
      else
        match E.sarsar 0 with
        | none => return .stop "Exception: SARSAR parameters out of bounds"
        | some m =>
          let mx ← npMax m
          let mn ← npMin m
          if lt mx p then return .go "SARSAR" (keep finmod (.sarsar 0))
          else if ge mn p then return .go "OLS" none
          else
            let c ← argmax m
            if c = m.length - 1 then return .go "LAG" none
            else return .go "ERROR" none

/-- `gets_gns`, spsearch.py:783-1115. -/
noncomputable def getsGns (E : World) (p : ℝ) (finmod : Bool) : Py (String × Option Fit) := do
  match ← gnsSel E p finmod with
  | .stop msg => return (msg, none)
  | .go result kept =>
    if finmod then
      if result = "OLS" then return (result, some (.ols 0))
      else if result = "SLX" then return (result, some (.ols 1))
      else if result = "ERROR" then return estimate E (.err 0) result msgErr
      else if result = "LAG" then return estimate E (.lag 0) result msgLag
      else return (result, kept)
    else return (result, kept)

/-- Selection of `gets_sdm`, spsearch.py:1220-1333. `LMtests(model, w).lme` is the LM error test of the OLS
regression. -/
noncomputable def sdmSel (E : World) (p : ℝ) (finmod : Bool) : Py Sel :=
  match E.lag 1 with
  | none => .ok (.stop "Exception: SDM parameters out of bounds")
  | some m => do
    let mx ← npMax m.spat
    let mn ← npMin m.spat
    if lt mx p then
      if ge m.cfh p then return .go "ERROR" none
      else
        let a ← m.ak
        if lt a p then return .go "GNS" none
        else return .go "SDM" (keep finmod (.lag 1))
    else if ge mn p then
      if lt (E.ols 0).lmError p then return .go "ERROR" none
      else return .go "OLS" (keep finmod (.ols 0))
    else
      let c ← argmax m.spat
      if c = m.spat.length - 1 then
        if lt (E.ols 1).lmError p then return .go "SLX-Err" none
        else return .go "SLX" (keep finmod (.ols 1))
      else
        match E.lag 0 with
        | none => return .stop "Exception: LAG parameters out of bounds"
        | some l =>
          let a ← l.ak
          if lt a p then return .go "SARSAR" none
          else return .go "LAG" (keep finmod (.lag 0))

/-- `gets_sdm`, spsearch.py:1118-1413. -/
noncomputable def getsSdm (E : World) (p : ℝ) (finmod : Bool) : Py (String × Option Fit) := do
  match ← sdmSel E p finmod with
  | .stop msg => return (msg, none)
  | .go result kept =>
    if finmod then
      if result = "ERROR" then return estimate E (.err 0) result msgErr
      else if result = "SARSAR" then
        return estimate E (.sarsar 0) result " -- Exception: SARSAR parameters out of bounds"
      else if result = "SLX-Err" then
        return estimate E (.err 1) result " -- Exception: SLX Error parameters out of bounds"
      else if result = "GNS" then
        return estimate E (.sarsar 1) result " -- Exception: GNS parameters out of bounds"
      else return (result, kept)
    else return (result, kept)

end Spreg.Search
