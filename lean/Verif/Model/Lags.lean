import Verif.Model.Basic
/-
Model of the construction of spatial lags, instruments and their names.

A data matrix is the list of its columns (`List α`); `W : α → α` is the spatial-lag operator on one
column (`lag_spatial(w, x)` of libpysal applies `w.sparse` to every column of `x`; for panels the
operator is `kron(I_T, w.sparse)`), so no linearity is needed for the bookkeeping facts.
`sphstack` of two matrices is list append (row-dimension mismatches are not modelled: all
columns have the common number of rows that `check_arrays` enforces).
-/
namespace Spreg.Lags
open Spreg

variable {α : Type}

/-- `lag_spatial(w, x)`: libpysal, used at utils.py:497 — columnwise application of `W`. -/
def lagM (W : α → α) (x : List α) : List α := x.map W

/-- The `for` loop of utils.py:501-503: `lag` is the last block, `acc` the stacked matrix. -/
def getLagsLoop (W : α → α) : Nat → List α → List α → List α
  | 0, _, acc => acc
  | i + 1, lag, acc => getLagsLoop W i (lagM W lag) (acc ++ lagM W lag)

/-- `get_lags(w, x, w_lags)` utils.py:471-505. `range(w_lags - 1)` is empty for `w_lags ≤ 1`,
so `w_lags = 0` gives the same as `w_lags = 1`, as in the code (negative `w_lags` likewise; here `Nat`). -/
def getLags (W : α → α) (x : List α) (wLags : Nat) : List α :=
  getLagsLoop W (wLags - 1) (lagM W x) (lagM W x)

/-- First loop of `get_lags_split`, utils.py:533-535: returns (`lag`, `rs_l`). -/
def splitLoopL (W : α → α) : Nat → List α → List α → List α × List α
  | 0, lag, acc => (lag, acc)
  | i + 1, lag, acc => splitLoopL W i (lagM W lag) (acc ++ lagM W lag)

/-- Second loop of `get_lags_split`, utils.py:537-539; `rs_h` starts as `None`, the first pass sets
it to `lag`. -/
def splitLoopH (W : α → α) : Nat → List α → Option (List α) → Option (List α)
  | 0, _, h => h
  | i + 1, lag, h =>
    splitLoopH W i (lagM W lag)
      (match h with
       | none => some (lagM W lag)
       | some a => some (a ++ lagM W lag))

/-- `get_lags_split(w, x, max_lags, split_at)` utils.py:507-543. -/
def getLagsSplit (W : α → α) (x : List α) (maxLags splitAt : Nat) : Py (List α × List α) :=
  if 0 < splitAt ∧ splitAt < maxLags then
    let l := splitLoopL W (splitAt - 1) (lagM W x) (lagM W x)
    match splitLoopH W (maxLags - splitAt) l.1 none with
    | some h => .ok (l.2, h)
    | none => .error .typeError
  else .error .valueError

/-- The `slx_vars` argument: the string "all" (any case), another string, or a list of booleans. -/
inductive SlxVars where
  | all
  | badString
  | mask (m : List Bool)
  deriving DecidableEq, Repr

/-- NumPy boolean column selection `a[:, mask]` (utils.py:719, user_output.py:990-992):
`IndexError` unless the mask is as long as the number of columns. -/
def maskCols (m : List Bool) (x : List α) : Py (List α) :=
  if m.length = x.length then .ok (((m.zip x).filter (·.1)).map (·.2)) else .error .indexError

/-- `itertools.compress(data, selectors)`: stops at the shorter list. user_output.py:182, 991, 993. -/
def compress {β : Type} (data : List β) (sel : List Bool) : List β :=
  ((sel.zip data).filter (·.1)).map (·.2)

/-- What `set_endog` returns: the endogenous matrix, the instruments, and for `slx_lags > 0`
also the lagged exogenous columns. -/
structure EndogOut (α : Type) where
  yend : List α
  q : List α
  lagX : Option (List α)

/-- `set_endog(y, x, w, yend, q, w_lags, lag_q, slx_lags, slx_vars)` utils.py:680-720.
`yend` (and `q`) are `none` for Python `None`; the branch "invalid value passed to yend" (another
type) is not representable. When `yend` is an array and `q` is `None`, `sphstack` raises
(sputils.py:109-120: type `NoneType` is accepted by no branch), modelled by `.exception`. -/
def setEndog (W : α → α) (y : α) (x : List α) (yend q : Option (List α)) (wLags : Nat)
    (lagQ : Bool) (slxLags : Nat) (slxVars : SlxVars) : Py (EndogOut α) := do
  let yl := W y
  let r : List α × List α × List α ← (match yend with
    | some ye => do
      let (lagX, lagXq) ← (if slxLags > 0 then getLagsSplit W x (slxLags + 1) slxLags
                           else pure ([], x) : Py (List α × List α))
      match q with
      | none => .error .exception
      | some q0 =>
        let lagVars := if lagQ then lagXq ++ q0 else lagXq
        let spatialInst := getLags W lagVars wLags
        pure (ye ++ [yl], q0 ++ spatialInst, lagX)
    | none => do
      let (lagX, lagXq) ← (if slxLags > 0 then getLagsSplit W x (slxLags + wLags) slxLags
                           else pure ([], getLags W x wLags) : Py (List α × List α))
      pure ([yl], lagXq, lagX))
  if slxLags = 0 then pure ⟨r.1, r.2.1, none⟩
  else match slxVars with
    | .all => pure ⟨r.1, r.2.1, some r.2.2⟩
    | .badString => .error .valueError
    | .mask m =>
      if m.length ≠ x.length then .error .exception
      else do
        let lx ← maskCols m r.2.2
        pure ⟨r.1, r.2.1, some lx⟩

/-- Loop of `set_endog_sparse`, utils.py:735-736 and 741-742: `s = hstack(s, w @ s)`. -/
def sparseLoop (W : α → α) : Nat → List α → List α
  | 0, s => s
  | i + 1, s => sparseLoop W i (s ++ lagM W s)

/-- `set_endog_sparse(y, x, w, yend, q, w_lags, lag_q)` utils.py:723-746. -/
def setEndogSparse (W : α → α) (y : α) (x : List α) (yend q : Option (List α)) (wLags : Nat)
    (lagQ : Bool) : Py (EndogOut α) :=
  let yl := W y
  match yend with
  | some ye =>
    match q with
    | none => .error .exception
    | some q0 =>
      let lagVars := if lagQ then x ++ q0 else x
      .ok ⟨ye ++ [yl], q0 ++ sparseLoop W (wLags - 1) (lagM W lagVars), none⟩
  | none => .ok ⟨[yl], sparseLoop W (wLags - 1) (lagM W x), none⟩

/-! ### Names -/

/-- One comprehension `["W" + str(p) + "_" + s for s in names]`, user_output.py:186, 191. -/
def nameBlock (p : Nat) (names : List String) : List String :=
  names.map fun s => "W" ++ toString p ++ "_" ++ s

/-- Loop user_output.py:185-187, iteration `i` out of `w_lags - 1`, with `done` passes already made. -/
def nameLoop (names : List String) : Nat → Nat → List String → List String
  | 0, _, acc => acc
  | i + 1, done, acc => nameLoop names i (done + 1) (acc ++ nameBlock (done + 2) names)

/-- Loop user_output.py:190-191. -/
def nameLoop2 (names : List String) (nI : Nat) : Nat → Nat → List String → List String
  | 0, _, acc => acc
  | i + 1, done, acc => nameLoop2 names nI i (done + 1) (acc ++ nameBlock (done + nI + 1) names)

/-- `set_name_spatial_lags(names, w_lags)` with `additional = 0` and `slx_vars` either "all" or a list,
user_output.py:161-194. -/
def setNameSpatialLags (names : List String) (wLags : Nat) (slx : Option (List Bool)) : List String :=
  let names := match slx with
    | none => names
    | some m => compress names m
  nameLoop names (wLags - 1) 0 (names.map ("W_" ++ ·))

/-- `set_name_spatial_lags(names, w_lags, additional=a)` with `a > 0`: the pair of name lists,
user_output.py:161-194. `n_i = 1 + max(w_lags - 1, 0)`. -/
def setNameSpatialLags2 (names : List String) (wLags additional : Nat) : List String × List String :=
  (setNameSpatialLags names wLags none,
   nameLoop2 names (1 + (wLags - 1)) additional 0 [])

/-- Result of `flex_wx`. -/
structure FlexOut (α : Type) where
  x : List α
  nameX : List String
  q : Option (List α × List String)

/-- `flex_wx(w, x, name_x, constant, slx_lags, slx_vars, panel, q_lags)` user_output.py:945-1016.
`W` is the panel operator when `panel=True` and `q_lags = 0` (line 1012). `slx = none` is any
non-list `slx_vars`. `sum(q_vars) > 0` is "some variable is not lagged". -/
def flexWx (W : α → α) (x : List α) (nameX : List String) (constant : Bool) (slxLags : Nat)
    (slx : Option (List Bool)) (qLags : Nat) : Py (FlexOut α) := do
  let xwork := if constant then x.tail else x
  let xname := if constant then nameX.tail else nameX
  match slx with
  | none =>
    if qLags > 0 then
      let (lagx, lagxq) ← getLagsSplit W xwork (slxLags + qLags) slxLags
      let (xl, ql) := setNameSpatialLags2 xname slxLags qLags
      pure ⟨x ++ lagx, nameX ++ xl, some (lagxq, ql)⟩
    else
      pure ⟨x ++ getLags W xwork slxLags, nameX ++ setNameSpatialLags xname slxLags none, none⟩
  | some m =>
    if m.length = xname.length then
      let qv := m.map not
      let xw ← maskCols m xwork
      let xn := compress xname m
      if qLags > 0 then
        let qwork ← (if qv.any id then maskCols qv xwork else pure [])
        let (lagx, lagxq) ← getLagsSplit W xw (slxLags + qLags) slxLags
        let (xl, ql) := setNameSpatialLags2 xn slxLags qLags
        if qv.any id then
          let q2 := getLags W qwork qLags
          let qn2 := setNameSpatialLags (compress xname qv) qLags none
          pure ⟨x ++ lagx, nameX ++ xl, some (lagxq ++ q2, qn2 ++ ql)⟩
        else
          pure ⟨x ++ lagx, nameX ++ xl, some (lagxq, [] ++ ql)⟩
      else
        pure ⟨x ++ getLags W xw slxLags, nameX ++ setNameSpatialLags xn slxLags none, none⟩
    else .error .exception

/-! ### Names of instruments -/

/-- Assoc-list version of the dictionary `name_count`, user_output.py:220-227. -/
abbrev Counts := List (String × Nat)

def Counts.get (c : Counts) (k : String) : Option Nat := (c.find? (·.1 == k)).map (·.2)
def Counts.set (c : Counts) (k : String) (v : Nat) : Counts := (k, v) :: c.filter (fun p => !(p.1 == k))

/-- `name.startswith("W_")`. -/
def startsW (s : String) : Bool := s.toList.take 2 == ['W', '_']
/-- `name[2:]`. -/
def drop2 (s : String) : String := String.ofList (s.toList.drop 2)

/-- user_output.py:222-227. -/
def initCounts (names : List String) : Counts :=
  names.foldl (fun c nm =>
    if startsW nm then
      (if (c.get (drop2 nm)).isNone then c.set (drop2 nm) 2 else c)
    else c.set nm 2) []

/-- State of the double loop: (names produced, existing names, counts). -/
structure QState where
  out : List String
  existing : List String
  counts : Counts

/-- Body of the inner loop, user_output.py:231-241. A missing count is a Python `KeyError`; it cannot
happen (every name was counted at 222-227), the model uses `2` there. -/
def qStep (st : QState) (nm : String) : QState :=
  if startsW nm then
    let b := drop2 nm
    let c := (st.counts.get b).getD 2
    let l := "W" ++ toString c ++ "_" ++ b
    ⟨st.out ++ [l], l :: st.existing, st.counts.set b (c + 1)⟩
  else if ("W_" ++ nm) ∉ st.existing then
    let l := "W_" ++ nm
    ⟨st.out ++ [l], l :: st.existing, st.counts⟩
  else
    let c := (st.counts.get nm).getD 2
    let l := "W" ++ toString c ++ "_" ++ nm
    ⟨st.out ++ [l], l :: st.existing, st.counts.set nm (c + 1)⟩

/-- `set_name_q_sp(name_x, w_lags, name_q, lag_q, force_all)` user_output.py:196-242. -/
def setNameQSp (nameX : List String) (wLags : Nat) (nameQ : List String) (lagQ forceAll : Bool) :
    List String :=
  let names0 := if forceAll then nameX else nameX.tail
  let names := if lagQ then names0 ++ nameQ else names0
  let round := fun (st : QState) => names.foldl qStep st
  (Nat.repeat round wLags ⟨[], names, initCounts names⟩).out

end Spreg.Lags
