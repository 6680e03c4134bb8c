import Verif.Model.Basic
import Mathlib.Data.Rat.Floor
/-
Model of the tables that the SUR classes print: `summary_coefs_sur` (summary_output.py:1336-1397) and the tests of equal coefficients in
`summary_diag_sur` (summary_output.py:1889-1934). The positions are computed by the code with floating point divisions; `rd` rounds the
exact result of an operation. Number formats are not modelled: a row is a name with its values.
-/
namespace Spreg.SURSummary
open Spreg

variable {β : Type}

/-- `int(x)`: truncation towards zero. -/
def trunc (q : ℚ) : ℤ := if 0 ≤ q then ⌊q⌋ else ⌈q⌉

/-- `l[z]` with an integer that may be negative. -/
def pyGet (l : List β) (z : ℤ) : Py β :=
  if 0 ≤ z then (match l[z.toNat]? with | some b => .ok b | none => .error .indexError)
  else if -(l.length : ℤ) ≤ z then (match l[((l.length : ℤ) + z).toNat]? with | some b => .ok b | none => .error .indexError)
  else .error .indexError

/-- One of the loops over positions: the rows added before an `IndexError`, and whether there was none. Row `j` has the name
`names[j]` and the values `vals[off + j]`. -/
def emit (names : List String) (vals : List β) (off : ℕ) : List ℕ → List (String × β) × Bool
  | [] => ([], true)
  | j :: js =>
    match names[j]?, vals[off + j]? with
    | some a, some b => ((a, b) :: (emit names vals off js).1, (emit names vals off js).2)
    | _, _ => ([], false)

/-- `range(len)[lo:hi]`. -/
def rangeSlice (len lo hi : ℕ) : List ℕ := ((List.range len).drop lo).take (hi - lo)

/-- `int(k * regk)` with `regk = len / regK`, summary_output.py:1351-1354, 1363, 1371. -/
def cut (rd : ℚ → ℚ) (len regK k : ℕ) : ℕ := (trunc (rd (k * rd (len / regK)))).toNat

/-- `fixed_rho`, summary_output.py:1365-1369. -/
def fixedRho (rd : ℚ → ℚ) (len regK k : ℕ) : ℕ := if k + 1 = regK ∧ rd (rd (len / regK) * regK) < len then 1 else 0

/-- `int((k + 1) * regkend + fixed_rho)`, summary_output.py:1371. -/
def cutEnd (rd : ℚ → ℚ) (len regK k : ℕ) : ℕ :=
  (trunc (rd (rd ((k + 1 : ℕ) * rd (len / regK)) + fixedRho rd len regK k))).toNat

/-- The rows of regime `k`, summary_output.py:1354-1382: an error in the rows of the endogenous variables is swallowed. Without endogenous
variables (`name_bigyend` does not exist) `ny` is empty. -/
def regimeRows (rd : ℚ → ℚ) (nx ny : List String) (vals : List β) (regK k : ℕ) : Py (List (String × β)) :=
  let x := emit nx vals 0 (rangeSlice nx.length (cut rd nx.length regK k) (cut rd nx.length regK (k + 1)))
  let y := emit ny vals nx.length (rangeSlice ny.length (cut rd ny.length regK k) (cutEnd rd ny.length regK k))
  if x.2 then .ok (x.1 ++ y.1) else .error .indexError

/-- `summary_coefs_sur` for one equation, summary_output.py:1347-1397: `vals` are the coefficients with standard errors, z values and
p-values, `lam` the row of lambda with its name. -/
def eqRows (rd : ℚ → ℚ) (nx ny : List String) (vals : List β) (regK : ℕ) (lam : Option (String × β)) : Py (List (String × β)) := do
  let rows ← (List.range regK).mapM (regimeRows rd nx ny vals regK)
  return rows.flatten ++ lam.toList

/-! ### Tests of equal coefficients between equations -/

/-- The sizes in `summary_diag_sur`: exogenous and endogenous coefficients per equation and number of regimes. -/
structure Sizes where
  kx : ℕ
  kend : ℕ
  regK : ℕ

/-- `k < ((kx + kend) * reg_counter - kend) / regK`, summary_output.py:1907, 1923. -/
def isX (rd : ℚ → ℚ) (s : Sizes) (c k : ℕ) : Bool := (k : ℚ) < rd ((((s.kx + s.kend) * c : ℕ) - (s.kend : ℚ)) / s.regK)

/-- `int(k - (reg_counter - 1) * kend / regK)`, summary_output.py:1908, 1924. -/
def adjX (rd : ℚ → ℚ) (s : Sizes) (c k : ℕ) : ℤ := trunc (rd (k - rd ((((c : ℚ) - 1) * s.kend) / s.regK)))

/-- `int(k - kx * reg_counter / regK)`, summary_output.py:1913. -/
def adjY (rd : ℚ → ℚ) (s : Sizes) (c k : ℕ) : ℤ := trunc (rd (k - rd (((s.kx * c : ℕ) : ℚ) / s.regK)))

/-- `int(kx + k - kx * reg_counter / regK)`, summary_output.py:1926. -/
def adjT (rd : ℚ → ℚ) (s : Sizes) (c k : ℕ) : ℤ := trunc (rd ((s.kx + k : ℕ) - rd (((s.kx * c : ℕ) : ℚ) / s.regK)))

/-- `if k + 1 == (kx + kend) * reg_counter / regK: reg_counter += 1`, summary_output.py:1915-1916, 1927-1928. -/
def nextC (rd : ℚ → ℚ) (s : Sizes) (c k : ℕ) : ℕ :=
  if ((k + 1 : ℕ) : ℚ) = rd ((((s.kx + s.kend) * c : ℕ) : ℚ) / s.regK) then c + 1 else c

/-- One row: the names of all equations at the position, and the test. -/
def chowRow (rd : ℚ → ℚ) (s : Sizes) (nx ny : List (List String)) (tests : List β) (c k : ℕ) : Py (List String × β) :=
  if isX rd s c k then do
    let nm ← nx.mapM fun l => pyGet l (adjX rd s c k)
    let t ← pyGet tests (adjX rd s c k)
    return (nm, t)
  else do
    let nm ← ny.mapM fun l => pyGet l (adjY rd s c k)
    let t ← pyGet tests (adjT rd s c k)
    return (nm, t)

/-- The loops of summary_output.py:1905-1934 (the loop over names and the loop over tests go through the same positions); `m` rows are left. -/
def chowLoop (rd : ℚ → ℚ) (s : Sizes) (nx ny : List (List String)) (tests : List β) : ℕ → ℕ → ℕ → Py (List (List String × β))
  | 0, _, _ => .ok []
  | m + 1, k, c => do
    let r ← chowRow rd s nx ny tests c k
    let rs ← chowLoop rd s nx ny tests m (k + 1) (nextC rd s c k)
    return r :: rs

/-- The table of tests, summary_output.py:1889-1934: one list of names per equation; with `tsls` the number of endogenous variables is that
of the first equation. -/
def chowTable (rd : ℚ → ℚ) (tsls : Bool) (nx ny : List (List String)) (tests : List β) (regK : ℕ) : Py (List (List String × β)) :=
  let kend := if tsls then (ny.headD []).length else 0
  chowLoop rd ⟨tests.length - kend, kend, regK⟩ nx ny tests tests.length 0 1

end Spreg.SURSummary
