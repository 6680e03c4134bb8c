import Verif.Model.LM
import Verif.Model.Basic
import Mathlib.Analysis.SpecialFunctions.Log.Basic
import Mathlib.Analysis.SpecialFunctions.Pow.Real
import Mathlib.Analysis.Real.Pi.Bounds
import Mathlib.LinearAlgebra.Matrix.Charpoly.Eigs
/-
Model of diagnostics.py: goodness of fit, F and t statistics, information criteria, multicollinearity,
normality and heteroskedasticity diagnostics, and of `pr2_aspatial` (diagnostics_tsls.py).

A regression object is `LM.Reg`: `reg.x`, `reg.y` and the OLS fit. p-values (`stats.*.sf`) are not
modelled; the degrees of freedom handed to them are. NumPy's division by zero (inf or nan with a warning)
is Lean's `x / 0 = 0`; theorems state that denominators are not zero where it matters.
-/
namespace Spreg.Diag
open Matrix Spreg.Lin Spreg.LM

variable {n k : Type} [Fintype n] [Fintype k]

/-- `mean_y`, utils.py:42-51. -/
noncomputable def meanY (y : n → ℝ) : ℝ := (∑ i, y i) / Fintype.card n

/-- `((y - mean_y) ** 2).sum(0)`, diagnostics.py:249. -/
noncomputable def ssTot (y : n → ℝ) : ℝ := ∑ i, (y i - meanY y) ^ 2

/-- `r2`, diagnostics.py:246-252. -/
noncomputable def r2 (r : Reg n k) : ℝ := 1 - utu r.fit.u / ssTot r.y

/-- `ar2`, diagnostics.py:307-310. `reg.k` is the number of columns of `x`. -/
noncomputable def ar2 (r : Reg n k) : ℝ :=
  1 - (1 - r2 r) * ((Fintype.card n : ℝ) - 1) / ((Fintype.card n : ℝ) - Fintype.card k)

/-- `f_stat(reg)`, diagnostics.py:98-106,114: overall F statistic. -/
noncomputable def fStat (r : Reg n k) : ℝ :=
  let rr : ℝ := (Fintype.card k : ℝ) - 1
  let U := ∑ i, (r.fit.predy i - meanY r.y) ^ 2
  (U / rr) / (utu r.fit.u / ((Fintype.card n : ℝ) - Fintype.card k))

/-- `x[:, :-r]` for `r > 0`: all but the last `r` columns (none when `r` is at least the number of
columns). -/
def dropLast {K : ℕ} (x : Matrix n (Fin K) ℝ) (r : ℕ) : Matrix n (Fin (K - r)) ℝ :=
  Matrix.of fun i j => x i (Fin.castLE (Nat.sub_le K r) j)

/-- `f_stat(reg, df)` for `df > 0`, diagnostics.py:107-114: F test on the last `df` coefficients. `none`
is the `LinAlgError` of the constrained regression. -/
noncomputable def fStatLast {K : ℕ} (r : Reg n (Fin K)) (df : ℕ) : Option ℝ :=
  (ols (dropLast r.x df) r.y).map fun olsr =>
    let rtr := utu olsr.u
    let U := rtr - utu r.fit.u
    (U / df) / (utu r.fit.u / ((Fintype.card n : ℝ) - K))

/-- `f_stat(reg, df)`, diagnostics.py:41-117: statistic and its two degrees of freedom. -/
noncomputable def fTest {K : ℕ} (r : Reg n (Fin K)) (df : ℕ) : Option (ℝ × ℤ × ℤ) :=
  if df = 0 then some (fStat r, (K : ℤ) - 1, (Fintype.card n : ℤ) - K)
  else (fStatLast r df).map fun F => (F, (df : ℤ), (Fintype.card n : ℤ) - K)

/-- `t_stat`, diagnostics.py:176-183: the statistic of coefficient `i` (p-values not modelled). -/
noncomputable def tStat (vm : Matrix k k ℝ) (betas : k → ℝ) (i : k) : ℝ := betas i / Real.sqrt (vm i i)

/-- `se_betas`, diagnostics.py:365-368. -/
noncomputable def seBetas (vm : Matrix k k ℝ) (i : k) : ℝ := Real.sqrt (vm i i)

/-- `log_likelihood`, diagnostics.py:423-426. -/
noncomputable def logLikelihood (n : ℕ) (utu : ℝ) : ℝ :=
  -0.5 * (n * Real.log (2 * Real.pi) + n * Real.log (utu / n) + utu / (utu / n))

/-- `akaike`, diagnostics.py:482-490; `logll = none` when the object has no such attribute. -/
noncomputable def akaike (logll : Option ℝ) (k n : ℕ) (utu : ℝ) : ℝ :=
  match logll with
  | some ll => 2.0 * k - 2.0 * ll
  | none => 2 * k + n * (Real.log ((2 * Real.pi * utu) / n) + 1)

/-- `schwarz`, diagnostics.py:546-554. -/
noncomputable def schwarz (logll : Option ℝ) (k n : ℕ) (utu : ℝ) : ℝ :=
  match logll with
  | some ll => k * Real.log n - 2.0 * ll
  | none => k * Real.log n + n * (Real.log ((2 * Real.pi * utu) / n) + 1)

/-- `likratiotest`, diagnostics.py:1380-1398: statistic and degrees of freedom, from `(logll, k)` of the
two objects; a missing `logll` raises a bare `Exception`. -/
noncomputable def likratiotest (reg0 reg1 : Option ℝ × ℤ) : Py (ℝ × ℤ) :=
  match reg1.1, reg0.1 with
  | some l1, some l0 =>
    let likr := 2.0 * (l1 - l0)
    let likr := if likr < 0 then -likr else likr
    let df := reg1.2 - reg0.2
    let df := if ¬ df > 0 then 1 else df
    .ok (likr, df)
  | _, _ => .error .exception

/-! ### Multicollinearity -/

/-- One entry of `vif`. -/
inductive VifRes
  | missing
  | val (vif tol : ℝ)

/-- `np.delete(X, j, 1)`: the columns other than `j`, in order. -/
def delCol (x : Matrix n k ℝ) (j : k) : Matrix n {i : k // i ≠ j} ℝ := Matrix.of fun i c => x i c.1

/-- `vif`, diagnostics.py:1250-1268, the entry of column `j`; `none`: `LinAlgError` of the auxiliary
regression. -/
noncomputable def vif [DecidableEq k] (x : Matrix n k ℝ) (j : k) : Option VifRes :=
  open Classical in
  (ols (delCol x j) (fun i => x i j)).map fun aux =>
    let y : n → ℝ := fun i => x i j
    let u := utu aux.u
    let sst := ssTot y
    if sst = 0 then .missing
    else
      let r2aux := 1 - u / sst
      let tolj := 1 - r2aux
      .val (1 / tolj) tolj

/-- `condition_index`, diagnostics.py:615-616: `xtx / diag` divides column `j` by `xtx[j, j]`. -/
noncomputable def ciScale (xtx : Matrix k k ℝ) : Matrix k k ℝ := Matrix.of fun i j => xtx i j / xtx j j

/-- `condition_index`, diagnostics.py:617-621. `np.linalg.eigvals` is the multiset of real roots of the
characteristic polynomial (theorem `C77_real_eigenvalues` shows that no eigenvalue is lost). `none`: no
eigenvalue (`max` of an empty sequence raises). -/
noncomputable def conditionIndex [DecidableEq k] (xtx : Matrix k k ℝ) : Option ℝ :=
  let ev := (ciScale xtx).charpoly.roots.toList
  match ev with
  | [] => none
  | e :: es =>
    let mx := es.foldl max e
    let mn := es.foldl min e
    some (Real.sqrt (mx / mn))

/-- `constant_check`, diagnostics.py:1306-1315, on the columns of a matrix with at least one row, given as
(first entry, other entries). -/
noncomputable def constantCheck : List (ℝ × List ℝ) → Bool
  | [] => false
  | (a, l) :: t => open Classical in if l.foldl min a = l.foldl max a then true else constantCheck t

/-! ### Normality -/

/-- `np.mean` of a power of the residuals, diagnostics.py:696-701. -/
noncomputable def moment (u : n → ℝ) (p : ℕ) : ℝ := (∑ i, u i ^ p) / Fintype.card n

/-- `jarque_bera`, diagnostics.py:694-706 (statistic; `df` is 2). -/
noncomputable def jarqueBera (u : n → ℝ) : ℝ :=
  let mu2 := moment u 2
  let mu3 := moment u 3
  let mu4 := moment u 4
  let S := mu3 / (mu2 ^ (1.5 : ℝ))
  let K := mu4 / mu2 ^ 2
  (Fintype.card n : ℝ) * (S ^ 2 / 6 + (K - 3) ^ 2 / 24)

/-! ### Heteroskedasticity. Matrices are lists of columns. -/

/-- The matrix with the given columns. -/
def ofCols (l : List (n → ℝ)) : Matrix n (Fin l.length) ℝ := Matrix.of fun i j => l.get j i

/-- `abs(current - check).sum() == 0`, diagnostics.py:826-827. -/
def sameCol (a b : n → ℝ) : Prop := (∑ i, |a i - b i|) = 0

open Classical in
/-- `omitcolumn` of `breusch_pagan` / `koenker_bassett`, diagnostics.py:820-828, 1132-1140. -/
noncomputable def omitDup (z : List (n → ℝ)) : List ℕ :=
  (List.range z.length).flatMap fun i =>
    (List.range z.length).filter fun j =>
      decide (i < j) && decide (sameCol (z.getD i 0) (z.getD j 0))

/-- diagnostics.py:830-838, 1142-1150: the set of columns, sorted in descending order, is deleted one
after the other. -/
noncomputable def dropDup (z : List (n → ℝ)) : List (n → ℝ) :=
  ((omitDup z).dedup.mergeSort (fun a b => decide (a ≤ b))).reverse.foldl List.eraseIdx z

/-- `spmultiply(x, x)`, diagnostics.py:810, 1122. -/
def squares (x : List (n → ℝ)) : List (n → ℝ) := x.map fun c i => c i * c i

/-- The quadratic form `g'z (z'z)^-1 z'g`, diagnostics.py:844-852, 1156-1164. -/
noncomputable def auxQuad (z : List (n → ℝ)) (g : n → ℝ) : Option ℝ :=
  (inv? ((ofCols z)ᵀ * ofCols z)).map fun ztzi =>
    let ztg := (ofCols z)ᵀ *ᵥ g
    ztg ⬝ᵥ (ztzi *ᵥ ztg)

/-- The argument `z`: absent, or an array. -/
inductive ZArg (n : Type)
  | none
  | arr (cols : List (n → ℝ))

/-- `if z == None: z = spmultiply(x, x) else: pass`, diagnostics.py:803-815, 1115-1127. Comparing an array
with `None` gives an array, whose truth value is an error unless it has exactly one element (which is then
false). -/
def chooseZ (x : List (n → ℝ)) : ZArg n → Py (List (n → ℝ))
  | .none => .ok (squares x)
  | .arr cols => if cols.length * Fintype.card n = 1 then .ok cols else .error .valueError

/-- `breusch_pagan`, diagnostics.py:794-858, for a regression with columns `x` and residuals `u`:
statistic and degrees of freedom. -/
noncomputable def breuschPagan (x : List (n → ℝ)) (u : n → ℝ) (z : ZArg n) : Py (ℝ × ℤ) := do
  let den := utu u / Fintype.card n
  let g : n → ℝ := fun i => u i ^ 2 / den - 1
  let z ← chooseZ x z
  let z := dropDup z
  let df : ℤ := (z.length : ℤ) - 1
  match auxQuad z g with
  | some q => .ok (0.5 * q, df)
  | none => .error .linAlgError

/-- `koenker_bassett`, diagnostics.py:1102-1170. -/
noncomputable def koenkerBassett (x : List (n → ℝ)) (u : n → ℝ) (z : ZArg n) : Py (ℝ × ℤ) := do
  let ubar := utu u / Fintype.card n
  let g : n → ℝ := fun i => u i ^ 2 - ubar
  let v := (1 / (Fintype.card n : ℝ)) * ∑ i, (u i ^ 2 - ubar) ^ 2
  let z ← chooseZ x z
  let z := dropDup z
  let df : ℤ := (z.length : ℤ) - 1
  match auxQuad z g with
  | some q => .ok ((1 / v) * q, df)
  | none => .error .linAlgError

/-- Products `x_i * x_j`, `i <= j`, in the order of diagnostics.py:962-967. -/
def crossProducts (x : List (n → ℝ)) : List (n → ℝ) :=
  (List.range x.length).flatMap fun i =>
    ((List.range x.length).filter fun j => i ≤ j).map fun j => fun r => x.getD i 0 r * x.getD j 0 r

/-- `spmax(current) == spmin(current)`, diagnostics.py:978. -/
def isConst (c : n → ℝ) : Prop := ∀ i j, c i = c j

open Classical in
/-- `omitcolumn` of `white`, diagnostics.py:974-987. -/
noncomputable def omitWhite (A : List (n → ℝ)) : List ℕ :=
  (List.range A.length).flatMap fun i =>
    (if isConst (A.getD i 0) then [i] else []) ++
    (List.range A.length).filter fun j =>
      decide (i < j) && decide (sameCol (A.getD i 0) (A.getD j 0))

/-- `np.delete(A, omitcolumn, 1)`, diagnostics.py:993. -/
def npDelete {α : Type} (A : List α) (om : List ℕ) : List α :=
  (A.zipIdx.filter fun p => decide (p.2 ∉ om)).map Prod.fst

/-- The auxiliary design of `white`, diagnostics.py:955-1002 (dense case). -/
noncomputable def whiteDesign (x : List (n → ℝ)) : List (n → ℝ) :=
  let A := x ++ crossProducts x
  (fun _ => 1) :: npDelete A (omitWhite A)

/-- Result of `white`. -/
inductive WhiteRes
  | notComputed
  | test (wh : ℝ) (df : ℤ)

/-- `white`, diagnostics.py:937-1014; `ci` is `condition_index(reg)`, `none` the `LinAlgError` of the
auxiliary regression. -/
noncomputable def white (ci : ℝ) (x : List (n → ℝ)) (u : n → ℝ) : Option WhiteRes :=
  open Classical in
  if ci > 30 then some .notComputed
  else
    let e : n → ℝ := fun i => u i ^ 2
    let A := whiteDesign x
    (ols (ofCols A) e).map fun aux =>
      let r : Reg n (Fin A.length) := { x := ofCols A, y := e, fit := aux }
      .test (r2 r * Fintype.card n) ((A.length : ℤ) - 1)

/-! ### Durbin-Wu-Hausman -/

/-- First stage of `dwh`, diagnostics.py:1422-1427: fitted values of the endogenous variables regressed on
the instruments. -/
noncomputable def dwhFit {q e : Type} [Fintype q] [DecidableEq q] (h : Matrix n q ℝ) (yend : Matrix n e ℝ) :
    Option (Matrix n e ℝ) :=
  (inv? (hᵀ * h)).map fun hthi => Matrix.of fun i c => (olsWith h (fun r => yend r c) hthi).predy i

/-- `sphstack(xx, py)`, diagnostics.py:1428. -/
def hstack {K E : ℕ} (z : Matrix n (Fin K) ℝ) (p : Matrix n (Fin E) ℝ) : Matrix n (Fin (K + E)) ℝ :=
  Matrix.of fun i => Fin.append (z i) (p i)

/-- `dwh`, diagnostics.py:1417-1432. `z` are the regressors (exogenous and endogenous), `h` the
instruments. -/
noncomputable def dwh {K E : ℕ} {q : Type} [Fintype q] [DecidableEq q] (h : Matrix n q ℝ)
    (z : Matrix n (Fin K) ℝ) (yend : Matrix n (Fin E) ℝ) (y : n → ℝ) : Option (ℝ × ℤ × ℤ) := do
  let py ← dwhFit h yend
  let nxq := hstack z py
  let r ← reg nxq y
  fTest r E

/-! ### Pseudo R-squared -/

/-- `stats.pearsonr(a, b)[0]`. -/
noncomputable def pearson (a b : n → ℝ) : ℝ :=
  (∑ i, (a i - meanY a) * (b i - meanY b)) / (Real.sqrt (ssTot a) * Real.sqrt (ssTot b))

/-- `pr2_aspatial` / `pr2_spatial`, diagnostics_tsls.py: squared correlation of `y` with a prediction. -/
noncomputable def pr2 (y pred : n → ℝ) : ℝ := pearson y pred ^ 2

end Spreg.Diag
