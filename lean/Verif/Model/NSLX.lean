import Verif.Model.Basic
import Verif.Model.Linear
import Mathlib.Analysis.SpecialFunctions.Pow.Real
/-
Model of the nonlinear SLX model: nslx.py and make_wnslx of utils.py.

* A sparse array is the function giving the stored value at each position (`none`: nothing stored). Stored zeros are kept, as scipy
  does.
* Numbers are reals; a NaN or infinite result is `none`.
* `scipy.optimize.minimize` is a parameter: the functions take the point it returns, `fun` is the objective there.
* `KDTree.query` is a parameter: the model takes its result.
-/
namespace Spreg.NSLX
open Matrix Spreg.Lin

variable {n k h : Type} [Fintype n] [Fintype k] [Fintype h] [DecidableEq n] [DecidableEq k] [DecidableEq h]

/-- The two values of `transform` that are accepted. -/
inductive Transform where
  | exponential
  | power
  deriving DecidableEq

/-- Stored values of a CSR array. -/
abbrev Sparse (n : Type) := n → n → Option ℝ

/-- `_nltransform(a, w, transform, gradflag=0)` on one stored value, nslx.py:515-524, 537-540. Not finite: a zero to a negative
power, a negative number to any power (real powers of negative numbers are not modelled). -/
noncomputable def entry (t : Transform) (a v : ℝ) : Option ℝ :=
  match t with
  | .exponential => some (Real.exp (-(v * a)))
  | .power => if 0 < v ∨ (v = 0 ∧ 0 ≤ a) then some (v ^ a) else none

/-- `_nltransform(a, w, transform, gradflag=1)` on one stored value, nslx.py:526-535, 541-546. Not finite when the logarithm is
not: `log(0) = -inf`, and `0 * -inf` is NaN. -/
noncomputable def gradEntry (t : Transform) (a v : ℝ) : Option ℝ :=
  match t with
  | .exponential => if 0 < v * a then some (-(Real.exp (-(v * a)) * (Real.log (v * a) * v))) else none
  | .power => if 0 < v then some (v ^ a * Real.log v) else none

open Classical in
/-- `walpha @ xw[:, i]`, nslx.py:490, for the entrywise function `f`: `none` if some stored value is not finite (NaN in the
result). -/
noncomputable def spLag (f : ℝ → Option ℝ) (w : Sparse n) (x : n → ℝ) : Option (n → ℝ) :=
  if ∀ i j v, w i j = some v → (f v).isSome then
    some fun i => ∑ j, ((w i j).bind f).getD 0 * x j
  else none

open Classical in
/-- `nlmod`, nslx.py:471-491; `w i`, `t i` are the weights and transformation of lagged column `i` (if there is one element, the
same for all). `none`: some column contains NaN. -/
noncomputable def nlmod (f : Transform → ℝ → ℝ → Option ℝ) (w : h → Sparse n) (t : h → Transform) (xw : Matrix n h ℝ)
    (alpha : h → ℝ) : Option (Matrix n h ℝ) :=
  if hd : ∀ i, (spLag (f (t i) (alpha i)) (w i) fun r => xw r i).isSome then
    some (Matrix.of fun r i => (spLag (f (t i) (alpha i)) (w i) fun r => xw r i).get (hd i) r)
  else none

/-- `np.sum(wx, axis=1)`, nslx.py:120, 430. -/
def rowSum (wx : Matrix n h ℝ) : n → ℝ := fun r => ∑ i, wx r i

/-- `nslxobj`, nslx.py:422-437. -/
noncomputable def nslxobj (w : h → Sparse n) (t : h → Transform) (y : n → ℝ) (x : Matrix n k ℝ) (xw : Matrix n h ℝ)
    (b : k → ℝ) (alpha : h → ℝ) : Option ℝ :=
  (nlmod entry w t xw alpha).map fun wx =>
    let res := y - x *ᵥ b - rowSum wx
    res ⬝ᵥ res

/-- Attributes of `BaseNSLX`; `vm` is `none` when it contains NaN or the exception is raised. -/
structure Fit (n k h : Type) where
  b : k → ℝ
  alpha : h → ℝ
  utu : ℝ
  sig2 : ℝ
  predy : n → ℝ
  u : n → ℝ
  vm : Option (Matrix (k ⊕ h) (k ⊕ h) ℝ)

/-- `vm` for `var_flag=1`, nslx.py:127-138: the two diagonal blocks, zeros elsewhere. -/
noncomputable def analyticVm (w : h → Sparse n) (t : h → Transform) (x : Matrix n k ℝ) (xw : Matrix n h ℝ) (alpha : h → ℝ)
    (sig2 : ℝ) : Option (Matrix (k ⊕ h) (k ⊕ h) ℝ) :=
  (inv? (xᵀ * x)).bind fun xtxi =>
    (nlmod gradEntry w t xw alpha).bind fun wax =>
      (inv? (waxᵀ * wax)).map fun wi => sig2 • fromBlocks xtxi 0 0 wi

/-- `BaseNSLX.__init__`, nslx.py:76-138 (`var_flag=1`), for the minimiser's result `(b, alpha)`. -/
noncomputable def baseNSLX (w : h → Sparse n) (t : h → Transform) (y : n → ℝ) (x : Matrix n k ℝ) (xw : Matrix n h ℝ)
    (b : k → ℝ) (alpha : h → ℝ) : Option (Fit n k h) :=
  (nslxobj w t y x xw b alpha).bind fun utu =>
    (nlmod entry w t xw alpha).map fun wx =>
      let sig2 := utu / Fintype.card n
      let predy := x *ᵥ b + rowSum wx
      { b := b, alpha := alpha, utu := utu, sig2 := sig2, predy := predy, u := y - predy
        vm := analyticVm w t x xw alpha sig2 }

/-! ### Weights -/

/-- A COO array with the shape that `coo_array` infers. -/
structure Coo where
  rows : ℕ
  cols : ℕ
  entries : List (ℕ × ℕ × ℝ)

/-- Row maximum, utils.py:919-923: the last distance, or the largest one that is not infinite (0 for infinite ones). -/
noncomputable def mxrow (bounded : Bool) (row : List (Option ℝ × ℕ)) : Option ℝ :=
  if bounded then some ((row.map fun p => p.1.getD 0).foldr max 0) else row.getLast?.bind (·.1)

/-- Rescaled distances, utils.py:926-933. -/
noncomputable def scaled (t : Transform) (mx d : ℝ) : ℝ :=
  match t with
  | .power => -(d / mx) + 1
  | .exponential => d / mx

/-- Entries of one row that are kept, utils.py:936-945; for an infinite bandwidth all. `n` is the number of units. -/
noncomputable def rowEntries (bounded : Bool) (t : Transform) (n : ℕ) (i : ℕ) (row : List (Option ℝ × ℕ)) : List (ℕ × ℕ × ℝ) :=
  match mxrow bounded row with
  | none => []
  | some mx => (row.filter fun p => !bounded || p.2 ≠ n).map fun p => (i, p.2, scaled t mx (p.1.getD 0))

/-- `make_wnslx`, utils.py:909-950, from the result of the query without the first column (`none` distance: infinite, the
neighbour is then `n`). A row maximum of 0 with a neighbour in the row gives NaN: `none`; so does an infinite maximum. No entries
at all: the shape cannot be inferred and `coo_array` raises, `none`. -/
noncomputable def makeW (bounded : Bool) (t : Transform) (n : ℕ) (query : List (List (Option ℝ × ℕ))) : Option Coo :=
  let es := (query.zipIdx.map fun p => rowEntries bounded t n p.2 p.1).flatten
  if ∀ row ∈ query, (∃ p ∈ row, bounded = false ∨ p.2 ≠ n) → ∃ m, mxrow bounded row = some m ∧ 0 < m then
    if es = [] then none
    else some { rows := (es.map (·.1)).foldr max 0 + 1, cols := (es.map (·.2.1)).foldr max 0 + 1, entries := es }
  else none

/-- The stored value at a position. -/
def Coo.get (c : Coo) (i j : ℕ) : Option ℝ := (c.entries.find? fun e => e.1 = i ∧ e.2.1 = j).map (·.2.2)

/-- `walpha @ xw[:, i]` into column `i` of an array with `n` rows, nslx.py:490: raises unless the inferred shape is `n` by `n`. -/
def Coo.lagOk (c : Coo) (n : ℕ) : Prop := c.rows = n ∧ c.cols = n

/-! ### Names -/

/-- `itertools.compress`. -/
def compress {α : Type} (l : List α) (m : List Bool) : List α := ((l.zip m).filter (·.2)).map (·.1)

/-- Selection of the lagged columns (given by name) and their parameters in `NSLX.__init__`, nslx.py:333-347. `slx = none` is
`slx_vars="All"`. The selection `xw[:, slx_vars]` raises when the mask has the wrong length. -/
def nslxSelect {P : Type} (params : List P) (names : List String) (slx : Option (List Bool)) : Py (List String × List P) :=
  match slx with
  | none => .ok (names, params)
  | some m =>
    if m.length ≠ names.length then .error .indexError
    else if 1 < params.length then
      if params.length = m.length then .ok (compress names m, compress params m)
      else if params.length ≠ (compress names m).length then .error .exception
      else .ok (compress names m, params)
    else .ok (compress names m, params)

/-- `xw_name` of `NSLX.__init__`, nslx.py:349-356: `g` is the number of parameters given, `ps` those that remain; `tr` gives the
transformation of a parameter tuple. -/
def nslxPrefix {P : Type} (tr : P → String) (g : ℕ) (ps : List P) (sel : List String) : Py (List String) :=
  let pre := fun (t s : String) => "W" ++ (t.take 1).toString ++ "_" ++ s
  if g = 1 then
    match ps with
    | p :: _ => .ok (sel.map fun s => pre (tr p) s)
    | [] => .error .indexError
  else if 1 < ps.length then
    if ps.length ≠ sel.length then .error .exception
    else .ok ((ps.zip sel).map fun q => pre (tr q.1) q.2)
  else .ok sel

/-- Names of the lagged columns and the parameters that their weights are made from, `NSLX.__init__`, nslx.py:329-363, given
the names of the regressors without the constant. -/
def nslxNames {P : Type} (tr : P → String) (params : List P) (names : List String) (slx : Option (List Bool)) :
    Py (List String × List P) :=
  match nslxSelect params names slx with
  | .error e => .error e
  | .ok (sel, ps) =>
    match nslxPrefix tr params.length ps sel with
    | .error e => .error e
    | .ok ns => .ok (ns, ps)

end Spreg.NSLX
