import Verif.Model.Basic
import Mathlib.Analysis.Real.Sqrt
/-
Model of the trimming of spatial weights by regimes: regimes.py `w_regime`, `w_regimes`, `w_regimes_union`.

libpysal is not part of the repository. Its weights objects and the three functions used here are modelled from their
documentation:
* `W`: neighbours and original weights by id, an order of the ids and a transformation;
* `w.transform = t`: `O` original, `B` binary, `R` row-standardised, `D` divided by the sum of all weights, `V` variance
  stabilising; an empty row stays empty;
* `w_subset(w, ids)`: "a binary weights object that includes only those observations in ids";
* `w_union(w1, w2)`: "a binary weights object that includes all neighbor pairs that exist in either w1 or w2";
* `remap_ids(w, old2new, id_order)`: the same weights with the given order of ids.
Division by zero (weights of both signs that add up to zero) is 0 here.
-/
namespace Spreg.WReg
open Spreg

/-- Values of `w.get_transform()`. -/
inductive Transform | O | B | R | D | V
  deriving DecidableEq

/-- A libpysal `W`: `id_order`, `neighbors`, original `weights` (read for neighbours only), `transform`. -/
structure W (ι : Type) where
  ids : List ι
  nb : ι → List ι
  wt : ι → ι → ℝ
  tr : Transform

variable {ι ρ : Type} [DecidableEq ι] [DecidableEq ρ]

/-- Original weights as a matrix (zero for pairs that are not neighbours). -/
def W.orig (w : W ι) (i j : ι) : ℝ := if j ∈ w.nb i then w.wt i j else 0

/-- Square root of the sum of squares of a row, for `V`. -/
noncomputable def W.rowNorm (w : W ι) (i : ι) : ℝ := Real.sqrt ((w.nb i).map fun j => w.wt i j ^ 2).sum

/-- Sum over all pairs of neighbours. -/
def W.total (w : W ι) (f : ι → ι → ℝ) : ℝ := (w.ids.map fun i => ((w.nb i).map (f i)).sum).sum

/-- `w.transform`: the weights in use, as a matrix by ids. -/
noncomputable def W.eff (w : W ι) (i j : ι) : ℝ :=
  match w.tr with
  | .O => w.orig i j
  | .B => if j ∈ w.nb i then 1 else 0
  | .R => w.orig i j / ((w.nb i).map (w.wt i)).sum
  | .D => w.orig i j / w.total w.wt
  | .V => w.orig i j / w.rowNorm i * (w.ids.length / w.total fun a b => w.wt a b / w.rowNorm a)

/-- `w.islands` is not empty. -/
def W.hasIslands (w : W ι) : Bool := w.ids.any fun i => (w.nb i).isEmpty

/-- `weights.set_operations.w_subset(w, ids)`. -/
def wSubset (w : W ι) (ids : List ι) : W ι :=
  { ids := ids, nb := fun i => if i ∈ ids then (w.nb i).filter (· ∈ ids) else [], wt := fun _ _ => 1, tr := .O }

/-- `weights.set_operations.w_union(w1, w2)`. -/
def wUnion (a b : W ι) : W ι :=
  { ids := a.ids ++ b.ids.filter (· ∉ a.ids)
    nb := fun i =>
      if i ∈ a.ids then
        if i ∈ b.ids then a.nb i ++ (b.nb i).filter (· ∉ a.nb i) else a.nb i
      else if i ∈ b.ids then b.nb i else []
    wt := fun _ _ => 1, tr := .O }

/-- `weights.util.remap_ids(w, dict((i, i) for i in w.id_order), order)`. -/
def remapIds (w : W ι) (order : List ι) : W ι := { w with ids := order, tr := .O }

/-- `list(map(w.id_order.__getitem__, regi_ids))`, regimes.py:518, 554-556. -/
def idsAt (w : W ι) : List ℕ → Py (List ι)
  | [] => .ok []
  | a :: t => match w.ids[a]? with
    | none => .error .indexError
    | some i => (idsAt w t).map (i :: ·)

/-- `if min_n: if w_regi_i.n < min_n: raise`, regimes.py:521-525, 563-567. -/
def checkMin (w : W ι) (minN : Option ℕ) : Py Unit :=
  match minN with
  | none => .ok ()
  | some m => if m ≠ 0 ∧ w.ids.length < m then .error .exception else .ok ()

/-- `w_regime(w, regi_ids, regi_i, transform, min_n)`, regimes.py:518-530: weights of one regime, and whether the warning
about islands is set. -/
def wRegime (w : W ι) (regiIds : List ℕ) (transform : Bool) (minN : Option ℕ) : Py (W ι × Bool) := do
  let ids ← idsAt w regiIds
  let wr := wSubset w ids
  checkMin wr minN
  let wr := if transform then { wr with tr := w.tr } else wr
  return (wr, wr.hasIslands)

/-- `np.where(np.array(regimes) == r)[0]`, regimes.py:553. -/
def whereEq (r : ρ) (regimes : List ρ) : List ℕ := (List.range regimes.length).filter fun a => regimes[a]? = some r

/-- The loop of `w_regimes`, regimes.py:557-571; `warn` is the regime named by the warning. -/
def wRegimesLoop (w : W ι) (regimes : List ρ) (transform : Bool) (minN : Option ℕ) :
    List ρ → List (ρ × W ι) → Option ρ → Py (List (ρ × W ι) × Option ρ)
  | [], acc, warn => .ok (acc, warn)
  | r :: t, acc, warn => do
    let (wr, isl) ← wRegime w (whereEq r regimes) transform minN
    wRegimesLoop w regimes transform minN t (acc ++ [(r, wr)]) (if isl then some r else warn)

/-- `w_regimes(w, regimes, regimes_set, transform, get_ids, min_n)`, regimes.py:553-574: weights by regime, and the regime
named by the warning. Simplification: all positions are looked up before the loop in the code; a lookup that raises does so
before `min_n` is checked. -/
def wRegimes (w : W ι) (regimes : List ρ) (rs : List ρ) (transform : Bool) (minN : Option ℕ) :
    Py (List (ρ × W ι) × Option ρ) :=
  match rs.mapM fun r => idsAt w (whereEq r regimes) with
  | .error e => .error e
  | .ok _ => wRegimesLoop w regimes transform minN rs [] none

/-- `w_regi_i[r]`. -/
def getW (wi : List (ρ × W ι)) (r : ρ) : Py (W ι) :=
  match wi.lookup r with
  | none => .error .keyError
  | some w => .ok w

/-- The loop of `w_regimes_union`, regimes.py:598-602. -/
def unionLoop (wi : List (ρ × W ι)) : List ρ → W ι → Py (W ι)
  | [], acc => .ok acc
  | r :: t, acc => do
    let b ← getW wi r
    unionLoop wi t (wUnion acc b)

/-- `w_regimes_union(w, w_regi_i, regimes_set)`, regimes.py:595-607. -/
def wRegimesUnion (w : W ι) (wi : List (ρ × W ι)) (rs : List ρ) : Py (W ι) :=
  match rs with
  | r0 :: r1 :: t => do
    let a ← getW wi r0
    let b ← getW wi r1
    let u ← unionLoop wi t (wUnion a b)
    return { remapIds u w.ids with tr := w.tr }
  | _ => .error .indexError

end Spreg.WReg
