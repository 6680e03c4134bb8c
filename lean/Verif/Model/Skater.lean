import Verif.Model.Basic
import Mathlib.Data.Real.Basic
import Mathlib.Data.Fintype.Basic
import Mathlib.Algebra.BigOperators.Group.Finset.Basic
/-
Model of skater_reg.py: the pruning loop of `Skater_reg.fit` and `find_cut`.

* The spanning forest is the list of its edges (nonzero entries of the sparse matrix, in storage order);
  its construction (SciPy) is a parameter.
* `cg.connected_components` is a parameter `cc` that returns the number of components and the labels.
* The score of one region (sum of squared residuals of the regression on its members, or the distance to the
  centre) is an arbitrary function of the set of members; `none` stands for a value that is not finite.
  Modelled: the branches that score region by region (every spreg regression except GM_Lag, statsmodels, and
  `data_reg=None` with the default reduction). Exceptions raised by the regression are not modelled.
* quorum: a natural number (the default `-inf` behaves as 0, because regions are nonempty).
* Timing, printing and warnings are not modelled; `trace=True`.
-/
namespace Spreg.Skater
open Finset

variable {n : ℕ}

abbrev Edge (n : ℕ) := Fin n × Fin n
abbrev Labels (n : ℕ) := Fin n → ℕ

/-- A Python dict from labels to finite scores. -/
structure Dict where
  keys : Finset ℕ
  val : ℕ → ℝ

def Dict.get (d : Dict) (k : ℕ) : Option ℝ := if k ∈ d.keys then some (d.val k) else none
def Dict.set (d : Dict) (k : ℕ) (v : ℝ) : Dict := ⟨insert k d.keys, fun j => if j = k then v else d.val j⟩
def Dict.empty : Dict := ⟨∅, fun _ => 0⟩
/-- `for i in e: d[i] = e[i]`. -/
def Dict.merge (d e : Dict) : Dict := ⟨d.keys ∪ e.keys, fun j => if j ∈ e.keys then e.val j else d.val j⟩
/-- `sum(d.values())`. -/
def Dict.sum (d : Dict) : ℝ := ∑ k ∈ d.keys, d.val k

/-- Members of the region with label `l`. -/
def region (lab : Labels n) (l : ℕ) : Finset (Fin n) := univ.filter fun i => lab i = l

/-- The set of labels of the members of `tree` (skater_reg.py:505-516). -/
def parts (lab cur : Labels n) (tree : ℕ) : Finset ℕ := (region cur tree).image lab

/-- `score_spreg` / `score_stats`, skater_reg.py:338-503: `none` if a part is below the quorum or a score is not
finite, otherwise the dictionary of the scores of the parts. -/
def scoreParts (ρ : Finset (Fin n) → Option ℝ) (q : ℕ) (lab cur : Labels n) (tree : ℕ) : Option Dict :=
  if ∀ l ∈ parts lab cur tree, q ≤ ((region cur tree).filter fun i => lab i = l).card then
    if ∀ l ∈ parts lab cur tree, (ρ (region lab l)).isSome then
      some ⟨parts lab cur tree, fun l => (ρ (region lab l)).getD 0⟩
    else none
  else none

/-- Best candidate so far in `find_cut`. -/
structure Best (n : ℕ) where
  edge : Edge n
  score : ℝ
  dscore : ℝ
  scores : Dict
  msf : List (Edge n)
  labels : Labels n

/-- One entry of the dictionary update of skater_reg.py:668-674: for label `i` the score of the first member. -/
def carry (t : Dict) (cur lab : Labels n) (b : Dict) (i : ℕ) : Option Dict := do
  let j ← (List.finRange n).find? fun j => cur j = i          -- current_list.index(i)
  let v ← t.get i                                              -- KeyError -> none
  return b.set (lab j) v

/-- The dictionary of scores after accepting a candidate, skater_reg.py:667-676. The labels are visited in the
order of first appearance; the order of a Python set is not specified, and it does not matter when all keys are
present. -/
def newScores (old : Dict) (ts : Option Dict) (cur lab : Labels n) (nts : Dict) : Dict :=
  match ts with
  | none => nts
  | some t =>
    match (((List.finRange n).map cur).dedup).foldlM (carry t cur lab) old with
    | some b => b.merge nts
    | none => nts

/-- Difference and score of a candidate, skater_reg.py:657-663. -/
def dAndScore (ts : Option Dict) (tree : ℕ) (new : ℝ) : ℝ × ℝ :=
  match ts with
  | some t =>
    match t.get tree with
    | some v => (v - new, t.sum - (v - new))
    | none => (-new, new)
  | none => (-new, new)

/-- Deleting an edge, skater_reg.py:631-634. -/
def del (E : List (Edge n)) (e : Edge n) : List (Edge n) := E.filter (· ≠ e)

/-- Body of the loop of `find_cut`, skater_reg.py:624-678. The state is the best candidate (if any), the dictionary
`best_scores`, and the last number of subtrees. -/
noncomputable def candidate (cc : List (Edge n) → ℕ × Labels n) (ρ : Finset (Fin n) → Option ℝ) (q : ℕ)
    (E : List (Edge n)) (curN : ℕ) (cur : Labels n) (ts : Option Dict)
    (st : Option (Best n) × Dict × Option ℕ) (e : Edge n) : Py (Option (Best n) × Dict × Option ℕ) :=
  let loc := del E e
  let (ln, lab) := cc loc
  if ln ≤ curN then .error .exception                          -- Malformed MSF!
  else
    match scoreParts ρ q lab cur (cur e.1) with
    | none => .ok (st.1, st.2.1, some ln)
    | some nts =>
      let (d, s) := dAndScore ts (cur e.1) nts.sum
      let better : Bool := match st.1 with | none => true | some b => decide (b.dscore < d)
      if better then
        let bs := newScores st.2.1 ts cur lab nts
        .ok (some ⟨e, s, d, bs, loc, lab⟩, bs, some ln)
      else .ok (st.1, st.2.1, some ln)

/-- `find_cut`, skater_reg.py:544-682: the best cut with the last number of subtrees, or `none` when no candidate was
accepted (`UnboundLocalError` caught). -/
noncomputable def findCut (cc : List (Edge n) → ℕ × Labels n) (ρ : Finset (Fin n) → Option ℝ) (q : ℕ)
    (E : List (Edge n)) (curN : ℕ) (cur : Labels n) (ts : Option Dict) : Py (Option (Best n × ℕ)) := do
  let (b, _, ln) ← E.foldlM (candidate cc ρ q E curN cur ts) (none, Dict.empty, none)
  match b, ln with
  | some b, some ln => return some (b, ln)
  | _, _ => return none

/-- Result of `fit`. An entry of the trace is the labels and score of an accepted cut, or `none` for the entry
`(None, inf)` of a failed search. The first entry `([], inf)` is left out. -/
structure Res (n : ℕ) where
  labels : Option (Labels n)
  msf : List (Edge n)
  trace : List (Option (Labels n × ℝ))

/-- The loop of `fit`, skater_reg.py:287-333, with `fuel` iterations. `prev = none` is infinity. After a failed search
`current_n_subtrees` is infinite and the labels are `None`, so the loop ends. -/
noncomputable def loop (cc : List (Edge n) → ℕ × Labels n) (ρ : Finset (Fin n) → Option ℝ) (q target : ℕ) :
    ℕ → List (Edge n) → ℕ → Labels n → Option Dict → Option ℝ → Py (Res n)
  | 0, E, _, cur, _, _ => .ok ⟨some cur, E, []⟩
  | fuel + 1, E, curN, cur, ts, prev =>
    if curN < target then do
      match ← findCut cc ρ q E curN cur ts with
      | none => return ⟨none, E, [none]⟩
      | some (b, ln) =>
        let up : Bool := match prev with | none => false | some p => decide (p < b.score)
        if up then .error .valueError
        else
          let r ← loop cc ρ q target fuel b.msf ln b.labels (some b.scores) (some b.score)
          return ⟨r.labels, r.msf, some (b.labels, b.score) :: r.trace⟩
    else .ok ⟨some cur, E, []⟩

open Classical in
/-- `fit`, skater_reg.py:172-336, after the construction of the forest `E`. The loop can run at most
`target` times (shown in the properties); `ignore` is `islands == "ignore"`. -/
noncomputable def fit (cc : List (Edge n) → ℕ × Labels n) (ρ : Finset (Fin n) → Option ℝ) (q nClusters : ℕ)
    (ignore : Bool) (E : List (Edge n)) : Py (Res n) :=
  if 0 < q ∧ n ≤ nClusters * q then .error .valueError
  else
    let (k, lab) := cc E
    let target := if 1 < k ∧ !ignore then nClusters + k else nClusters
    if 1 < k ∧ ∃ l ∈ (univ.image lab), (region lab l).card < q then .error .valueError
    else loop cc ρ q target target E k lab none none

end Spreg.Skater
