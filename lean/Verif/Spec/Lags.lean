import Mathlib.Data.List.Forall2
/-
Specification vocabulary for spatial lags, independent of the model:
`lagPow W p v` = W applied p times to v; `lagLabel p s` = the label a reader expects for it.
-/
namespace Spreg.Spec

/-- `W` applied `p` times to the column `v`. -/
def lagPow {α : Type} (W : α → α) : Nat → α → α
  | 0, v => v
  | p + 1, v => W (lagPow W p v)

/-- The expected label of the `p`-th spatial lag of the variable called `s`:
`s`, `W_s`, `W2_s`, `W3_s`, ... -/
def lagLabel (p : Nat) (s : String) : String :=
  if p = 0 then s else if p = 1 then "W_" ++ s else "W" ++ toString p ++ "_" ++ s

/-- The columns `W^p v` for `p = first, ..., first + count - 1` and, inside each power, for `v`
ranging over `x` in order. -/
def lagBlocks {α : Type} (W : α → α) (x : List α) (first count : Nat) : List α :=
  (List.range' first count).flatMap fun p => x.map (lagPow W p)

/-- The labels of `lagBlocks`. -/
def lagNames (names : List String) (first count : Nat) : List String :=
  (List.range' first count).flatMap fun p => names.map (lagLabel p)

/-- A list of names describes a list of columns, relative to named base variables `base`:
same length and, position by position, the name is the label of the lag that the column is. -/
def Describes {α : Type} (W : α → α) (base : List (String × α)) (names : List String)
    (cols : List α) : Prop :=
  List.Forall₂ (fun nm c => ∃ p, ∃ b ∈ base, nm = lagLabel p b.1 ∧ c = lagPow W p b.2) names cols

end Spreg.Spec
