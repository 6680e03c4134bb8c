import Verif.Model.EndogArgs
/-
Specification for C190: what the endogenous regimes classes promise about their arguments. Only the record `Fit` of the model
(what the final model is estimated with) is used.
-/
namespace Spreg.EndogArgs
open Spreg Spreg.Chk Classical

/-- Specification: a regressor that takes more than one value. -/
def TwoValues (c : Col) : Prop := ∃ a ∈ c, ∃ b ∈ c, a ≠ b

/-- Specification: the regressors that take more than one value, with their names, in the given order. -/
noncomputable def varying (names : List String) (x : List Col) : List (String × Col) := (names.zip x).filter fun p => TwoValues p.2

/-- Specification: the names of the regressors that take one value only. -/
noncomputable def constants (names : List String) (x : List Col) : List String := ((names.zip x).filter fun p => ¬ TwoValues p.2).map (·.1)

/-- Specification: the options with which the class is documented to be called. -/
def Default (c : Cls) (constantRegi : String) (cols2regi : Option (List Bool)) (regimeErrSep : Bool) : Prop :=
  constantRegi = "many" ∧ cols2regi = none ∧ regimeErrSep = (match c with | .lag => false | _ => true)

/-- Specification: the quorum for `k` regressors; a negative argument stands for the default. -/
def quorumFor (k : ℕ) (quorum : ℤ) : ℕ := if quorum < 0 then max 30 (10 * (k + 1)) else quorum.toNat

/-- Specification: what a run reports for named regressors: those that vary, with their own names; one warning naming those
removed; one warning if an option is not at its default (`default = false`); the documented options in any case. -/
noncomputable def promised {σ : Type} (c : Cls) (names : List String) (x : List Col) (default : Bool) (q : ℕ) (s : σ) : Fit σ where
  search := s
  quorum := q
  cols := (varying names x).map (·.2)
  names := (varying names x).map (·.1)
  warnings := (if constants names x = [] then [] else [.const (.names (constants names x))]) ++
    (if default then [] else [.regi (match c with | .lag => false | _ => true)])
  constantRegi := "many"
  cols2regi := none
  regimeErrSep := match c with | .lag => false | _ => true

end Spreg.EndogArgs
