import Verif.Spec.Lags
/-
Specification vocabulary for the spatial lag SUR model: labels of lags and what it means that a list of labels describes a list of
columns. Independent of the model.
-/
namespace Spreg.Spec

/-- The label of the lag of order `p` in the SUR classes: `s`, `W_s`, `WW_s`, `WWW_s`, ... -/
def surLabel (p : ℕ) (s : String) : String :=
  if p = 0 then s else String.ofList (List.replicate p 'W') ++ "_" ++ s

/-- Position by position the label is that of a lag of a base variable and the column is this lag. -/
def SurDescribes {α : Type} (W : α → α) (base : List (String × α)) (names : List String) (cols : List α) : Prop :=
  List.Forall₂ (fun nm c => ∃ p, ∃ b ∈ base, nm = surLabel p b.1 ∧ c = lagPow W p b.2) names cols

end Spreg.Spec
