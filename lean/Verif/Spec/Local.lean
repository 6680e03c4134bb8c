import Verif.Model.RegWork
/-
Specification for C176: when two data sets are the same as far as one regime is concerned.
-/
namespace Spreg.Local
open Spreg Spreg.RegWork

variable {ι ρ : Type} [DecidableEq ι]

/-- The positions of the observations of regime `r`. -/
def members (D : Data ι ρ) (r : ρ) : Set ℕ := {a | D.regimes[a]? = some r}

/-- The observations of `A` and those that can be reached from it in at most `s` steps along the weights. -/
def reach (w : WReg.W ι) (A : Set ℕ) : ℕ → Set ℕ
  | 0 => A
  | s + 1 => {b | b ∈ reach w A s ∨ ∃ a ∈ reach w A s, entry w a b ≠ 0}

/-- Two columns have the same values on `A`. -/
def SameOn (A : Set ℕ) (c c' : ℕ → ℝ) : Prop := ∀ a ∈ A, c a = c' a

/-- `j` is an identifier of an observation in `A`. -/
def IdIn (w : WReg.W ι) (A : Set ℕ) (j : ι) : Prop := ∃ a ∈ A, w.ids[a]? = some j

open Classical in
/-- The data sets have the same observations in regime `r`, at the same positions and with the same identifiers, with the same values of
`y`, of the endogenous variables and of the instruments; the same links between these observations, in the same order, and the same
transformation of the weights; and within `s` steps from the regime the same values of `x` and the same rows of weights. Nothing is said
about anything else. -/
structure SameAround (D D' : Data ι ρ) (r : ρ) (s : ℕ) : Prop where
  members : members D r = members D' r
  y : SameOn (Local.members D r) D.y D'.y
  yend : Option.Rel (List.Forall₂ (SameOn (Local.members D r))) D.yend D'.yend
  q : Option.Rel (List.Forall₂ (SameOn (Local.members D r))) D.q D'.q
  x : List.Forall₂ (SameOn (reach D.w (Local.members D r) s)) D.x D'.x
  ids : ∀ a ∈ Local.members D r, D.w.ids[a]? = D'.w.ids[a]?
  links : ∀ i, IdIn D.w (Local.members D r) i →
    (D.w.nb i).filter (fun j => decide (IdIn D.w (Local.members D r) j)) = (D'.w.nb i).filter fun j => decide (IdIn D.w (Local.members D r) j)
  transform : D.w.tr = D'.w.tr
  size : D.w.ids.length = D'.w.ids.length
  weights : ∀ t < s, ∀ a ∈ reach D.w (Local.members D r) t, ∀ b, entry D.w a b = entry D'.w a b

/-- Number of regressors besides the constant: the variables and `s` lags of those that are lagged. -/
def nx (D : Data ι ρ) (s : ℕ) (slx : Option (List Bool)) : ℕ :=
  D.x.length + s * (match slx with | none => D.x.length | some m => m.count true)

/-- Every regressor, spatial lags included, takes more than one value in each regime. -/
def Varies (D : Data ι ρ) (rs : List ρ) (s : ℕ) (slx : Option (List Bool)) : Prop :=
  ∀ names p, withWX D.w D.x names s slx = .ok p → ∀ c ∈ p.1, ∀ r ∈ rs, ∃ a ∈ members D r, ∃ b ∈ members D r, c a ≠ c b

/-- Rows of lambda in the variance matrix: the classes of Kelejian and Prucha (1998) have none. -/
def lamRow : Est → ℕ
  | .gm _ => 0
  | _ => 1

/-- The same with endogenous variables. -/
def lamRowE : EstEnd → ℕ
  | .gm _ => 0
  | _ => 1

/-- The assembled attributes `a` and `a'` agree in the regime that is number `c` in the first and number `c'` in the second: `kb`
coefficients, a block of `kv` by `kv` variances, and the residuals and fitted values of the observations in `A`. -/
def SameBlock (kb kv : ℕ) (A : Set ℕ) (a a' : Multi.Asm ℝ) (c c' : ℕ) : Prop :=
  (∀ j < kb, a.betas (c * kb + j) = a'.betas (c' * kb + j)) ∧
  (∀ i < kv, ∀ j < kv, a.vm (c * kv + i) (c * kv + j) = a'.vm (c' * kv + i) (c' * kv + j)) ∧
  (∀ o ∈ A, a.u[o]? = a'.u[o]?) ∧ ∀ o ∈ A, a.predy[o]? = a'.predy[o]?

end Spreg.Local
