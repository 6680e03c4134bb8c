import Verif.Model.SUR
import Verif.Model.GM
import Verif.Model.ML
/-
Model of sur_error.py (SURerrorGM, SURerrorML).

Equations are indexed by `R`; the weights `W` are `w.sparse`. The optimisers (`optim_moments`, `minimize_scalar`,
`minimize`) are parameters of the model: arbitrary functions of the objective (and the starting point). Inside an objective,
a singular `I - lam W` or a singular cross product (which raise in the code) are not modelled: the theorems assume them
nonsingular where it matters.
-/
namespace Spreg.SUR
open Matrix Spreg.Lin

section Fits
variable {n R : Type} [Fintype n] [Fintype R] [DecidableEq R] {K : R → Type} [∀ r, Fintype (K r)]

/-- `filter_dict(lam, bigX, bigXlag)` with `bigXlag[r] = WS @ bigX[r]`, sur_error.py:115-116, 120, 506-507, 546 and
sur_utils.py:468-497. -/
def filtX (W : Matrix n n ℝ) (lam : R → ℝ) (X : ∀ r, Matrix n (K r) ℝ) : ∀ r, Matrix n (K r) ℝ :=
  fun r => X r - lam r • (W * X r)

/-- `filter_dict(lam, bigy, bigylag)` with `bigylag[r] = WS @ bigy[r]`, sur_error.py:111-112, 119, 502-503, 545. -/
def filtY (W : Matrix n n ℝ) (lam : R → ℝ) (y : R → n → ℝ) : R → n → ℝ :=
  fun r => y r - lam r • (W *ᵥ y r)

/-- `WbigE = WS @ bigE; splbigE = bigE - WbigE * lam.T`, sur_error.py:121-122, 547-548, 967-968: `lam.T` is a row, so
column `r` is multiplied by `lam[r]`. -/
def filtE (W : Matrix n n ℝ) (lam : R → ℝ) (E : Matrix n R ℝ) : Matrix n R ℝ :=
  let WbigE := W * E
  E - Matrix.of fun i r => WbigE i r * lam r

/-- `_momentsGM_sur_Error(w, u)`, sur_error.py:135-160: the dictionary of `[G, g]`, one per column of `u`. -/
noncomputable def momentsSur (W : Matrix n n ℝ) (u : Matrix n R ℝ) (r : R) : GM.Moments (Fin 3) (Fin 3) :=
  let nn : ℝ := Fintype.card n
  let u2 : R → ℝ := fun r => ∑ i, u i r * u i r
  let wu := W * u
  let uwu : R → ℝ := fun r => ∑ i, u i r * wu i r
  let wu2 : R → ℝ := fun r => ∑ i, wu i r * wu i r
  let wwu := W * wu
  let uwwu : R → ℝ := fun r => ∑ i, u i r * wwu i r
  let wwu2 : R → ℝ := fun r => ∑ i, wwu i r * wwu i r
  let wwuwu : R → ℝ := fun r => ∑ i, wwu i r * wu i r
  let trWtW := ∑ i, ∑ j, W i j * W i j
  { g := fun i => ![u2 r, wu2 r, uwu r] i / nn
    G := Matrix.of fun i j =>
      (![![2 * uwu r, -wu2 r, nn], ![2 * wwuwu r, -wwu2 r, trWtW], ![uwwu r + wu2 r, -wwuwu r, 0]] i j) / nn }

/-- Attributes of `BaseSURerrorGM`. -/
structure FitGM (n R : Type) (K : R → Type) where
  lam : R → ℝ
  est : Est R K
  corr : Matrix R R ℝ
  bigE : Matrix n R ℝ

/-- `BaseSURerrorGM.__init__`, sur_error.py:86-132; `opt` is `optim_moments`. -/
noncomputable def baseSURerrorGM [∀ r, DecidableEq (K r)] (opt : GM.Moments (Fin 3) (Fin 3) → ℝ) (W : Matrix n n ℝ)
    (X : ∀ r, Matrix n (K r) ℝ) (y : R → n → ℝ) : Option (FitGM n R K) :=
  (eqByEq (crossXX X) (crossXy X y)).bind fun bOLS =>
    let olsE := surResids y X bOLS
    let lam : R → ℝ := fun r => opt (momentsSur W olsE r)
    let sply := filtY W lam y
    let splX := filtX W lam X
    (surEst (crossXX splX) (crossXy splX sply) (filtE W lam olsE)).map fun e =>
      { lam := lam, est := e, corr := surCorr e.sig, bigE := surResids y X e.b }

/-! ### Maximum likelihood -/

variable [DecidableEq n]

/-- `jacob(lam, n_eq, I, WS)`, sur_error.py:909-937: the logarithms of the absolute diagonal of the U factor of `I - lam W`,
summed over equations; by `C35_lu` each inner sum is the logarithm of the absolute determinant. -/
noncomputable def jacobSur (W : Matrix n n ℝ) (lam : R → ℝ) : ℝ := ∑ r, Real.log |(1 - lam r • W).det|

/-- `clik(lam, n, n2, n_eq, bigE, I, WS)`, sur_error.py:940-973: the negative concentrated log-likelihood. -/
noncomputable def clikSur (W : Matrix n n ℝ) (E : Matrix n R ℝ) (lam : R → ℝ) : ℝ :=
  let sig := sigOf (filtE W lam E)
  let ldet := slogdet sig
  let logjac := jacobSur W lam
  let clik := -((Fintype.card n : ℝ) / 2) * ldet + logjac;
  -clik

/-- `err_c_loglik_sp(lam, n, y, ylag, x, xlag, I, Wsp)`, ml_error.py:569-614, for equation `r` (where the code returns
infinity, because a matrix is singular, this is a number). -/
noncomputable def errObjSur [∀ r, DecidableEq (K r)] (W : Matrix n n ℝ) (X : ∀ r, Matrix n (K r) ℝ) (y : R → n → ℝ) (r : R)
    (lam : ℝ) : ℝ :=
  let ys := y r - lam • (W *ᵥ y r)
  let xs := X r - lam • (W * X r)
  let betas := (xsᵀ * xs)⁻¹ *ᵥ (xsᵀ *ᵥ ys)
  let e := ys - xs *ᵥ betas
  let sig2 := (e ⬝ᵥ e) / Fintype.card n
  let jacob := Real.log |(1 - lam • W).det|
  (Fintype.card n : ℝ) / 2 * Real.log sig2 - jacob

/-- State of the loop of `BaseSURerrorML`: `est` is `none` while `b1, varb1, sig1` are unbound. -/
structure StML (n R : Type) (K : R → Type) where
  lam : R → ℝ
  est : Option (Est R K)
  bigE : Matrix n R ℝ
  fun0 : ℝ
  fun1 : ℝ

/-- Body of the loop, sur_error.py:544-561; `opt` is `minimize` (objective, starting point). `none` is an exception in
`sur_est`. -/
noncomputable def mlStep [∀ r, DecidableEq (K r)] (opt : ((R → ℝ) → ℝ) → (R → ℝ) → R → ℝ) (W : Matrix n n ℝ)
    (X : ∀ r, Matrix n (K r) ℝ) (y : R → n → ℝ) (s : StML n R K) : Option (StML n R K) :=
  let sply := filtY W s.lam y
  let splX := filtX W s.lam X
  (surEst (crossXX splX) (crossXy splX sply) (filtE W s.lam s.bigE)).map fun e =>
    let bigE := surResids y X e.b
    let lam := opt (clikSur W bigE) s.lam
    { lam := lam, est := some e, bigE := bigE, fun0 := s.fun1, fun1 := clikSur W bigE lam }

/-- The `while` loop, sur_error.py:543-561, as a relation between the state before it and its outcome (`none`: an exception):
the loop has no bound on the number of passes. -/
inductive MLRun [∀ r, DecidableEq (K r)] (opt : ((R → ℝ) → ℝ) → (R → ℝ) → R → ℝ) (W : Matrix n n ℝ)
    (X : ∀ r, Matrix n (K r) ℝ) (y : R → n → ℝ) (eps : ℝ) : StML n R K → Option (StML n R K) → Prop
  | stop (s) : ¬|s.fun0 - s.fun1| > eps → MLRun opt W X y eps s (some s)
  | raise (s) : |s.fun0 - s.fun1| > eps → mlStep opt W X y s = none → MLRun opt W X y eps s none
  | pass (s s' o) : |s.fun0 - s.fun1| > eps → mlStep opt W X y s = some s' → MLRun opt W X y eps s' o →
      MLRun opt W X y eps s o

/-- Attributes of `BaseSURerrorML`. -/
structure FitML (n R : Type) (K : R → Type) where
  lamols : R → ℝ
  clikerr : ℝ
  bSUR0 : ∀ r, K r → ℝ
  llik : ℝ
  lam : R → ℝ
  est : Est R K
  corr : Matrix R R ℝ
  bigE : Matrix n R ℝ
  cliksurerr : ℝ

/-- State before the loop, sur_error.py:510-539; `optS` is `minimize_scalar`, `reg0` the iterated SUR of line 536. -/
noncomputable def mlInit [∀ r, DecidableEq (K r)] (optS : (ℝ → ℝ) → ℝ) (W : Matrix n n ℝ)
    (X : ∀ r, Matrix n (K r) ℝ) (y : R → n → ℝ) (reg0 : Fit n R K) : StML n R K :=
  let lam : R → ℝ := fun r => optS (errObjSur W X y r)
  { lam := lam, est := none, bigE := reg0.bigE, fun0 := 0, fun1 := ∑ r, errObjSur W X y r (lam r) }

/-- After the loop, sur_error.py:562-568: `b1` unbound raises UnboundLocalError. -/
noncomputable def mlFinish (s0 : StML n R K) (reg0 : Fit n R K) (o : Option (StML n R K)) : Py (FitML n R K) :=
  match o with
  | none => .error .linAlgError
  | some s =>
    match s.est with
    | none => .error .unboundLocal
    | some e => .ok { lamols := s0.lam, clikerr := -s0.fun1, bSUR0 := reg0.est.b, llik := reg0.llik, lam := s.lam, est := e,
                      corr := surCorr e.sig, bigE := s.bigE, cliksurerr := -s.fun1 }

/-- `BaseSURerrorML.__init__`, sur_error.py:486-568, as a relation between the data and the result (`maxiter=5` and
`epsilon=0.00001` are the defaults of `BaseSUR`, sur.py:109). -/
def BaseSURerrorML [∀ r, DecidableEq (K r)] (optS : (ℝ → ℝ) → ℝ) (opt : ((R → ℝ) → ℝ) → (R → ℝ) → R → ℝ) (W : Matrix n n ℝ)
    (X : ∀ r, Matrix n (K r) ℝ) (y : R → n → ℝ) (eps : ℝ) (res : Py (FitML n R K)) : Prop :=
  match baseSUR X y true 5 (1 / 100000) with
  | none => res = .error .linAlgError
  | some reg0 => ∃ o, MLRun opt W X y eps (mlInit optS W X y reg0) o ∧ res = mlFinish (mlInit optS W X y reg0) reg0 o

/-- `const` of `SURerrorML`, sur_error.py:831. -/
noncomputable def mlConst (n R : Type) [Fintype n] [Fintype R] : ℝ :=
  -((Fintype.card n : ℝ) / 2) * ((Fintype.card R : ℝ) * (1 + Real.log (2 * Real.pi)))

/-- `errllik`, sur_error.py:832. -/
noncomputable def FitML.errllik (f : FitML n R K) : ℝ := mlConst n R + f.clikerr

/-- `surerrllik`, sur_error.py:833. -/
noncomputable def FitML.surerrllik (f : FitML n R K) : ℝ := mlConst n R + f.cliksurerr

/-- `lrtest` (statistic, degrees of freedom), sur_error.py:837-840. -/
noncomputable def FitML.lrtest (f : FitML n R K) : ℝ × ℕ :=
  (2 * (f.surerrllik - f.errllik), Fintype.card R * (Fintype.card R - 1) / 2)

/-- `likrlambda` (statistic, degrees of freedom), sur_error.py:846-848. -/
noncomputable def FitML.likrlambda (f : FitML n R K) : ℝ × ℕ := (2 * (f.surerrllik - f.llik), Fintype.card R)

end Fits

/-! ### Asymptotic variance -/

section Vm
variable {n R : Type} [Fintype n] [DecidableEq n] [Fintype R] [LinearOrder R]

/-- `tlist`, sur_error.py:1040: the pairs `(i, j)` with `i <= j`. -/
abbrev UPair (R : Type) [LinearOrder R] := {p : R × R // p.1 ≤ p.2}

/-- `D = WS @ inv(I - lam_i W)`, sur_error.py:1013-1018, 1026-1031. -/
noncomputable def dMat (W : Matrix n n ℝ) (lam : ℝ) : Matrix n n ℝ := W * (1 - lam • W)⁻¹

/-- `Vll`, sur_error.py:1003-1036 (`trDTiDj`: computed above the diagonal and copied below it, the diagonal filled with
`tr(D_i' D_i)`). -/
noncomputable def vLL (W : Matrix n n ℝ) (lam : R → ℝ) (sig sigi : Matrix R R ℝ) : Matrix R R ℝ :=
  let trDTiDj : R → R → ℝ := fun i j =>
    if i = j then ((dMat W (lam i))ᵀ * dMat W (lam i)).trace
    else if i < j then ((dMat W (lam i))ᵀ * dMat W (lam j)).trace
    else ((dMat W (lam j))ᵀ * dMat W (lam i)).trace
  Matrix.of fun i j => (if i = j then (dMat W (lam i) * dMat W (lam i)).trace else 0) + sigi i j * sig i j * trDTiDj i j

/-- `Vlsig`, sur_error.py:1038-1049. -/
noncomputable def vLS (W : Matrix n n ℝ) (lam : R → ℝ) (sigi : Matrix R R ℝ) : Matrix R (UPair R) ℝ :=
  let zog : R → R → ℝ := fun i j => sigi i j * (dMat W (lam i)).trace
  Matrix.of fun i p => if p.1.1 = i then zog i p.1.2 else if p.1.2 = i then zog i p.1.1 else 0

/-- `Vsig`, sur_error.py:1056-1075. -/
noncomputable def vSS (nobs : ℕ) (sigi : Matrix R R ℝ) : Matrix (UPair R) (UPair R) ℝ :=
  Matrix.of fun p q =>
    let i := p.1.1; let j := p.1.2; let h := q.1.1; let k := q.1.2
    (nobs : ℝ) *
      if i = j then
        if h = k then 1 / 2 * sigi i h ^ 2 else sigi i h * sigi i k
      else
        if h = k then sigi i h * sigi j h else sigi i h * sigi j k + sigi i k * sigi j h

/-- `vbig` of `surerrvm`, sur_error.py:1051-1081. -/
noncomputable def surErrInfo (W : Matrix n n ℝ) (lam : R → ℝ) (sig sigi : Matrix R R ℝ) :
    Matrix (R ⊕ UPair R) (R ⊕ UPair R) ℝ :=
  fromBlocks (vLL W lam sig sigi) (vLS W lam sigi) (vLS W lam sigi)ᵀ (vSS (Fintype.card n) sigi)

/-- `surerrvm(n, n_eq, w, lam, sig)`, sur_error.py:976-1086. -/
noncomputable def surErrVm (W : Matrix n n ℝ) (lam : R → ℝ) (sig : Matrix R R ℝ) :
    Option (Matrix (R ⊕ UPair R) (R ⊕ UPair R) ℝ) :=
  (inv? sig).bind fun sigi => inv? (surErrInfo W lam sig sigi)

end Vm

end Spreg.SUR
