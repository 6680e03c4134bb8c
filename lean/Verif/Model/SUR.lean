import Verif.Model.Basic
import Verif.Model.Linear
import Mathlib.LinearAlgebra.Matrix.Trace
import Mathlib.Analysis.SpecialFunctions.Log.Basic
import Mathlib.Analysis.SpecialFunctions.Trigonometric.Basic
/-
Model of sur_utils.py, the base classes of sur.py, and the test statistics of diagnostics_sur.py.

Dictionaries keyed `0 .. n_eq-1` are functions of an index type `R` of equations; equation `r` has
regressors indexed by `K r`, and a vector stacked over equations is indexed by `Σ r, K r`. The
conversions between stacked arrays and dictionaries are modelled on lists of rows at the end of the file.
-/
namespace Spreg.SUR
open Matrix Spreg.Lin

variable {n R : Type} [Fintype n] [Fintype R] [DecidableEq R] {K : R → Type} [∀ r, Fintype (K r)]

/-- Index of the stacked coefficient vector. -/
abbrev Stk (K : R → Type) := (r : R) × K r

/-- `bigZZ` of `sur_crossprod`, sur_utils.py:349-353: block `(r, t)` is `Z_r' Z_t`. -/
def crossXX (X : ∀ r, Matrix n (K r) ℝ) (r t : R) : Matrix (K r) (K t) ℝ := (X r)ᵀ * X t

/-- `bigZy` of `sur_crossprod`, sur_utils.py:354-357: block `(r, t)` is `Z_r' y_t`. -/
def crossXy (X : ∀ r, Matrix n (K r) ℝ) (y : R → n → ℝ) (r t : R) : K r → ℝ := (X r)ᵀ *ᵥ y t

/-- Result of `sur_est`. -/
structure Est (R : Type) (K : R → Type) where
  b : ∀ r, K r → ℝ
  varb : Matrix (Stk K) (Stk K) ℝ
  sig : Matrix R R ℝ

/-- `sig = np.dot(bigE.T, bigE) / n`, sur_utils.py:390. -/
noncomputable def sigOf (E : Matrix n R ℝ) : Matrix R R ℝ := (1 / (Fintype.card n : ℝ)) • (Eᵀ * E)

/-- `sur_est`, sur_utils.py:361-410. The block matrix of lines 405-406 is indexed by equation and position
within the equation, which is also how line 409 (`sur_mat2dict`) cuts the coefficient vector. -/
noncomputable def surEst [∀ r, DecidableEq (K r)] (XX : ∀ r t : R, Matrix (K r) (K t) ℝ)
    (Xy : ∀ r : R, R → K r → ℝ) (E : Matrix n R ℝ) : Option (Est R K) :=
  let sig := sigOf E
  (inv? sig).bind fun sigi =>
    let sigiXX : ∀ r t : R, Matrix (K r) (K t) ℝ := fun r t => Matrix.of fun i j => XX r t i j * sigi r t
    let sigiXy : ∀ r : R, K r → ℝ := fun r i => ∑ t, sigi r t * Xy r t i
    let xsigy : Stk K → ℝ := fun p => sigiXy p.1 p.2
    let xsigx : Matrix (Stk K) (Stk K) ℝ := Matrix.of fun p q => sigiXX p.1 q.1 p.2 q.2
    (inv? xsigx).map fun varb =>
      let beta := varb *ᵥ xsigy
      { b := fun r i => beta ⟨r, i⟩, varb := varb, sig := sig }

/-- `sur_resids`, sur_utils.py:413-437. -/
def surResids (y : R → n → ℝ) (X : ∀ r, Matrix n (K r) ℝ) (b : ∀ r, K r → ℝ) : Matrix n R ℝ :=
  Matrix.of fun i r => y r i - (X r *ᵥ b r) i

/-- `sur_predict`, sur_utils.py:440-465. -/
def surPredict (X : ∀ r, Matrix n (K r) ℝ) (b : ∀ r, K r → ℝ) : Matrix n R ℝ :=
  Matrix.of fun i r => (X r *ᵥ b r) i

open Classical in
/-- The loop over equations of `_sur_ols` (sur.py:177-179) and of `_sur_2sls` (sur.py:975-977): raises if one
of the cross products is singular. -/
noncomputable def eqByEq [∀ r, DecidableEq (K r)] (XX : ∀ r t : R, Matrix (K r) (K t) ℝ)
    (Xy : ∀ r : R, R → K r → ℝ) : Option (∀ r, K r → ℝ) :=
  if ∀ r, IsUnit (XX r r).det then some fun r => (XX r r)⁻¹ *ᵥ Xy r r else none

/-- `sur_corr`, sur_utils.py:304-324. -/
noncomputable def surCorr (sig : Matrix R R ℝ) : Matrix R R ℝ :=
  Matrix.of fun r t => sig r t / (Real.sqrt (sig r r) * Real.sqrt (sig t t))

/-- State of the iterations of `BaseSUR`. -/
structure St (n R : Type) (K : R → Type) where
  est : Est R K
  resids : Matrix n R ℝ
  det0 : ℝ
  det1 : ℝ
  niter : ℕ

/-- `la.slogdet(sig)[1]`, the logarithm of the absolute determinant. -/
noncomputable def slogdet (S : Matrix R R ℝ) : ℝ := Real.log |S.det|

/-- The `while` loop of `BaseSUR`, sur.py:138-148. `none` is an exception in `sur_est`. -/
noncomputable def surLoop [∀ r, DecidableEq (K r)] (X : ∀ r, Matrix n (K r) ℝ) (y : R → n → ℝ)
    (eps : ℝ) (maxiter : ℕ) (s : St n R K) : Option (St n R K) :=
  if |s.det1 - s.det0| > eps ∧ s.niter ≤ maxiter then
    (surEst (crossXX X) (crossXy X y) s.resids).bind fun e =>
      surLoop X y eps maxiter
        { est := e, resids := surResids y X e.b, det0 := s.det1, det1 := slogdet e.sig, niter := s.niter + 1 }
  else some s
termination_by maxiter + 1 - s.niter

/-- Attributes of `BaseSUR`. -/
structure Fit (n R : Type) (K : R → Type) where
  est : Est R K
  bOLS : ∀ r, K r → ℝ
  sigOLS : Matrix R R ℝ
  bigE : Matrix n R ℝ
  bigYP : Matrix n R ℝ
  ldetS0 : ℝ
  ldetS1 : ℝ
  niter : ℕ
  llik : ℝ

/-- The two-step estimate that precedes the iterations, sur.py:120-135 (`det0 = ldetS0`, line 132). -/
noncomputable def surStart [∀ r, DecidableEq (K r)] (X : ∀ r, Matrix n (K r) ℝ) (y : R → n → ℝ) :
    Option ((∀ r, K r → ℝ) × St n R K) :=
  (eqByEq (crossXX X) (crossXy X y)).bind fun bOLS =>
    (surEst (crossXX X) (crossXy X y) (surResids y X bOLS)).map fun e =>
      (bOLS, { est := e, resids := surResids y X e.b, det0 := ∑ r, Real.log (e.sig r r), det1 := slogdet e.sig,
               niter := 0 })

/-- `BaseSUR.__init__`, sur.py:109-158. -/
noncomputable def baseSUR [∀ r, DecidableEq (K r)] (X : ∀ r, Matrix n (K r) ℝ) (y : R → n → ℝ)
    (iter : Bool) (maxiter : ℕ) (eps : ℝ) : Option (Fit n R K) :=
  (surStart X y).bind fun (bOLS, s0) =>
    let mk (s : St n R K) (bigE : Matrix n R ℝ) (niter : ℕ) : Fit n R K :=
      { est := s.est, bOLS := bOLS, sigOLS := s0.est.sig, bigE := bigE, bigYP := surPredict X s.est.b,
        ldetS0 := s0.det0, ldetS1 := s.det1, niter := niter,
        llik := -((Fintype.card n : ℝ) / 2) *
          ((Fintype.card R : ℝ) * (1 + Real.log (2 * Real.pi)) + s.det1) }
    if iter then (surLoop X y eps maxiter s0).map fun s => mk s (surResids y X s.est.b) s.niter
    else some (mk s0 s0.resids 1)

/-! ### Three-stage least squares -/

variable {A B Q : R → Type} [∀ r, Fintype (A r)] [∀ r, Fintype (B r)] [∀ r, Fintype (Q r)]

/-- `_get_bigZhat`, sur.py:982-992, for one equation: `[x, h (h'h)⁻¹ h' yend]` with `h = [x, q]`. -/
noncomputable def zhat {a b q : Type} [Fintype a] [Fintype b] [Fintype q] [DecidableEq a] [DecidableEq q]
    (x : Matrix n a ℝ) (yend : Matrix n b ℝ) (qq : Matrix n q ℝ) (hhi : Matrix (a ⊕ q) (a ⊕ q) ℝ) :
    Matrix n (a ⊕ b) ℝ :=
  let h := fromCols x qq
  fromCols x (h * (hhi * (hᵀ * yend)))

/-- Attributes of `BaseThreeSLS`. -/
structure Fit3 (n R : Type) (K : R → Type) where
  est : Est R K
  b2SLS : ∀ r, K r → ℝ
  tslsE : Matrix n R ℝ
  bigE : Matrix n R ℝ

open Classical in
/-- `BaseThreeSLS.__init__`, sur.py:609-639. -/
noncomputable def baseThreeSLS [∀ r, DecidableEq (A r)] [∀ r, DecidableEq (B r)] [∀ r, DecidableEq (Q r)]
    (x : ∀ r, Matrix n (A r) ℝ) (yend : ∀ r, Matrix n (B r) ℝ) (q : ∀ r, Matrix n (Q r) ℝ) (y : R → n → ℝ) :
    Option (Fit3 n R (fun r => A r ⊕ B r)) :=
  let h : ∀ r, Matrix n (A r ⊕ Q r) ℝ := fun r => fromCols (x r) (q r)
  if ∀ r, IsUnit ((h r)ᵀ * h r).det then
    let z : ∀ r, Matrix n (A r ⊕ B r) ℝ := fun r => fromCols (x r) (yend r)
    let zh : ∀ r, Matrix n (A r ⊕ B r) ℝ := fun r => zhat (x r) (yend r) (q r) ((h r)ᵀ * h r)⁻¹
    (eqByEq (crossXX zh) (crossXy zh y)).bind fun b2 =>
      (surEst (crossXX zh) (crossXy zh y) (surResids y z b2)).map fun e =>
        { est := e, b2SLS := b2, tslsE := surResids y z b2, bigE := surResids y z e.b }
  else none

/-! ### Test statistics of diagnostics_sur.py -/

/-- `sur_lrtest`, diagnostics_sur.py:106-107: statistic and degrees of freedom. -/
noncomputable def lrtest (nobs neq : ℕ) (ldetS0 ldetS1 : ℝ) : ℝ × ℕ :=
  ((nobs : ℝ) * (ldetS0 - ldetS1), neq * (neq - 1) / 2)

/-- `sur_lmtest`, diagnostics_sur.py:132-135. -/
noncomputable def lmtest (nobs : ℕ) (sig : Matrix R R ℝ) : ℝ :=
  let c := surCorr sig
  ((nobs : ℝ) / 2) * ((cᵀ * c).trace - Fintype.card R)

/-- `surLMe`, diagnostics_sur.py:163-189 (statistic only). -/
noncomputable def surLMe [DecidableEq n] (W : Matrix n n ℝ) (E : Matrix n R ℝ) (sig : Matrix R R ℝ) : Option ℝ :=
  (inv? sig).bind fun sigi =>
    let EWE := Eᵀ * (W * E)
    let SEWE : Matrix R R ℝ := Matrix.of fun r t => sigi r t * EWE r t
    let score : R → ℝ := fun t => ∑ r, SEWE r t
    let trWW := (W * W).trace
    let trWtW := (Wᵀ * W).trace
    let denom : Matrix R R ℝ := trWW • (1 : Matrix R R ℝ) + trWtW • Matrix.of fun r t => sigi r t * sig r t
    (inv? denom).map fun idenom => score ⬝ᵥ (idenom *ᵥ score)

/-- Score of `surLMlag`, diagnostics_sur.py:224-230. Note line 228: the product `sigi @ EWY` is a matrix
product, where `surLMe` (line 167) uses the elementwise product. -/
noncomputable def lagScore (W : Matrix n n ℝ) (y : R → n → ℝ) (E : Matrix n R ℝ) (sigi : Matrix R R ℝ) : R → ℝ :=
  let Y : Matrix n R ℝ := Matrix.of fun i r => y r i
  let EWY := Eᵀ * (W * Y)
  let SEWE := sigi * EWY
  fun t => ∑ r, SEWE r t

/-- `i_inner` of `surLMlag`, diagnostics_sur.py:234-257. -/
noncomputable def lagInner (W : Matrix n n ℝ) (X : ∀ r, Matrix n (K r) ℝ) (YP : Matrix n R ℝ)
    (sig sigi : Matrix R R ℝ) (varb : Matrix (Stk K) (Stk K) ℝ) : Matrix R R ℝ :=
  let trWW := (W * W).trace
  let trWtW := (Wᵀ * W).trace
  let firstHalf : Matrix R R ℝ := trWW • (1 : Matrix R R ℝ) + trWtW • Matrix.of fun r t => sigi r t * sig r t
  let WYP := W * YP
  let inner := WYPᵀ * WYP
  let secondHalf : Matrix R R ℝ := Matrix.of fun r t => sigi r t * inner r t
  let bp : Matrix (Stk K) R ℝ := Matrix.of fun p t => sigi p.1 t * ((X p.1)ᵀ * WYP) p.2 t
  firstHalf + secondHalf - bpᵀ * varb * bp

/-- `surLMlag`, diagnostics_sur.py:194-265 (statistic only). -/
noncomputable def surLMlag (W : Matrix n n ℝ) (y : R → n → ℝ) (X : ∀ r, Matrix n (K r) ℝ) (E YP : Matrix n R ℝ)
    (sig : Matrix R R ℝ) (varb : Matrix (Stk K) (Stk K) ℝ) : Option ℝ :=
  (inv? sig).bind fun sigi =>
    let score := lagScore W y E sigi
    (inv? (lagInner W X YP sig sigi varb)).map fun ip => score ⬝ᵥ (ip *ᵥ score)

/-! ### Dictionaries and stacked arrays -/

/-- Loop of `sur_mat2dict`, sur_utils.py:271-277: `ki` is the start of the next block; slices are clipped. -/
def mat2dictLoop {α : Type} (mat : List α) : ℕ → List ℕ → ℕ → List (ℕ × List α)
  | _, [], _ => []
  | ki, d :: ds, r => (r, (mat.drop ki).take d) :: mat2dictLoop mat (ki + d) ds (r + 1)

/-- `sur_mat2dict(mat, ndim)`, sur_utils.py:250-277, for a matrix given by its rows. The dictionary is the
list of its items. -/
def mat2dict {α : Type} (mat : List α) (ndim : List ℕ) : List (ℕ × List α) := mat2dictLoop mat 0 ndim 0

/-- `dicts[t]`. -/
def getKey {β : Type} (d : List (ℕ × β)) (t : ℕ) : Py β :=
  match d.find? (fun p => p.1 = t) with
  | some p => .ok p.2
  | none => .error .keyError

/-- `sur_dict2mat`, sur_utils.py:280-301: `vstack([dicts[t] for t in range(len(dicts))])`; `vstack` of
nothing raises. -/
def dict2mat {α : Type} (d : List (ℕ × List α)) : Py (List α) :=
  ((List.range d.length).mapM (getKey d)).bind fun l => if l = [] then .error .valueError else .ok l.flatten

/-- `check_k`, sur_utils.py:500-516. -/
def checkK (bigK : List ℕ) : Py Bool :=
  match bigK with
  | [] => .error .indexError
  | k :: l => .ok ((k :: l).all fun c => k == c)

/-- `filter_dict`, sur_utils.py:468-497 (`lam`: one coefficient per equation; blocks as rows of numbers). -/
def filterDict (lam : List ℚ) (Z Zlag : List (List ℚ)) : Py (List (List ℚ)) :=
  if Z.length = lam.length ∧ Zlag.length = lam.length then
    .ok ((lam.zip (Z.zip Zlag)).map fun p => (p.2.1.zip p.2.2).map fun q => q.1 - p.1 * q.2)
  else .error .exception

end Spreg.SUR
