import Verif.Model.Impacts
import Mathlib.Analysis.Normed.Algebra.MatrixExponential
import Mathlib.Analysis.SpecialFunctions.Log.Basic
/-
Model of dgp.py (data generating processes). Vectors carry their length, so that mismatching arguments can be
expressed. A Python `None` result (after the printed error) is `.ok none`.
-/
namespace Spreg.DGP
open Matrix Spreg Spreg.Lin Spreg.Impacts

/-- An `n × 1` array of unknown length. -/
abbrev Vec := Σ n : ℕ, (Fin n → ℝ)
/-- A weights object with `w.n = n`. -/
abbrev Wts := Σ n : ℕ, Matrix (Fin n) (Fin n) ℝ

/-- `a + b` for arrays of the same length (`h` is the check the code has made). -/
def vadd {n : ℕ} (a : Fin n → ℝ) (b : Vec) (h : b.1 = n) : Fin n → ℝ := fun i => a i + b.2 (Fin.cast h.symm i)

/-- `inverse_prod(w, y1, rho, inv_method=imethod)` with default threshold and bound. -/
noncomputable def invp {n : ℕ} (W : Matrix (Fin n) (Fin n) ℝ) (v : Fin n → ℝ) (c : ℝ) (m : InvMethod) :
    Py (Fin n → ℝ) :=
  inverseProd W v c false m defThreshold none

/-- The weights as a matrix of the given size. -/
def wcast {n : ℕ} (w : Wts) (h : w.1 = n) : Matrix (Fin n) (Fin n) ℝ :=
  w.2.submatrix (Fin.cast h.symm) (Fin.cast h.symm)

/-- `make_bin(yy)`, dgp.py:894-928: 1 above the mean, 0 otherwise. -/
noncomputable def makeBin {n : ℕ} (y : Fin n → ℝ) : Fin n → ℝ :=
  fun i => if (∑ j, y j) / n < y i then 1 else 0

/-- `if ybin: y = make_bin(y)` -/
noncomputable def binIf {n : ℕ} (ybin : Bool) (y : Fin n → ℝ) : Fin n → ℝ := if ybin then makeBin y else y

/-- Type of the error process: `model`. -/
inductive EModel
  | sar | ma | other
  deriving DecidableEq

/-- The error process shared by dgp_errproc (334-341), dgp_sperror (479-485), dgp_slxerror (546-552),
dgp_lagerr (718-724), dgp_gns (787-793): `none` for an unsupported model. -/
noncomputable def errProc {n : ℕ} (W : Matrix (Fin n) (Fin n) ℝ) (u : Fin n → ℝ) (lam : ℝ) (model : EModel)
    (im : InvMethod) : Py (Option (Fin n → ℝ)) :=
  match model with
  | .sar => (invp W u lam im).map some
  | .ma => .ok (some (u + lam • (W *ᵥ u)))
  | .other => .ok none

/-- `dgp_errproc`, dgp.py:296-341. -/
noncomputable def dgpErrproc {n : ℕ} (u : Fin n → ℝ) (w : Wts) (lam : ℝ) (model : EModel) (im : InvMethod) :
    Py (Option (Fin n → ℝ)) :=
  if hw : w.1 = n then errProc (wcast w hw) u lam model im else .ok none

/-- `dgp_ols`, dgp.py:344-381. -/
def dgpOls {n : ℕ} (u : Fin n → ℝ) (xb : Vec) : Py (Option (Fin n → ℝ)) :=
  if h : xb.1 = n then .ok (some (vadd u xb h)) else .ok none

/-- `dgp_slx`, dgp.py:383-431. -/
noncomputable def dgpSlx {n : ℕ} (u : Fin n → ℝ) (xb wxg : Vec) (ybin : Bool) : Py (Option (Fin n → ℝ)) :=
  if h : xb.1 = n then
    if h2 : wxg.1 = n then .ok (some (binIf ybin (vadd (vadd u xb h) wxg h2))) else .ok none
  else .ok none

/-- `dgp_sperror`, dgp.py:433-489. -/
noncomputable def dgpSperror {n : ℕ} (u : Fin n → ℝ) (xb : Vec) (w : Wts) (lam : ℝ) (model : EModel)
    (im : InvMethod) (ybin : Bool) : Py (Option (Fin n → ℝ)) :=
  if h : xb.1 = n then
    if hw : w.1 = n then
      (errProc (wcast w hw) u lam model im).map fun o => o.map fun u1 => binIf ybin (vadd u1 xb h)
    else .ok none
  else .ok none

/-- `dgp_slxerror`, dgp.py:491-556. -/
noncomputable def dgpSlxerror {n : ℕ} (u : Fin n → ℝ) (xb wxg : Vec) (w : Wts) (lam : ℝ) (model : EModel)
    (im : InvMethod) (ybin : Bool) : Py (Option (Fin n → ℝ)) :=
  if h : xb.1 = n then
    if h2 : wxg.1 = n then
      if hw : w.1 = n then
        (errProc (wcast w hw) u lam model im).map fun o => o.map fun u1 =>
          binIf ybin (vadd (vadd u1 xb h) wxg h2)
      else .ok none
    else .ok none
  else .ok none

/-- `dgp_lag`, dgp.py:558-608. -/
noncomputable def dgpLag {n : ℕ} (u : Fin n → ℝ) (xb : Vec) (w : Wts) (rho : ℝ) (im : InvMethod)
    (ybin : Bool) : Py (Option (Fin n → ℝ)) :=
  if h : xb.1 = n then
    if hw : w.1 = n then
      (invp (wcast w hw) (vadd u xb h) rho im).map fun y => some (binIf ybin y)
    else .ok none
  else .ok none

/-- `dgp_spdurbin`, dgp.py:610-666. The branch for weights of the wrong size prints but does not return
(660-661); the multiplication in `inverse_prod` then raises ValueError (an unsupported `imethod` raises
before). For `true_inv` a singular `I - rho W` of the wrong size raises AttributeError first; that case is
merged into `valueError` here. -/
noncomputable def dgpSpdurbin {n : ℕ} (u : Fin n → ℝ) (xb wxg : Vec) (w : Wts) (rho : ℝ) (im : InvMethod)
    (ybin : Bool) : Py (Option (Fin n → ℝ)) :=
  if h : xb.1 = n then
    if h2 : wxg.1 = n then
      if hw : w.1 = n then
        (invp (wcast w hw) (vadd (vadd u xb h) wxg h2) rho im).map fun y => some (binIf ybin y)
      else if im = .other then .error .exception else .error .valueError
    else .ok none
  else .ok none

/-- `dgp_lagerr`, dgp.py:668-729. -/
noncomputable def dgpLagerr {n : ℕ} (u : Fin n → ℝ) (xb : Vec) (w : Wts) (rho lam : ℝ) (model : EModel)
    (im : InvMethod) (ybin : Bool) : Py (Option (Fin n → ℝ)) :=
  if h : xb.1 = n then
    if hw : w.1 = n then
      (errProc (wcast w hw) u lam model im).bind fun o =>
        match o with
        | none => .ok none
        | some u1 => (invp (wcast w hw) (vadd u1 xb h) rho im).map fun y => some (binIf ybin y)
    else .ok none
  else .ok none

/-- `dgp_gns`, dgp.py:731-798 (same omission of `return None` as in `dgp_spdurbin`, 785-786; with an
unsupported `model` the function returns None before multiplying). -/
noncomputable def dgpGns {n : ℕ} (u : Fin n → ℝ) (xb wxg : Vec) (w : Wts) (rho lam : ℝ) (model : EModel)
    (im : InvMethod) (ybin : Bool) : Py (Option (Fin n → ℝ)) :=
  if h : xb.1 = n then
    if h2 : wxg.1 = n then
      if hw : w.1 = n then
        (errProc (wcast w hw) u lam model im).bind fun o =>
          match o with
          | none => .ok none
          | some u1 =>
            (invp (wcast w hw) (vadd (vadd u1 xb h) wxg h2) rho im).map fun y => some (binIf ybin y)
      else if model = .other then .ok none
      else if im = .other ∧ model = .sar then .error .exception else .error .valueError
    else .ok none
  else .ok none

/-- `dgp_mess`, dgp.py:800-849: `expm(-alpha W) (xb + u)` with `alpha = log(1 - rho)`. -/
noncomputable def dgpMess {n : ℕ} (u : Fin n → ℝ) (xb : Vec) (w : Wts) (rho : ℝ) : Py (Option (Fin n → ℝ)) :=
  if h : xb.1 = n then
    if hw : w.1 = n then
      .ok (some (NormedSpace.exp (-(Real.log (1 - rho)) • wcast w hw) *ᵥ vadd u xb h))
    else .ok none
  else .ok none

/-- `make_xb(x, beta)`, dgp.py:210-247: constant included; `none` when the number of coefficients is wrong. -/
def makeXb {n k : ℕ} (x : Matrix (Fin n) (Fin k) ℝ) (beta : List ℝ) : Option (Fin n → ℝ) :=
  if k + 1 ≠ beta.length then none
  else some fun i => beta.getD 0 0 + ∑ j : Fin k, x i j * beta.getD (j.val + 1) 0

/-- `make_wx(x, w, o)`, dgp.py:163-207, columns as list; `W` acts on columns. -/
def makeWx {C : Type} (W : C → C) (x : List C) (o : ℕ) : List C :=
  let w1x := x.map W
  if 1 < o then
    ((List.range (o - 1)).foldl (fun (s : List C × List C) _ =>
      let whx := s.1.map W
      (whx, s.2 ++ whx)) (w1x, w1x)).2
  else w1x

/-- `make_heterror(u, v)`, dgp.py:931-955. -/
noncomputable def makeHeterror {n : ℕ} (u : Fin n → ℝ) (v : Vec) : Option (Fin n → ℝ) :=
  if h : v.1 = n then some fun i => u i * Real.sqrt (v.2 (Fin.cast h.symm i)) else none

/-- `make_vmult(n, method='linear')`, dgp.py:989-993: ZeroDivisionError for `n = 1`. -/
noncomputable def vmultLinear (n : ℕ) (vlo vup : ℝ) : Py (List ℝ) :=
  if n = 1 then .error .zeroDivision else
  let slop := (vup - vlo) / ((n : ℝ) - 1)
  .ok ((List.range n).map fun (i : ℕ) => vlo + slop * (i : ℝ))

/-- `make_vmult(n, method='group')`, dgp.py:994-1005. -/
def vmultGroup (n : ℕ) (vlow : List ℕ) (vup : List ℝ) : Option (List ℝ) :=
  if vup.length = vlow.length ∧ vlow.sum = n then
    some ((vup.zip vlow).flatMap fun p => List.replicate p.2 p.1)
  else none

end Spreg.DGP
