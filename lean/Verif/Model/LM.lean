import Verif.Model.Linear
import Mathlib.Data.Matrix.Block
import Mathlib.LinearAlgebra.Matrix.Trace
import Mathlib.Analysis.Real.Sqrt
/-
Model of diagnostics_sp.py: Lagrange multiplier tests, Moran's I of residuals, Anselin-Kelejian test and
the common factor test. `W` is the dense meaning of `w.sparse`; `w.n` is the number of observations.
A statistic is reported with its degrees of freedom; the p-value is `chisqprob(stat, df)`, not modelled.
-/
namespace Spreg.LM
open Matrix Spreg.Lin

variable {n k q : Type} [Fintype n] [Fintype k] [Fintype q]

/-- A statistic and the degrees of freedom handed to `chisqprob`. -/
structure Test where
  stat : ℝ
  df : ℕ

/-- The part of the OLS object the tests read: `reg.x, reg.y` and the fit. -/
structure Reg (n k : Type) where
  x : Matrix n k ℝ
  y : n → ℝ
  fit : OLSFit n k

/-- `reg.sig2n` -/
noncomputable def Reg.s2 (r : Reg n k) : ℝ := sig2n r.fit.u
/-- `reg.n` -/
def Reg.nn (_ : Reg n k) : ℝ := (Fintype.card n : ℝ)

/-- `BaseOLS(y, x)` as the object that is diagnosed. -/
noncomputable def reg [DecidableEq k] (x : Matrix n k ℝ) (y : n → ℝ) : Option (Reg n k) :=
  (ols x y).map fun f => { x := x, y := y, fit := f }

/-- `spDcache.t` diagnostics_sp.py:515-520 -/
def tr_t (W : Matrix n n ℝ) : ℝ := ∑ i, ((Wᵀ + W) * W) i i

/-- `spDcache.wu` diagnostics_sp.py:495-499 -/
def wu (r : Reg n k) (W : Matrix n n ℝ) : n → ℝ := W *ᵥ r.fit.u

/-- `spDcache.utwuDs` diagnostics_sp.py:501-506 -/
noncomputable def utwuDs (r : Reg n k) (W : Matrix n n ℝ) : ℝ := (r.fit.u ⬝ᵥ wu r W) / r.s2

/-- `spDcache.utwyDs` diagnostics_sp.py:508-513 -/
noncomputable def utwyDs (r : Reg n k) (W : Matrix n n ℝ) : ℝ := (r.fit.u ⬝ᵥ (W *ᵥ r.y)) / r.s2

/-- `spDcache.j` diagnostics_sp.py:483-493 -/
noncomputable def jj (r : Reg n k) (W : Matrix n n ℝ) : ℝ :=
  let wxb := W *ᵥ r.fit.predy
  let wxb2 := wxb ⬝ᵥ wxb
  let xwxb := r.xᵀ *ᵥ wxb
  let num1 := wxb2 - xwxb ⬝ᵥ (r.fit.xtxi *ᵥ xwxb)
  let num := num1 + tr_t W * r.s2
  let den := r.nn * r.s2
  num / den

/-- `spDcache.trA` diagnostics_sp.py:522-528 -/
def trA (r : Reg n k) (W : Matrix n n ℝ) : ℝ := ∑ i, (r.fit.xtxi * (r.xᵀ * (W * r.x))) i i

/-- `spDcache.AB` diagnostics_sp.py:530-544 -/
noncomputable def AB (r : Reg n k) (W : Matrix n n ℝ) : Matrix k k ℝ × Matrix k k ℝ :=
  let U := (1 / 2.0 : ℝ) • (W + Wᵀ)
  let z := U * r.x
  let c1 := r.xᵀ * z
  let c2 := zᵀ * z
  (r.fit.xtxi * c1, r.fit.xtxi * c2)

/-- `lmErr` diagnostics_sp.py:547-569 -/
noncomputable def lmErr (r : Reg n k) (W : Matrix n n ℝ) : Test :=
  { stat := utwuDs r W ^ 2 / tr_t W, df := 1 }

/-- `lmLag` diagnostics_sp.py:572-594 -/
noncomputable def lmLag (r : Reg n k) (W : Matrix n n ℝ) : Test :=
  { stat := utwyDs r W ^ 2 / (r.nn * jj r W), df := 1 }

/-- `rlmErr` diagnostics_sp.py:597-625 -/
noncomputable def rlmErr (r : Reg n k) (W : Matrix n n ℝ) : Test :=
  let nj := r.nn * jj r W
  let num := (utwuDs r W - (tr_t W * utwyDs r W) / nj) ^ 2
  let den := tr_t W * (1 - tr_t W / nj)
  { stat := num / den, df := 1 }

/-- `rlmLag` diagnostics_sp.py:628-650 -/
noncomputable def rlmLag (r : Reg n k) (W : Matrix n n ℝ) : Test :=
  { stat := (utwyDs r W - utwuDs r W) ^ 2 / (r.nn * jj r W - tr_t W), df := 1 }

/-- `lmSarma` diagnostics_sp.py:653-678 (`w.n` is the number of observations) -/
noncomputable def lmSarma (r : Reg n k) (W : Matrix n n ℝ) : Test :=
  let first := (utwyDs r W - utwuDs r W) ^ 2 / ((Fintype.card n : ℝ) * jj r W - tr_t W)
  let secnd := utwuDs r W ^ 2 / tr_t W
  { stat := first + secnd, df := 2 }

/-- `reg.x[:, var_type == 'x']`, diagnostics_sp.py:701-704, 745-748: `sel` lists the selected columns. -/
def selCols (r : Reg n k) (sel : q → k) : Matrix n q ℝ := r.x.submatrix id sel

/-- `lm_wx` diagnostics_sp.py:680-722; `none` when `la.inv` raises. -/
noncomputable def lmWX [DecidableEq q] (r : Reg n k) (W : Matrix n n ℝ) (sel : q → k) : Option Test :=
  let wx := W * selCols r sel
  let mx1 := wxᵀ * r.x
  let mx := (mx1 * r.fit.xtxi) * mx1ᵀ
  let xwwx := wxᵀ * wx
  let xqx := xwwx - mx
  (inv? xqx).map fun xqxi =>
    let xpwpu := wxᵀ *ᵥ r.fit.u
    let rsg1 := (xpwpu ᵥ* xqxi) ⬝ᵥ xpwpu
    { stat := rsg1 / r.s2, df := Fintype.card k - 1 }

/-- `lm_spdurbin` diagnostics_sp.py:724-794; `none` when one of the two `la.inv` raises.
`w.trcWtW_WW` (libpysal) is the trace of `W'W + WW`. The last index of the `jj11` blocks is the variance. -/
noncomputable def lmSpDurbin [DecidableEq k] [DecidableEq q] (r : Reg n k) (W : Matrix n n ℝ)
    (sel : q → k) : Option Test :=
  let wx := W * selCols r sel
  let wxb := W *ᵥ r.fit.predy
  let wy := W *ᵥ r.y
  let drho := (wy ⬝ᵥ r.fit.u) / r.s2
  let dgam : q → ℝ := fun j => (wxᵀ *ᵥ r.fit.u) j / r.s2
  let pp := ∑ i, (Wᵀ * W + W * W) i i
  let jj11 : Matrix (k ⊕ Unit) (k ⊕ Unit) ℝ :=
    fromBlocks r.fit.xtx 0 0 (Matrix.of fun _ _ => r.nn / (2 * r.s2))
  let jj12 : Matrix (k ⊕ Unit) (Unit ⊕ q) ℝ :=
    fromBlocks (Matrix.of fun i _ => (r.xᵀ *ᵥ wxb) i) (r.xᵀ * wx) 0 0
  let jj22 : Matrix (Unit ⊕ q) (Unit ⊕ q) ℝ :=
    fromBlocks (Matrix.of fun _ _ => wxb ⬝ᵥ wxb + pp * r.s2) (Matrix.of fun _ j => (wxb ᵥ* wx) j)
      (Matrix.of fun j _ => (wxb ᵥ* wx) j) (wxᵀ * wx)
  (inv? jj11).bind fun jj11i =>
    let j121121 := (jj12ᵀ * jj11i) * jj12
    (inv? (jj22 - j121121)).map fun jj22i =>
      let dd : Unit ⊕ q → ℝ := Sum.elim (fun _ => drho) dgam
      { stat := (dd ᵥ* (r.s2 • jj22i)) ⬝ᵥ dd, df := Fintype.card k }

/-- `rlm_wx` diagnostics_sp.py:796-819 -/
def rlmWX (_r : Reg n k) (lmspdurbin lmlag : Test) : Test :=
  { stat := lmspdurbin.stat - lmlag.stat, df := Fintype.card k - 1 }

/-- `rlm_durlag` diagnostics_sp.py:821-842 -/
def rlmDurlag (lmspdurbin lmwx : Test) : Test :=
  { stat := lmspdurbin.stat - lmwx.stat, df := 1 }

/-- `lm_slxerr` diagnostics_sp.py:844-865 -/
def lmSlxErr (_r : Reg n k) (lmerr lmwx : Test) : Test :=
  { stat := lmerr.stat + lmwx.stat, df := Fintype.card k }

/-- `w.s0` of libpysal -/
def s0 (W : Matrix n n ℝ) : ℝ := ∑ i, ∑ j, W i j
/-- `w.s1` of libpysal: `(W + W')` entries squared, summed, halved. -/
noncomputable def s1 (W : Matrix n n ℝ) : ℝ := (∑ i, ∑ j, (W i j + W j i) ^ 2) / 2

/-- `get_mI` diagnostics_sp.py:867-888 -/
noncomputable def mI (r : Reg n k) (W : Matrix n n ℝ) : ℝ :=
  ((Fintype.card n : ℝ) * (r.fit.u ⬝ᵥ wu r W)) / (s0 W * utu r.fit.u)

/-- `get_eI` diagnostics_sp.py:907-911 -/
noncomputable def eI (r : Reg n k) (W : Matrix n n ℝ) : ℝ :=
  -((Fintype.card n : ℝ) * trA r W) / (s0 W * ((Fintype.card n : ℝ) - Fintype.card k))

/-- `get_vI` diagnostics_sp.py:891-904 -/
noncomputable def vI (r : Reg n k) (W : Matrix n n ℝ) : ℝ :=
  let nn := (Fintype.card n : ℝ)
  let kk := (Fintype.card k : ℝ)
  let A := (AB r W).1
  let trA2 := ∑ i, (A * A) i i
  let B := (AB r W).2
  let trB := (∑ i, B i i) * 4
  (nn ^ 2 / (s0 W ^ 2 * (nn - kk) * (nn - kk + 2))) *
    (s1 W + 2 * trA2 - trB - (2 * trA r W ^ 2) / (nn - kk))

/-- `get_zI(I, ei, vi)` diagnostics_sp.py:914-924, the standardised statistic (the p-value, `norm.sf(abs(z)) * 2`, is not modelled).
`MoranRes` diagnostics_sp.py:355-372 calls the three functions with `z=True`. -/
noncomputable def zI (I ei vi : ℝ) : ℝ := (I - ei) / Real.sqrt vi

/-- `akTest` diagnostics_sp.py:927-960, the statistic. `z`, `varb`, `u` come from the IV object. -/
noncomputable def akTest (u : n → ℝ) (z : Matrix n k ℝ) (varb : Matrix k k ℝ) (W : Matrix n n ℝ) : ℝ :=
  let nn := (Fintype.card n : ℝ)
  let mi := (nn * (u ⬝ᵥ (W *ᵥ u))) / (s0 W * utu u)
  let etwz := u ᵥ* (W * z)
  let a := etwz ⬝ᵥ (varb *ᵥ etwz)
  let s12 := (s0 W / nn) ^ 2
  let phi2 := (tr_t W + (4 / sig2n u) * a) / (s12 * nn)
  nn * mi ^ 2 / phi2

/-- `comfac_test(rho, beta, gamma, vm)` diagnostics_sp.py:963-1001; `none` when `la.inv` raises. The blocks
of `vm` are ordered (beta, gamma, rho) as in the code's `G`. -/
noncomputable def comfac [DecidableEq k] (rho : ℝ) (beta gamma : k → ℝ)
    (vm : Matrix ((k ⊕ k) ⊕ Unit) ((k ⊕ k) ⊕ Unit) ℝ) : Option Test :=
  let g := rho • beta + gamma
  let G : Matrix ((k ⊕ k) ⊕ Unit) k ℝ :=
    fromRows (fromRows (rho • (1 : Matrix k k ℝ)) 1) (Matrix.of fun _ j => beta j)
  (inv? (Gᵀ * (vm * G))).map fun GVGi =>
    { stat := g ⬝ᵥ (GVGi *ᵥ g), df := Fintype.card k }

/-! ### Which statistics an `LMtests` object holds -/

/-- The names accepted in `tests`. -/
inductive TestName
  | lme | lml | rlme | rlml | sarma | lmwx | lmspdurbin | rlmwx | rlmdurlag | lmslxerr
  deriving DecidableEq, Repr

open TestName

/-- The argument `tests`: the literal `["all"]`, or a list of names. -/
inductive TestsArg
  | all
  | these (l : List TestName)

/-- Expansion of `["all"]`, diagnostics_sp.py:164-166. -/
def expand : TestsArg → List TestName
  | .all => [lme, lml, rlme, rlml, sarma, lmwx, lmspdurbin, rlmwx, rlmdurlag, lmslxerr]
  | .these l => l

/-- Attributes already assigned, in order; reading an attribute not yet assigned is an AttributeError,
here `none`. -/
def need (l : List TestName) (have_ : List TestName) : Option Unit :=
  if l.all (· ∈ have_) then some () else none

/-- `if cond: (read deps); self.name = ...` -/
def stepAttr (cond : Bool) (deps : List TestName) (name : TestName) (attrs : List TestName) :
    Option (List TestName) :=
  if cond then (need deps attrs).map fun _ => attrs ++ [name] else some attrs

/-- `LMtests.__init__` diagnostics_sp.py:162-188: the attributes set, in order. -/
def lmtestsAttrs (arg : TestsArg) : Option (List TestName) :=
  let tests := expand arg
  (stepAttr (tests.any (· ∈ [lme, lmslxerr])) [] lme []).bind fun a =>
  (stepAttr (tests.any (· ∈ [lml, rlmwx])) [] lml a).bind fun a =>
  (stepAttr (rlme ∈ tests) [] rlme a).bind fun a =>
  (stepAttr (rlml ∈ tests) [] rlml a).bind fun a =>
  (stepAttr (sarma ∈ tests) [] sarma a).bind fun a =>
  (stepAttr (tests.any (· ∈ [lmwx, rlmdurlag, lmslxerr])) [] lmwx a).bind fun a =>
  (stepAttr (tests.any (· ∈ [lmspdurbin, rlmdurlag, rlmwx])) [] lmspdurbin a).bind fun a =>
  (stepAttr (rlmwx ∈ tests) [lmspdurbin, lml] rlmwx a).bind fun a =>
  (stepAttr (rlmdurlag ∈ tests) [lmspdurbin, lmwx] rlmdurlag a).bind fun a =>
  stepAttr (lmslxerr ∈ tests) [lme, lmwx] lmslxerr a

end Spreg.LM
