import Verif.Model.Basic
import Verif.Model.Linear
import Mathlib.Analysis.SpecialFunctions.Gaussian.GaussianIntegral
/-
Model of probit.py and diagnostics_probit.py over the reals.

* `norm.pdf` and `norm.cdf` of SciPy are the density `phi` and the distribution function `Phi` of the standard normal
  distribution.
* Arithmetic is exact; `la.inv` and `la.solve` raise `LinAlgError` on singular matrices.
* The optimisers `bfgs` and `ncg` of SciPy are parameters (their result is an arbitrary value).
* p-values are not modelled.
-/
namespace Spreg.Probit
open Matrix Spreg.Lin

variable {n k : Type} [Fintype n] [Fintype k]

/-- `norm.pdf`. -/
noncomputable def phi (z : ℝ) : ℝ := (Real.sqrt (2 * Real.pi))⁻¹ * Real.exp (-z ^ 2 / 2)

/-- `norm.cdf`. -/
noncomputable def Phi (z : ℝ) : ℝ := ∫ t in Set.Iic z, phi t

/-! ### Likelihood -/

/-- `q = 2 y - 1`, probit.py:108, 173, 180, 188. -/
def sgn (y : n → ℝ) : n → ℝ := fun i => 2 * y i - 1

/-- `BaseProbit.ll`, probit.py:171-176. -/
noncomputable def ll (x : Matrix n k ℝ) (y : n → ℝ) (b : k → ℝ) : ℝ :=
  ∑ i, Real.log (Phi (sgn y i * (x *ᵥ b) i))

/-- `lamb`, probit.py:182, 191. -/
noncomputable def lamb (x : Matrix n k ℝ) (y : n → ℝ) (b : k → ℝ) : n → ℝ := fun i =>
  sgn y i * phi (sgn y i * (x *ᵥ b) i) / Phi (sgn y i * (x *ᵥ b) i)

/-- `BaseProbit.gradient`, probit.py:178-184. -/
noncomputable def gradient (x : Matrix n k ℝ) (y : n → ℝ) (b : k → ℝ) : k → ℝ := lamb x y b ᵥ* x

/-- `BaseProbit.hessian`, probit.py:186-193. -/
noncomputable def hessian (x : Matrix n k ℝ) (y : n → ℝ) (b : k → ℝ) : Matrix k k ℝ :=
  xᵀ * Matrix.of fun i j => x i j * (-(lamb x y b i) * (lamb x y b i + (x *ᵥ b) i))

/-! ### Newton -/

/-- The loop of `newton`, probit.py:543-550; `r` is `maxiter - iteration`. The result is the last parameter vector, the
number of iterations and the last value of `m`. -/
noncomputable def newtonLoop [DecidableEq k] (fgrad : (k → ℝ) → k → ℝ) (fhess : (k → ℝ) → Matrix k k ℝ) :
    ℕ → ℝ → (k → ℝ) → Py ((k → ℝ) × ℕ × ℝ)
  | 0, m, b => .ok (b, 0, m)
  | r + 1, m, b =>
    if 1 / 10000 ≤ m then
      match inv? (fhess b) with
      | none => .error .linAlgError
      | some hi =>
        let g := fgrad b
        let Hg := (-hi) *ᵥ g
        (newtonLoop fgrad fhess r (g ⬝ᵥ Hg) (b + Hg)).map fun p => (p.1, p.2.1 + 1, p.2.2)
    else .ok (b, 0, m)

/-- `newton`, probit.py:521-554: parameters, `-ll`, warning flag. -/
noncomputable def newton [DecidableEq k] (flogl : (k → ℝ) → ℝ) (start : k → ℝ) (fgrad : (k → ℝ) → k → ℝ)
    (fhess : (k → ℝ) → Matrix k k ℝ) (maxiter : ℕ) : Py ((k → ℝ) × ℝ × ℕ) :=
  (newtonLoop fgrad fhess maxiter 1 start).map fun p => (p.1, flogl p.1, if p.2.1 = maxiter then 1 else 0)

/-- The argument `optim`; the results of the SciPy optimisers are arbitrary. -/
inductive Optim (k : Type) where
  | newton
  | bfgs (res : Py ((k → ℝ) × ℝ × ℕ))
  | ncg (res : Py ((k → ℝ) × ℝ × ℕ))
  | other

/-- `start`, probit.py:137-145: `bstart` (a list; an empty one counts as missing) or the OLS coefficients. -/
noncomputable def startVal [DecidableEq k] (x : Matrix n k ℝ) (y : n → ℝ) (bstart : Option (k → ℝ)) : Py (k → ℝ) :=
  match bstart with
  | some b => .ok b
  | none =>
    match inv? (xᵀ * x) with
    | none => .error .linAlgError
    | some hi => .ok (hi *ᵥ (xᵀ *ᵥ y))

/-- `BaseProbit.par_est`, probit.py:135-169. The check of the length of `bstart` is part of its type. -/
noncomputable def parEst [DecidableEq k] (x : Matrix n k ℝ) (y : n → ℝ) (optim : Optim k) (bstart : Option (k → ℝ))
    (maxiter : ℕ) : Py (((k → ℝ) × ℝ) × Bool) := do
  let start ← startVal x y bstart
  let p ←
    match optim with
    | .newton => newton (fun b => -ll x y b) start (gradient x y) (hessian x y) maxiter
    | .bfgs res => res
    | .ncg res => res
    | .other => .error .unboundLocal
  return ((p.1, p.2.1), decide (0 < p.2.2))

/-- Attributes of `BaseProbit`. -/
structure Fit (n k : Type) where
  betas : k → ℝ
  warning : Bool
  logl : ℝ
  vm : Matrix k k ℝ
  xb : n → ℝ
  predy : n → ℝ
  predybin : n → ℕ
  phiy : n → ℝ
  uNaive : n → ℝ
  uGen : n → ℝ

open Classical in
/-- `BaseProbit.__init__`, probit.py:106-132. -/
noncomputable def baseProbit (x : Matrix n k ℝ) (y : n → ℝ) (optim : Optim k) (bstart : Option (k → ℝ))
    (maxiter : ℕ) : Py (Fit n k) := do
  let pe ← parEst x y optim bstart maxiter
  let betas := pe.1.1
  match inv? (hessian x y betas) with
  | none => .error .linAlgError
  | some hi =>
    let xb := x *ᵥ betas
    let predy : n → ℝ := fun i => Phi (xb i)
    let phiy : n → ℝ := fun i => phi (xb i)
    let un : n → ℝ := fun i => y i - predy i
    return { betas := betas, warning := pe.2, logl := -pe.1.2, vm := -hi, xb := xb, predy := predy,
             predybin := fun i => if 1 / 2 < predy i then 1 else 0, phiy := phiy, uNaive := un,
             uGen := fun i => phiy i * (un i / (predy i * (1 - predy i))) }

/-! ### Diagnostics -/

/-- Result of `pred_table`. `int(pos)` truncates; here `actpos`, `actneg` are the real sums (equal for binary `y`). -/
structure PredTable where
  actpos : ℝ
  actneg : ℝ
  predpos : ℕ
  predneg : ℤ
  truepos : ℕ
  trueneg : ℕ
  falsepos : ℕ
  falseneg : ℕ

open Classical in
/-- `pred_table`, diagnostics_probit.py:54-76. -/
noncomputable def predTable (y : n → ℝ) (pb : n → ℕ) : PredTable :=
  let act1 : n → ℕ := fun i => if y i = 1 then 1 else 0
  let act0 : n → ℕ := fun i => if y i = 0 then 1 else 0
  let pred1 : n → ℕ := fun i => if pb i = 1 then 1 else 0
  let pred0 : n → ℕ := fun i => if pb i = 0 then 1 else 0
  { actpos := ∑ i, y i, actneg := Fintype.card n - ∑ i, y i
    predpos := ∑ i, pb i, predneg := (Fintype.card n : ℤ) - (∑ i, pb i : ℕ)
    truepos := ∑ i, pred1 i * act1 i, trueneg := ∑ i, pred0 i * act0 i
    falsepos := ∑ i, pred1 i * act0 i, falseneg := ∑ i, pred0 i * act1 i }

/-- Result of `probit_fit`. -/
structure FitMeasures where
  TPR : ℝ
  TNR : ℝ
  BA : ℝ
  PREDPC : ℝ

/-- `probit_fit`, diagnostics_probit.py:100-106 (division by zero, NaN in numpy, is 0 here). -/
noncomputable def probitFit (nobs : ℕ) (p : PredTable) : FitMeasures :=
  let tpr := 100 * p.truepos / p.actpos
  let tnr := 100 * p.trueneg / p.actneg
  { TPR := tpr, TNR := tnr, BA := (tpr + tnr) / 2, PREDPC := 100 * (p.truepos + p.trueneg) / nobs }

/-- `L0`, diagnostics_probit.py:133-134. -/
noncomputable def L0 (y : n → ℝ) : ℝ :=
  let P := (∑ i, y i) / Fintype.card n
  Fintype.card n * (P * Real.log P + (1 - P) * Real.log (1 - P))

/-- `probit_lrtest`, diagnostics_probit.py:133-140: statistic and degrees of freedom. -/
noncomputable def lrtest (y : n → ℝ) (f : Fit n k) : ℝ × ℕ := (-2 * (L0 y - f.logl), Fintype.card k)

/-- `mcfad_rho`, diagnostics_probit.py:158-159. -/
noncomputable def mcfadRho (y : n → ℝ) (f : Fit n k) : ℝ := 1 - f.logl / L0 y

/-- The argument `scalem`. -/
inductive ScaleM | xmean | phimean | other
  deriving DecidableEq

/-- `xmean`, probit.py:110. -/
noncomputable def xmean (x : Matrix n k ℝ) : k → ℝ := fun j => (∑ i, x i j) / Fintype.card n

/-- `scale`, diagnostics_probit.py:183-188. -/
noncomputable def scaleOf (sm : ScaleM) (x : Matrix n k ℝ) (b : k → ℝ) (phiy : n → ℝ) : Py ℝ :=
  match sm with
  | .xmean => .ok (phi (xmean x ⬝ᵥ b))
  | .phimean => .ok ((∑ i, phiy i) / Fintype.card n)
  | .other => .error .unboundLocal

/-- Result of `probit_ape` (without the row and column of the constant). -/
structure Ape (s : Type) where
  scale : ℝ
  slopes : s → ℝ
  vm : Matrix s s ℝ
  stdErr : s → ℝ

/-- `probit_ape`, diagnostics_probit.py:183-207; the regressors are the constant and `s`. -/
noncomputable def probitApe {s : Type} [Fintype s] [DecidableEq s] (sm : ScaleM) (x : Matrix n (Unit ⊕ s) ℝ)
    (f : Fit n (Unit ⊕ s)) : Py (Ape s) := do
  let scale ← scaleOf sm x f.betas f.phiy
  let xmb := xmean x ⬝ᵥ f.betas
  let bxt : Matrix (Unit ⊕ s) (Unit ⊕ s) ℝ := Matrix.of fun i j => f.betas i * xmean x j
  let dfdb := 1 - xmb • bxt
  let vm := (scale ^ 2) • ((dfdb * f.vm) * dfdbᵀ)
  return { scale := scale, slopes := fun j => f.betas (.inr j) * scale
           vm := Matrix.of fun i j => vm (.inr i) (.inr j)
           stdErr := fun j => Real.sqrt (vm (.inr j) (.inr j)) }

/-- `Phi_prod`, diagnostics_probit.py:276; probit.py:131. -/
def phiProd (Ph : n → ℝ) : n → ℝ := fun i => Ph i * (1 - Ph i)

/-- The Pinkse test of `sp_tests`, diagnostics_probit.py:276-281. -/
noncomputable def pinkse (w : Matrix n n ℝ) (Ph ph uGen : n → ℝ) : ℝ :=
  let sig2 := (∑ i, ph i * ph i / phiProd Ph i) / Fintype.card n
  let num := (uGen ⬝ᵥ (w *ᵥ uGen)) ^ 2
  let trWW := ∑ i, (w * w) i i
  let tr := trWW + ∑ i, (w * wᵀ) i i
  num / (sig2 ^ 2 * tr)

/-- `moran_KP`, diagnostics_probit.py:325-331. -/
noncomputable def moranKP [DecidableEq n] (w : Matrix n n ℝ) (u sig2i : n → ℝ) : ℝ :=
  let num := u ⬝ᵥ (w *ᵥ u)
  let E := diagonal sig2i
  let WE := w * E
  num / Real.sqrt (∑ i, (WE * WE + (wᵀ * E) * WE) i i)

/-- The Pinkse-Slade test of `sp_tests`, diagnostics_probit.py:286-289. -/
noncomputable def pinkseSlade (w : Matrix n n ℝ) (Ph uNaive : n → ℝ) : ℝ :=
  let us : n → ℝ := fun i => uNaive i / Real.sqrt (phiProd Ph i)
  let num := (us ⬝ᵥ (w *ᵥ us)) ^ 2
  num / ((∑ i, (w * w) i i) + ∑ i, (wᵀ * w) i i)

end Spreg.Probit
