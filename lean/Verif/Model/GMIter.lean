import Verif.Model.Basic
import Verif.Model.GM
import Mathlib.Data.Matrix.Block
/-
Model of the iterated GM estimators: error_sp_hom.py and error_sp_het.py (Base classes), `iter_msg` of utils.py, and
their variance matrices.

* The optimiser (`optim_moments`, SciPy) is a parameter `opt` from moments and optional weighting matrix to lambda; it
  may raise.
* Arithmetic is exact; `la.inv` raises `LinAlgError` on singular matrices.
* The regressors `z = [x, yend]` of the models with endogenous variables are one matrix: filtering acts column by
  column, so `[x_s, yend_s]` is the filter of `z`.
* `max_iter` is a natural number (a negative value behaves as 0).
-/
namespace Spreg.GM
open Matrix Spreg.Lin

variable {n k l : Type} [Fintype n] [Fintype k] [Fintype l]

/-! ### The loop -/

/-- `while self.iteration < max_iter and eps > epsilon`, error_sp_hom.py:143-158, 575-590; error_sp_het.py:135-151,
588-628. `remaining` is `max_iter - iteration`; the result is the last step (if any) and the number of iterations. -/
noncomputable def gmLoop {S : Type} (step : ℝ → Py S) (newLam : S → ℝ) (epsilon : ℝ) :
    ℕ → ℝ → ℝ → Option S → Py (Option S × ℕ)
  | 0, _, _, last => .ok (last, 0)
  | r + 1, lam, eps, last =>
    if epsilon < eps then do
      let s ← step lam
      let (l, it) ← gmLoop step newLam epsilon r (newLam s) |newLam s - lam| (some s)
      return (l, it + 1)
    else .ok (last, 0)

/-- `iter_msg`, utils.py:749-754. -/
def iterMsg (iteration maxIter : ℕ) : String :=
  if iteration = maxIter then "Maximum number of iterations reached."
  else "Convergence threshold (epsilon) reached."

/-- What one pass of the loop leaves behind. -/
structure Step (n k : Type) where
  betas : k → ℝ
  predy : n → ℝ
  u : n → ℝ
  moments : Moments (Fin 2) (Fin 2)
  lam : ℝ

/-- Attributes of the fitted model. -/
structure IterFit (n k : Type) where
  betas : k → ℝ
  lam : ℝ
  predy : n → ℝ
  u : n → ℝ
  eFiltered : n → ℝ
  vm : Matrix (k ⊕ Unit) (k ⊕ Unit) ℝ
  iteration : ℕ
  iterStop : String

/-- `la.inv` with the exception. -/
noncomputable def invE {m : Type} [Fintype m] [DecidableEq m] (A : Matrix m m ℝ) : Py (Matrix m m ℝ) :=
  match inv? A with
  | some B => .ok B
  | none => .error .linAlgError

/-- OLS and 2SLS with their exceptions. -/
noncomputable def olsE [DecidableEq k] (x : Matrix n k ℝ) (y : n → ℝ) : Py (OLSFit n k) :=
  match ols x y with
  | some o => .ok o
  | none => .error .linAlgError
noncomputable def tslsE [DecidableEq k] [DecidableEq l] (z : Matrix n k ℝ) (h : Matrix n l ℝ) (y : n → ℝ) :
    Py (TSLSFit n k l) :=
  match tslsZH z h y with
  | some o => .ok o
  | none => .error .exception

/-- Use of a variable that is only assigned in the loop. -/
def bound {S : Type} (o : Option S) : Py S :=
  match o with
  | some s => .ok s
  | none => .error .unboundLocal

/-! ### Pieces shared by the variance matrices -/

/-- `j = G (1, 2 lambda)'`, error_sp_hom.py:1659, 1707; error_sp_het.py:1635, 1746. -/
def jac (G : Matrix (Fin 2) (Fin 2) ℝ) (lam : ℝ) : Matrix (Fin 2) Unit ℝ :=
  G * Matrix.of fun i _ => ![1, 2 * lam] i

/-- Two columns side by side. -/
def cols2 (a b : n → ℝ) : Matrix n (Fin 2) ℝ := Matrix.of fun i c => ![a i, b i] c

/-- A vector as a column. -/
def col (v : k → ℝ) : Matrix k Unit ℝ := Matrix.of fun i _ => v i

/-! ### Heteroskedastic errors -/

/-- `get_vm_het`, error_sp_het.py:1601-1646. -/
noncomputable def vmHet [DecidableEq n] [DecidableEq k] (G : Matrix (Fin 2) (Fin 2) ℝ) (lam : ℝ) (x : Matrix n k ℝ)
    (u : n → ℝ) (W : Matrix n n ℝ) (psi : Matrix (Fin 2) (Fin 2) ℝ) : Py (Matrix (k ⊕ Unit) (k ⊕ Unit) ℝ) := do
  let J := jac G lam
  let zs := spFilterM W lam x
  let mid := (zsᵀ * psiSigma W u lam) * zs
  let zzi ← invE (zsᵀ * zs)
  let om11 := N n • ((zzi * mid) * zzi)
  let psii ← invE psi
  let om22 ← invE ((Jᵀ * psii) * J)
  return (1 / N n) • fromBlocks om11 0 0 om22

/-- One pass of the loop of `BaseGM_Error_Het`, error_sp_het.py:136-151. -/
noncomputable def hetStep [DecidableEq n] [DecidableEq k]
    (opt : Moments (Fin 2) (Fin 2) → Option (Matrix (Fin 2) (Fin 2) ℝ) → Py ℝ)
    (W : Matrix n n ℝ) (x : Matrix n k ℝ) (y : n → ℝ) (lamOld : ℝ) : Py (Step n k) := do
  let o ← olsE (spFilterM W lamOld x) (spFilter W lamOld y)
  let predy := x *ᵥ o.betas
  let u := y - predy
  let vc := vcHet W (A1het W) (psiSigma W u lamOld)
  let M := moments2eqs (A1het W) W u
  let lam ← opt M (some vc)
  return ⟨o.betas, predy, u, M, lam⟩

/-- Optional step 1c, error_sp_het.py:125-131. -/
noncomputable def step1cLam [DecidableEq n] (opt : Moments (Fin 2) (Fin 2) → Option (Matrix (Fin 2) (Fin 2) ℝ) → Py ℝ)
    (W : Matrix n n ℝ) (M : Moments (Fin 2) (Fin 2)) (u : n → ℝ) (lam1 : ℝ) (step1c : Bool) : Py ℝ :=
  if step1c then opt M (some (vcHet W (A1het W) (psiSigma W u lam1))) else .ok lam1

/-- `BaseGM_Error_Het.__init__`, error_sp_het.py:111-167. The warning of lines 158-159 is not modelled. -/
noncomputable def gmErrorHet [DecidableEq n] [DecidableEq k]
    (opt : Moments (Fin 2) (Fin 2) → Option (Matrix (Fin 2) (Fin 2) ℝ) → Py ℝ)
    (W : Matrix n n ℝ) (x : Matrix n k ℝ) (y : n → ℝ) (maxIter : ℕ) (epsilon : ℝ) (step1c hardBound : Bool) :
    Py (IterFit n k) := do
  let o ← olsE x y
  let M := moments2eqs (A1het W) W o.u
  let lam1 ← opt M none
  let lam2 ← step1cLam opt W M o.u lam1 step1c
  let (last, it) ← gmLoop (hetStep opt W x y) Step.lam epsilon maxIter lam2 1 none
  let s ← bound last                                           -- lambda3, ols_s
  if hardBound ∧ (99 / 100 : ℝ) ≤ |s.lam| then .error .exception
  else do
    let vm ← vmHet s.moments.G s.lam x s.u W (vcHet W (A1het W) (psiSigma W s.u s.lam))
    return ⟨s.betas, s.lam, s.predy, s.u, s.u - s.lam • (W *ᵥ s.u), vm, it, iterMsg it maxIter⟩

/-- `get_P_hat`, error_sp_het.py:1649-1657. -/
noncomputable def pHat [DecidableEq k] (h : Matrix n l ℝ) (hthi : Matrix l l ℝ) (zf : Matrix n k ℝ) :
    Py (Matrix l k ℝ) := do
  let htzf := hᵀ * zf
  let P1 := hthi * htzf
  let P2i ← invE (htzfᵀ * P1)
  return N n • (P1 * P2i)

/-- `get_a1a2` with `filt=True`, error_sp_het.py:1660-1692. -/
noncomputable def a1a2 (W A1 : Matrix n n ℝ) (h : Matrix n l ℝ) (u : n → ℝ) (lam : ℝ) (P : Matrix l k ℝ)
    (zs : Matrix n k ℝ) : (n → ℝ) × (n → ℝ) :=
  let us := spFilter W lam u
  let alpha1 := (-2 / N n) • ((zsᵀ * A1) *ᵥ us)
  let alpha2 := (-1 / N n) • ((zsᵀ * (W + Wᵀ)) *ᵥ us)
  ((h * P) *ᵥ alpha1, (h * P) *ᵥ alpha2)

/-- `get_vc_het_tsls` given `a1, a2`, error_sp_het.py:1695-1713: symmetric part `vc1` plus `psi0`. -/
noncomputable def vcHetTsls [DecidableEq n] (W A1 : Matrix n n ℝ) (u : n → ℝ) (lam : ℝ) (a : (n → ℝ) × (n → ℝ)) :
    Matrix (Fin 2) (Fin 2) ℝ :=
  let sigma := psiSigma W u lam
  let a1s := a.1 ᵥ* sigma
  let a2s := a.2 ᵥ* sigma
  vcHet W A1 sigma +
    Matrix.of fun i j => (![![a1s ⬝ᵥ a.1, a1s ⬝ᵥ a.2], ![a2s ⬝ᵥ a.1, a2s ⬝ᵥ a.2]] i j) / N n

/-- `get_Omega_GS2SLS`, error_sp_het.py:1716-1768. -/
noncomputable def omegaGS2SLS [DecidableEq n] (W : Matrix n n ℝ) (lam : ℝ) (h : Matrix n l ℝ) (u : n → ℝ)
    (G psi : Matrix (Fin 2) (Fin 2) ℝ) (a : (n → ℝ) × (n → ℝ)) (P : Matrix l k ℝ) :
    Py (Matrix (k ⊕ Unit) (k ⊕ Unit) ℝ) := do
  let sigma := psiSigma W u lam
  let dd1 := ((1 / N n) • hᵀ) * sigma
  let dd := dd1 * h
  let dl := dd1 * cols2 a.1 a.2
  let psiO := fromBlocks dd dl dlᵀ psi
  let psii ← invE psi
  let j := jac G lam
  let jtpsii := jᵀ * psii
  let ji ← invE (jtpsii * j)
  let om1 := ji * jtpsii
  let om2 := (psii * j) * ji
  let left := fromBlocks Pᵀ 0 0 om1
  let right := fromBlocks P 0 0 om2
  return (1 / N n) • ((left * psiO) * right)

/-- Clipping of the last coefficient, error_sp_het.py:543-550, 596-603. -/
noncomputable def clipLast (b : k ⊕ Unit → ℝ) : k ⊕ Unit → ℝ :=
  fun i => match i with
  | .inl j => b (.inl j)
  | .inr _ =>
    if |b (.inr ())| ≤ 9 / 10 then b (.inr ()) else if b (.inr ()) < -(9 / 10) then -(9 / 10) else 9 / 10

/-- One pass of the loop of `BaseGM_Endog_Error_Het`, error_sp_het.py:589-628. -/
noncomputable def hetEndogStep [DecidableEq n] [DecidableEq k] [DecidableEq l]
    (opt : Moments (Fin 2) (Fin 2) → Option (Matrix (Fin 2) (Fin 2) ℝ) → Py ℝ)
    (W : Matrix n n ℝ) (z : Matrix n (k ⊕ Unit) ℝ) (h : Matrix n l ℝ) (y : n → ℝ) (lamOld : ℝ) :
    Py (Step n (k ⊕ Unit)) := do
  let zs := spFilterM W lamOld z
  let t ← tslsE zs h (spFilter W lamOld y)
  let betas := clipLast t.betas
  let predy := z *ᵥ betas
  let u := y - predy
  let P := N n • (t.zthhthiᵀ * t.varb)                          -- pfora1a2, twosls.py:204-207
  let vc := vcHetTsls W (A1het W) u lamOld (a1a2 W (A1het W) h u lamOld P zs)
  let M := moments2eqs (A1het W) W u
  let lam ← opt M (some vc)
  return ⟨betas, predy, u, M, lam⟩

/-- `BaseGM_Endog_Error_Het.__init__`, error_sp_het.py:530-655, with `step1c=False` (the default). Warnings are not
modelled. -/
noncomputable def gmEndogErrorHet [DecidableEq n] [DecidableEq k] [DecidableEq l]
    (opt : Moments (Fin 2) (Fin 2) → Option (Matrix (Fin 2) (Fin 2) ℝ) → Py ℝ)
    (W : Matrix n n ℝ) (z : Matrix n (k ⊕ Unit) ℝ) (h : Matrix n l ℝ) (y : n → ℝ) (maxIter : ℕ) (epsilon : ℝ)
    (hardBound : Bool) : Py (IterFit n (k ⊕ Unit)) := do
  let t ← tslsE z h y
  let u0 := y - z *ᵥ clipLast t.betas
  let lam1 ← opt (moments2eqs (A1het W) W u0) none
  let (last, it) ← gmLoop (hetEndogStep opt W z h y) Step.lam epsilon maxIter lam1 1 none
  let s ← bound last
  if hardBound ∧ ((99 / 100 : ℝ) ≤ |s.lam| ∨ (99 / 100 : ℝ) ≤ |s.betas (.inr ())|) then .error .exception
  else do
    let zs := spFilterM W s.lam z
    let P ← pHat h t.hthi zs
    let a := a1a2 W (A1het W) h s.u s.lam P zs
    let vm ← omegaGS2SLS W s.lam h s.u s.moments.G (vcHetTsls W (A1het W) s.u s.lam a) a P
    return ⟨s.betas, s.lam, s.predy, s.u, s.u - s.lam • (W *ᵥ s.u), vm, it, iterMsg it maxIter⟩

/-! ### Homoskedastic errors -/

/-- Second, third and fourth sample moment of the filtered residuals, error_sp_hom.py:1581-1583. -/
noncomputable def m2 (u : n → ℝ) : ℝ := (u ⬝ᵥ u) / N n
noncomputable def m3 (u : n → ℝ) : ℝ := (∑ i, u i ^ 3) / N n
noncomputable def m4 (u : n → ℝ) : ℝ := (∑ i, u i ^ 4) / N n

/-- `get_vc_hom`, error_sp_hom.py:1579-1595, 1620-1625, from filtered residuals `us` and the vectors `a1, a2` (zero without
endogenous variables). -/
noncomputable def vcHom (A1 A2 : Matrix n n ℝ) (us a1 a2 : n → ℝ) : Matrix (Fin 2) (Fin 2) ℝ :=
  let sig2 := m2 us
  let tr11 := ∑ i, (A1 * A1) i i
  let tr12 := ∑ i, (A1 * ((2 : ℝ) • A2)) i i
  let tr22 := ∑ i, ((2 : ℝ) • (A2 * A2)) i i
  let d : n → ℝ := fun i => A1 i i
  let psi11 := 2 * sig2 ^ 2 * tr11 + (m4 us - 3 * sig2 ^ 2) * (d ⬝ᵥ d) + sig2 * (a1 ⬝ᵥ a1) + 2 * m3 us * (a1 ⬝ᵥ d)
  let psi12 := sig2 ^ 2 * tr12 + sig2 * (a1 ⬝ᵥ a2) + m3 us * (a2 ⬝ᵥ d)
  let psi22 := sig2 ^ 2 * tr22 + sig2 * (a2 ⬝ᵥ a2)
  Matrix.of fun i j => (![![psi11, psi12], ![psi12, psi22]] i j) / N n

/-- `p` of `get_vc_hom` with endogenous variables, error_sp_hom.py:1611-1615. -/
noncomputable def pHom [DecidableEq k] [DecidableEq l] (h : Matrix n l ℝ) (zs : Matrix n k ℝ) : Py (Matrix l k ℝ) := do
  let hthni ← invE ((1 / N n) • (hᵀ * h))
  let htzsn := (1 / N n) • (hᵀ * zs)
  let p := hthni * htzsn
  let pi ← invE (htzsnᵀ * p)
  return p * pi

/-- `a1, a2` of `get_vc_hom`, error_sp_hom.py:1608-1609, 1616-1618. -/
noncomputable def aHom (A1 A2 : Matrix n n ℝ) (h : Matrix n l ℝ) (p : Matrix l k ℝ) (zs : Matrix n k ℝ) (us : n → ℝ) :
    (n → ℝ) × (n → ℝ) :=
  let alpha1 := (-2 / N n) • (zsᵀ *ᵥ (A1 *ᵥ us))
  let alpha2 := (-2 / N n) • (zsᵀ *ᵥ (A2 *ᵥ us))
  ((h * p) *ᵥ alpha1, (h * p) *ᵥ alpha2)

/-- `get_omega_hom`, error_sp_hom.py:1652-1674. -/
noncomputable def omegaHom [DecidableEq k] [DecidableEq l] (W A1 A2 : Matrix n n ℝ) (h : Matrix n l ℝ) (z : Matrix n k ℝ)
    (u : n → ℝ) (lam : ℝ) (G : Matrix (Fin 2) (Fin 2) ℝ) : Py (Matrix (k ⊕ Unit) (k ⊕ Unit) ℝ) := do
  let zs := spFilterM W lam z
  let us := spFilter W lam u
  let p ← pHom h zs
  let a := aHom A1 A2 h p zs us
  let psi := vcHom A1 A2 us a.1 a.2
  let j := jac G lam
  let psii ← invE psi
  let psiDL := (1 / N n) • (m3 us • (hᵀ * cols2 (fun i => A1 i i) 0) + m2 us • (hᵀ * cols2 a.1 a.2))
  let hthi ← invE (hᵀ * h)
  let oDD1 := hthi * (hᵀ * zs)
  let oDDi ← invE (zsᵀ * (h * oDD1))
  let oDD := m2 us • oDDi
  let ji ← invE (jᵀ * (psii * j))
  let oLL := (1 / N n) • ji
  let oDL := ((pᵀ * psiDL) * (psii * j)) * oLL
  return fromBlocks oDD oDL oDLᵀ oLL

/-- `get_omega_hom_ols`, error_sp_hom.py:1701-1719 (with `p` of `get_vc_hom`, 1599-1601). -/
noncomputable def omegaHomOls [DecidableEq k] (W A1 A2 : Matrix n n ℝ) (x : Matrix n k ℝ)
    (u : n → ℝ) (lam : ℝ) (G : Matrix (Fin 2) (Fin 2) ℝ) : Py (Matrix (k ⊕ Unit) (k ⊕ Unit) ℝ) := do
  let xs := spFilterM W lam x
  let us := spFilter W lam u
  let p ← invE ((1 / N n) • (xsᵀ * xs))
  let psi := vcHom A1 A2 us 0 0
  let j := jac G lam
  let psii ← invE psi
  let xxi ← invE (xsᵀ * xs)
  let oDD := m2 us • xxi
  let ji ← invE (jᵀ * (psii * j))
  let oLL := (1 / N n) • ji
  let psiDL := (1 / N n) • (m3 us • (xᵀ * cols2 (fun i => A1 i i) 0))
  let oDL := ((pᵀ * psiDL) * (psii * j)) * oLL
  return fromBlocks oDD oDL oDLᵀ oLL

/-- Choice of `A1`, error_sp_hom.py:125-130, 549-554: an unknown name leaves `wA1` unassigned. -/
noncomputable def chooseA1 [DecidableEq n] (a1 : String) (W : Matrix n n ℝ) : Py (Matrix n n ℝ) :=
  if a1 = "hom" then .ok (A1hom W false)
  else if a1 = "hom_sc" then .ok (A1hom W true)
  else if a1 = "het" then .ok (A1het W)
  else .error .unboundLocal

/-- One pass of the loop of `BaseGM_Error_Hom`, error_sp_hom.py:144-158. -/
noncomputable def homStep [DecidableEq k] (opt : Moments (Fin 2) (Fin 2) → Option (Matrix (Fin 2) (Fin 2) ℝ) → Py ℝ)
    (W A1 A2 : Matrix n n ℝ) (x : Matrix n k ℝ) (y : n → ℝ) (lamOld : ℝ) : Py (Step n k) := do
  let o ← olsE (spFilterM W lamOld x) (spFilter W lamOld y)
  let predy := x *ᵥ o.betas
  let u := y - predy
  let M := momentsHom W A1 A2 u
  let lam ← opt M (some (vcHom A1 A2 (spFilter W lamOld u) 0 0))
  return ⟨o.betas, predy, u, M, lam⟩

/-- `BaseGM_Error_Hom.__init__`, error_sp_hom.py:122-166. `hard_bound` is part of `opt`. -/
noncomputable def gmErrorHom [DecidableEq n] [DecidableEq k]
    (opt : Moments (Fin 2) (Fin 2) → Option (Matrix (Fin 2) (Fin 2) ℝ) → Py ℝ)
    (W : Matrix n n ℝ) (x : Matrix n k ℝ) (y : n → ℝ) (maxIter : ℕ) (epsilon : ℝ) (a1 : String) :
    Py (IterFit n k) := do
  let A1 ← chooseA1 a1 W
  let A2 := A2hom W
  let o ← olsE x y
  let lam1 ← opt (momentsHom W A1 A2 o.u) none
  let (last, it) ← gmLoop (homStep opt W A1 A2 x y) Step.lam epsilon maxIter lam1 1 none
  let s ← bound last
  let vm ← omegaHomOls W A1 A2 x s.u s.lam s.moments.G
  return ⟨s.betas, s.lam, s.predy, s.u, s.u - s.lam • (W *ᵥ s.u), vm, it, iterMsg it maxIter⟩

/-- One pass of the loop of `BaseGM_Endog_Error_Hom`, error_sp_hom.py:576-590. -/
noncomputable def homEndogStep [DecidableEq k] [DecidableEq l]
    (opt : Moments (Fin 2) (Fin 2) → Option (Matrix (Fin 2) (Fin 2) ℝ) → Py ℝ)
    (W A1 A2 : Matrix n n ℝ) (z : Matrix n k ℝ) (h : Matrix n l ℝ) (y : n → ℝ) (lamOld : ℝ) : Py (Step n k) := do
  let zs := spFilterM W lamOld z
  let t ← tslsE zs h (spFilter W lamOld y)
  let predy := z *ᵥ t.betas
  let u := y - predy
  let M := momentsHom W A1 A2 u
  let us := spFilter W lamOld u
  let p ← pHom h zs
  let a := aHom A1 A2 h p zs us
  let lam ← opt M (some (vcHom A1 A2 us a.1 a.2))
  return ⟨t.betas, predy, u, M, lam⟩

/-- `BaseGM_Endog_Error_Hom.__init__`, error_sp_hom.py:537-598. -/
noncomputable def gmEndogErrorHom [DecidableEq n] [DecidableEq k] [DecidableEq l]
    (opt : Moments (Fin 2) (Fin 2) → Option (Matrix (Fin 2) (Fin 2) ℝ) → Py ℝ)
    (W : Matrix n n ℝ) (z : Matrix n k ℝ) (h : Matrix n l ℝ) (y : n → ℝ) (maxIter : ℕ) (epsilon : ℝ) (a1 : String) :
    Py (IterFit n k) := do
  let A1 ← chooseA1 a1 W
  let A2 := A2hom W
  let t ← tslsE z h y
  let lam1 ← opt (momentsHom W A1 A2 t.u) none
  let (last, it) ← gmLoop (homEndogStep opt W A1 A2 z h y) Step.lam epsilon maxIter lam1 1 none
  let s ← bound last
  let vm ← omegaHom W A1 A2 h z s.u s.lam s.moments.G
  return ⟨s.betas, s.lam, s.predy, s.u, s.u - s.lam • (W *ᵥ s.u), vm, it, iterMsg it maxIter⟩

end Spreg.GM
