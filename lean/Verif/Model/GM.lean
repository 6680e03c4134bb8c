import Verif.Model.Linear
import Mathlib.LinearAlgebra.Matrix.Trace
import Mathlib.LinearAlgebra.Matrix.Kronecker
/-
Model of the generalized-moments machinery: error_sp.py, error_sp_het.py, error_sp_hom.py, utils.py.
`W` is the dense meaning of `w.sparse`; `n` indexes observations.
-/
namespace Spreg.GM
open Matrix Spreg.Lin

variable {n k : Type} [Fintype n] [Fintype k]

/-- number of observations as a real, `w.shape[0]` -/
def N (n : Type) [Fintype n] : ℝ := (Fintype.card n : ℝ)

/-- `get_spFilter(w, lamb, sf)` utils.py:423-468, cross-section branch (`T == 1`), one column. -/
def spFilter (W : Matrix n n ℝ) (lam : ℝ) (v : n → ℝ) : n → ℝ := v - lam • (W *ᵥ v)

/-- `get_spFilter` applied to a matrix of columns (utils.py:465). -/
def spFilterM (W : Matrix n n ℝ) (lam : ℝ) (x : Matrix n k ℝ) : Matrix n k ℝ := x - lam • (W * x)

/-- `get_spFilter`, panel branch utils.py:467: `kron(I_T, W)` on data stacked by period;
the rows are indexed by (period, unit). -/
def spFilterPanel {T : Type} [Fintype T] [DecidableEq T] (W : Matrix n n ℝ) (lam : ℝ)
    (v : T × n → ℝ) : T × n → ℝ :=
  v - lam • ((kroneckerMap (· * ·) (1 : Matrix T T ℝ) W) *ᵥ v)

/-- A pair `[G, g]` of moment arrays. -/
structure Moments (r c : Type) where
  G : Matrix r c ℝ
  g : r → ℝ

/-- `_momentsGM_Error(w, u)` error_sp.py:1380-1407. -/
noncomputable def momentsGM (W : Matrix n n ℝ) (u : n → ℝ) : Moments (Fin 3) (Fin 3) :=
  let nn := N n
  let u2 := u ⬝ᵥ u
  let wu := W *ᵥ u
  let uwu := u ⬝ᵥ wu
  let wu2 := wu ⬝ᵥ wu
  let wwu := W *ᵥ wu
  let uwwu := u ⬝ᵥ wwu
  let wwu2 := wwu ⬝ᵥ wwu
  let wuwwu := wu ⬝ᵥ wwu
  let trWtW := ∑ i, (Wᵀ * W) i i
  { g := fun i => ![u2, wu2, uwu] i / nn
    G := Matrix.of fun i j =>
      (![![2 * uwu, -wu2, nn], ![2 * wuwwu, -wwu2, trWtW], ![uwwu + wu2, -wuwwu, 0]] i j) / nn }

/-- `_moments2eqs(A1, s, u)` utils.py:279-319. -/
noncomputable def moments2eqs (A1 s : Matrix n n ℝ) (u : n → ℝ) : Moments (Fin 2) (Fin 2) :=
  let nn := N n
  let A1u := A1 *ᵥ u
  let wu := s *ᵥ u
  let g1 := u ⬝ᵥ A1u
  let g2 := u ⬝ᵥ wu
  let G11 := u ⬝ᵥ ((A1 + A1ᵀ) *ᵥ wu)
  let G12 := -((wu ᵥ* A1) ⬝ᵥ wu)
  let G21 := u ⬝ᵥ ((s + sᵀ) *ᵥ wu)
  let G22 := -(wu ⬝ᵥ (s *ᵥ wu))
  { g := fun i => ![g1, g2] i / nn
    G := Matrix.of fun i j => (![![G11, G12], ![G21, G22]] i j) / nn }

/-- `moments_hom(w, wA1, wA2, u)` error_sp_hom.py:1505-1542. -/
noncomputable def momentsHom (W A1 A2 : Matrix n n ℝ) (u : n → ℝ) : Moments (Fin 2) (Fin 2) :=
  let nn := N n
  let wu := W *ᵥ u
  let g1 := u ⬝ᵥ (A1 *ᵥ u)
  let g2 := u ⬝ᵥ (A2 *ᵥ u)
  let G11 := 2 * ((wu ᵥ* A1) ⬝ᵥ u)
  let G12 := -((wu ᵥ* A1) ⬝ᵥ wu)
  let G21 := 2 * ((wu ᵥ* A2) ⬝ᵥ u)
  let G22 := -((wu ᵥ* A2) ⬝ᵥ wu)
  { g := fun i => ![g1, g2] i / nn
    G := Matrix.of fun i j => (![![G11, G12], ![G21, G22]] i j) / nn }

/-- `foptim_par(par, moments)` utils.py:398-420: sum of squares of `g - G par`. -/
def foptimPar {r c : Type} [Fintype r] [Fintype c] (par : c → ℝ) (M : Moments r c) : ℝ :=
  ∑ i, (M.g i - (M.G *ᵥ par) i) ^ 2

/-- Rescaling of both moment arrays by `scale`, utils.py:363-364. -/
noncomputable def rescale {r c : Type} (M : Moments r c) (scale : ℝ) : Moments r c :=
  { G := Matrix.of fun i j => M.G i j / scale, g := fun i => M.g i / scale }

/-- Weighting by `Ec`, the transposed Cholesky factor of the inverse of `vcX`, utils.py:359-362. -/
def weight {r c : Type} [Fintype r] (M : Moments r c) (Ec : Matrix r r ℝ) : Moments r c :=
  { G := Ec * M.G, g := Ec *ᵥ M.g }

/-- `get_A1_het(S)` utils.py:189-214: `S'S` minus its diagonal. -/
def A1het [DecidableEq n] (S : Matrix n n ℝ) : Matrix n n ℝ :=
  Sᵀ * S - diagonal fun i => (Sᵀ * S) i i

/-- `get_A1_hom(s, scalarKP)` utils.py:217-253. -/
noncomputable def A1hom [DecidableEq n] (s : Matrix n n ℝ) (scalarKP : Bool) : Matrix n n ℝ :=
  let wpw := sᵀ * s
  let twpw := ∑ i, wpw i i
  let num := wpw - diagonal fun _ => twpw / N n
  if scalarKP then (1 / (1 + (twpw / N n) ^ 2)) • num else num

/-- `get_A2_hom(s)` utils.py:256-276. -/
noncomputable def A2hom (s : Matrix n n ℝ) : Matrix n n ℝ := (1 / 2 : ℝ) • (s + sᵀ)

/-- `get_psi_sigma(w, u, lamb)` error_sp_het.py:1540-1557: diagonal of squared filtered residuals. -/
def psiSigma [DecidableEq n] (W : Matrix n n ℝ) (u : n → ℝ) (lam : ℝ) : Matrix n n ℝ :=
  diagonal fun i => (u i - lam * (W *ᵥ u) i) ^ 2

/-- `get_vc_het(w, wA1, E)` error_sp_het.py:1560-1598. -/
noncomputable def vcHet (W A1 E : Matrix n n ℝ) : Matrix (Fin 2) (Fin 2) ℝ :=
  let aP := (2 : ℝ) • A1 * E
  let wP := (W + Wᵀ) * E
  let p11 := ∑ i, (aP * aP) i i
  let p12 := ∑ i, (aP * wP) i i
  let p22 := ∑ i, (wP * wP) i i
  Matrix.of fun i j => (![![p11, p12], ![p12, p22]] i j) / (2 * N n)

/-- Results of `BaseGM_Error.__init__`. -/
structure GMErrorFit (n k : Type) where
  betas : k → ℝ
  lam : ℝ
  predy : n → ℝ
  u : n → ℝ
  eFiltered : n → ℝ
  sig2 : ℝ
  vm : Matrix k k ℝ

/-- `BaseGM_Error.__init__` error_sp.py:95-119 with the optimiser `opt` (from the moments to the estimate of
lambda, `optim_moments`) as a parameter. -/
noncomputable def gmError [DecidableEq k] (opt : Moments (Fin 3) (Fin 3) → ℝ) (W : Matrix n n ℝ)
    (x : Matrix n k ℝ) (y : n → ℝ) : Option (GMErrorFit n k) :=
  (ols x y).bind fun o =>
    let lam := opt (momentsGM W o.u)
    let xs := spFilterM W lam x
    let ys := spFilter W lam y
    (ols xs ys).map fun o2 =>
      let predy := x *ᵥ o2.betas
      let u := y - predy
      { betas := o2.betas, lam := lam, predy := predy, u := u,
        eFiltered := u - (lam • W) *ᵥ u, sig2 := sig2n o2.u, vm := sig2n o2.u • o2.xtxi }

end Spreg.GM
