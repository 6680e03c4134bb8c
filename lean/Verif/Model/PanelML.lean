import Verif.Model.ML
import Verif.Model.Panel
import Verif.Model.Basic
/-
Model of the maximum likelihood panel estimators: panel.py (BaseML_LagFE, BaseML_ErrorFE, BaseML_LagRE, BaseML_ErrorRE)
and the deprecated panel_fe.py, panel_re.py.

* Row `s*N + i` of the stacked data is the pair `(s, i)`: period `s`, unit `i` (the numbering of C38/C39).
* The optimisers are parameters: every function takes the optimiser's result and evaluates the code's objective there.
* `spfill_diagonal(-rho*W, 1)` and `I - rho*W` are as in ML.lean.
* `t * sum(log(abs(LU.U.diagonal())))` is `t * log|det(I - rho W)|` (theorem `C35_lu`).
-/
namespace Spreg.PanelML
open Matrix Spreg.Lin Spreg.ML
open scoped Kronecker

variable {τ n k : Type} [Fintype τ] [Fintype n] [Fintype k] [DecidableEq τ] [DecidableEq n] [DecidableEq k]

/-- `sps.kron(sps.identity(t), Wsp)`, panel.py:1572, 2375, 2763. -/
def bigW (τ : Type) [DecidableEq τ] (W : Matrix n n ℝ) : Matrix (τ × n) (τ × n) ℝ := (1 : Matrix τ τ ℝ) ⊗ₖ W

/-- `demean_panel`'s matrix `Q`, panel_utils.py:154-156, for any set of periods (see `Panel.demeanQ`). -/
noncomputable def quasi (τ n : Type) [Fintype τ] [DecidableEq τ] [DecidableEq n] (phi : ℝ) :
    Matrix (τ × n) (τ × n) ℝ :=
  (1 - ((1 - phi) * (1 / (Fintype.card τ : ℝ))) • (Matrix.of fun _ _ => 1 : Matrix τ τ ℝ)) ⊗ₖ (1 : Matrix n n ℝ)

/-- `NT`. -/
noncomputable def NT (τ n : Type) [Fintype τ] [Fintype n] : ℝ := (Fintype.card n : ℝ) * (Fintype.card τ : ℝ)

/-- `jacob`, panel.py:1661-1663, 2476-2478, 3095-3097. -/
noncomputable def jacob (τ : Type) [Fintype τ] (W : Matrix n n ℝ) (rho : ℝ) : ℝ :=
  Fintype.card τ * Real.log |(1 - rho • W).det|

/-- The constant part of the reported log-likelihood, panel.py:1591, 2402, 1973. -/
noncomputable def addConst (τ n : Type) [Fintype τ] [Fintype n] (f : ℝ) : ℝ :=
  -f - NT τ n / 2 * Real.log (2 * Real.pi) - NT τ n / 2

/-! ### Fixed effects, lag -/

/-- `lag_c_loglik_sp`, panel.py:2473-2480, 3092-3099 and panel_re.py:782-789. -/
noncomputable def lagObj (W : Matrix n n ℝ) (p : LagPre (τ × n) k) (rho : ℝ) : ℝ :=
  let er := p.e0 - rho • p.e1
  let sig2 := (er ⬝ᵥ er) / (Fintype.card n * Fintype.card τ)
  (Fintype.card n : ℝ) * Fintype.card τ / 2 * Real.log sig2 - jacob τ W rho

/-- `lag_c_loglik_sp`, panel_fe.py:649-656: `sig2` is not divided by the number of observations. -/
noncomputable def lagObjOld (W : Matrix n n ℝ) (p : LagPre (τ × n) k) (rho : ℝ) : ℝ :=
  let er := p.e0 - rho • p.e1
  let sig2 := er ⬝ᵥ er
  (Fintype.card n : ℝ) * Fintype.card τ / 2 * Real.log sig2 - jacob τ W rho

/-- Attributes of the lag models. -/
structure LagFit (τ n k : Type) where
  b : k → ℝ
  rho : ℝ
  phi : ℝ
  u : τ × n → ℝ
  predy : τ × n → ℝ
  sig2 : ℝ
  logll : ℝ

/-- `BaseML_LagFE`, panel.py:2370-2420, for the optimiser's result `rho`. -/
noncomputable def lagFE (y : τ × n → ℝ) (x : Matrix (τ × n) k ℝ) (W : Matrix n n ℝ) (rho : ℝ) :
    Option (LagFit τ n k) :=
  let yd := quasi τ n 0 *ᵥ y
  let xd := quasi τ n 0 * x
  (lagPre yd xd (bigW τ W)).map fun p =>
    let u := p.e0 - rho • p.e1
    { b := p.b0 - rho • p.b1, rho := rho, phi := 0, u := u, predy := yd - u, sig2 := (u ⬝ᵥ u) / NT τ n
      logll := addConst τ n (lagObj W p rho) }

/-- `BasePanel_FE_Lag`, panel_fe.py:106-156. -/
noncomputable def lagFEOld (y : τ × n → ℝ) (x : Matrix (τ × n) k ℝ) (W : Matrix n n ℝ) (rho : ℝ) :
    Option (LagFit τ n k) :=
  let yd := quasi τ n 0 *ᵥ y
  let xd := quasi τ n 0 * x
  (lagPre yd xd (bigW τ W)).map fun p =>
    let u := p.e0 - rho • p.e1
    { b := p.b0 - rho • p.b1, rho := rho, phi := 0, u := u, predy := yd - u, sig2 := (u ⬝ᵥ u) / NT τ n
      logll := addConst τ n (lagObjOld W p rho) }

/-- `mu_i` of `ML_LagFE`, panel.py:2680-2681. -/
noncomputable def muLagFE (y : τ × n → ℝ) (x : Matrix (τ × n) k ℝ) (f : LagFit τ n k) : n → ℝ := fun i =>
  (∑ s, (y - x *ᵥ f.b) (s, i)) / Fintype.card τ

/-- The information matrix of `BaseML_LagFE`, panel.py:2435-2460 (panel_fe.py:171-196): `xTwpy` uses the regressors before
demeaning. `t` are the traces of `wai`, panel.py:2423-2433. -/
noncomputable def lagFEInfo (x : Matrix (τ × n) k ℝ) (wai : Matrix n n ℝ) (b : k → ℝ) (sig2 : ℝ) :
    Matrix (k ⊕ (Unit ⊕ Unit)) (k ⊕ (Unit ⊕ Unit)) ℝ :=
  let xd := quasi τ n 0 * x
  let xb := xd *ᵥ b
  let wpredy := bigW τ wai *ᵥ xb
  let xTwpy := xᵀ *ᵥ wpredy
  let wpyTwpy := xb ⬝ᵥ (bigW τ (waiᵀ * wai) *ᵥ xb)
  let T : ℝ := Fintype.card τ
  Matrix.of fun
    | .inl i, .inl j => (xdᵀ * xd) i j / sig2
    | .inl i, .inr (.inl _) => xTwpy i / sig2
    | .inl _, .inr (.inr _) => 0
    | .inr (.inl _), .inl j => xTwpy j / sig2
    | .inr (.inl _), .inr (.inl _) => T * ((wai * wai).trace + (waiᵀ * wai).trace) + wpyTwpy / sig2
    | .inr (.inl _), .inr (.inr _) => T * wai.trace / sig2
    | .inr (.inr _), .inl _ => 0
    | .inr (.inr _), .inr (.inl _) => T * wai.trace / sig2
    | .inr (.inr _), .inr (.inr _) => NT τ n / (2 * sig2 ^ 2)

/-! ### Random effects, lag -/

/-- One pass of the loop of `BaseML_LagRE`, panel.py:2790-2812, for given `phi`. -/
noncomputable def rePre (y : τ × n → ℝ) (x : Matrix (τ × n) k ℝ) (W : Matrix n n ℝ) (phi : ℝ) :
    Option (LagPre (τ × n) k) :=
  lagPre (quasi τ n phi *ᵥ y) (quasi τ n phi * x) (bigW τ W)

/-- `phi_c_loglik`, panel.py:3104-3113; panel_re.py:794-803. -/
noncomputable def phiObj (y : τ × n → ℝ) (x : Matrix (τ × n) k ℝ) (W : Matrix n n ℝ) (rho : ℝ) (b : k → ℝ) (phi : ℝ) :
    ℝ :=
  let yd := quasi τ n phi *ᵥ y
  let xd := quasi τ n phi * x
  let er := yd - rho • (bigW τ W *ᵥ yd) - xd *ᵥ b
  let sig2 := er ⬝ᵥ er
  (Fintype.card n : ℝ) * Fintype.card τ / 2 * Real.log sig2 - (Fintype.card n : ℝ) / 2 * Real.log (phi ^ 2)

/-- `BaseML_LagRE`, panel.py:2816-2837, after the loop: `phi`, `rho` are those of the last pass. -/
noncomputable def lagRE (y : τ × n → ℝ) (x : Matrix (τ × n) k ℝ) (W : Matrix n n ℝ) (phi rho : ℝ) :
    Option (LagFit τ n k) :=
  (rePre y x W phi).map fun p =>
    let u := p.e0 - rho • p.e1
    { b := p.b0 - rho • p.b1, rho := rho, phi := phi, u := u, predy := quasi τ n phi *ᵥ y - u
      sig2 := (u ⬝ᵥ u) / NT τ n
      logll := addConst τ n (lagObj W p rho - (Fintype.card n : ℝ) / 2 * Real.log (phi ^ 2)) }

/-- `BasePanel_RE_Lag`, panel_re.py:171-189: the term in `phi` is missing. -/
noncomputable def lagREOld (y : τ × n → ℝ) (x : Matrix (τ × n) k ℝ) (W : Matrix n n ℝ) (phi rho : ℝ) :
    Option (LagFit τ n k) :=
  (rePre y x W phi).map fun p =>
    let u := p.e0 - rho • p.e1
    { b := p.b0 - rho • p.b1, rho := rho, phi := phi, u := u, predy := quasi τ n phi *ᵥ y - u
      sig2 := (u ⬝ᵥ u) / NT τ n, logll := addConst τ n (lagObj W p rho) }

/-- State of the loop: `phi`, `rho`, coefficients. -/
structure REState (k : Type) where
  phi : ℝ
  rho : ℝ
  b : k → ℝ

/-- The loop of `BaseML_LagRE`, panel.py:2778-2814 (panel_re.py:133-169). `r` is `itermax - i`; `optPhi`, `optRho` are the
two calls of `minimize_scalar`. The result is the last state and the number of passes. -/
noncomputable def reLoop (optPhi : ℝ → (k → ℝ) → ℝ) (optRho : LagPre (τ × n) k → ℝ)
    (y : τ × n → ℝ) (x : Matrix (τ × n) k ℝ) (W : Matrix n n ℝ) :
    ℕ → ℝ → REState k → Option (REState k × ℕ)
  | 0, _, st => some (st, 0)
  | r + 1, converge, st =>
    if 1 / 10000000 < converge then
      let phi := optPhi st.rho st.b
      (rePre y x W phi).bind fun p =>
        let rho := optRho p
        (reLoop optPhi optRho y x W r |st.phi - phi| ⟨phi, rho, p.b0 - rho • p.b1⟩).map fun q => (q.1, q.2 + 1)
    else some (st, 0)

/-- `BaseML_LagRE.__init__`, panel.py:2765-2837: start, loop, results. -/
noncomputable def lagREFull (optPhi : ℝ → (k → ℝ) → ℝ) (optRho : LagPre (τ × n) k → ℝ)
    (y : τ × n → ℝ) (x : Matrix (τ × n) k ℝ) (W : Matrix n n ℝ) : Option (LagFit τ n k × ℕ) :=
  (ols x y).bind fun o =>
    (reLoop optPhi optRho y x W 100 1 ⟨1 / 10, 1 / 10, o.betas⟩).bind fun q =>
      (lagRE y x W q.1.phi q.1.rho).map fun f => ({ f with b := q.1.b }, q.2)

/-- The information matrix of `BaseML_LagRE`, panel.py:2861-2887 (panel_re.py:213-239), without the rows of the regressors:
index `rho`, `phi`, `sig2`; `q` is `wpyTwpy`. -/
noncomputable def lagREInfo3 (τ n : Type) [Fintype τ] [Fintype n] (tr1 tr2 tr3 q sig2 phi : ℝ) : Matrix (Fin 3) (Fin 3) ℝ :=
  let T : ℝ := Fintype.card τ
  let N : ℝ := Fintype.card n
  !![T * (tr2 + tr3) + q / sig2, -tr1 / sig2, T * tr1 / sig2;
     -tr1 / sig2, N * (1 + 1 / phi ^ 2), -N / sig2 ^ 2;
     T * tr1 / sig2, -N / sig2, NT τ n / (2 * sig2 ^ 2)]

/-- The full information matrix of `BaseML_LagRE`, panel.py:2852-2887. -/
noncomputable def lagREInfo (x : Matrix (τ × n) k ℝ) (wai : Matrix n n ℝ) (b : k → ℝ) (sig2 phi : ℝ) :
    Matrix (k ⊕ Fin 3) (k ⊕ Fin 3) ℝ :=
  let xd := quasi τ n phi * x
  let xb := xd *ᵥ b
  let xTwpy := xdᵀ *ᵥ (bigW τ wai *ᵥ xb)
  let wpyTwpy := xb ⬝ᵥ (bigW τ (waiᵀ * wai) *ᵥ xb)
  fromBlocks ((1 / sig2) • (xdᵀ * xd)) (Matrix.of fun i c => ![xTwpy i / sig2, 0, 0] c)
    (Matrix.of fun c j => ![xTwpy j / sig2, 0, 0] c)
    (lagREInfo3 τ n wai.trace (wai * wai).trace (waiᵀ * wai).trace wpyTwpy sig2 phi)

/-! ### Fixed effects, error -/

/-- Attributes of the error models. -/
structure ErrFit (τ n k : Type) where
  b : k → ℝ
  lam : ℝ
  phi : ℝ
  u : τ × n → ℝ
  predy : τ × n → ℝ
  eFiltered : τ × n → ℝ
  sig2 : ℝ
  varb : Matrix k k ℝ
  logll : ℝ

/-- `sig2 = ysys - xsys'(xs'xs)^-1 xsys` of `err_c_loglik_sp`, panel.py:1650-1659 (panel_fe.py:664-673). -/
noncomputable def errSS (xsxsi : Matrix k k ℝ) (xs : Matrix (τ × n) k ℝ) (ys : τ × n → ℝ) : ℝ :=
  ys ⬝ᵥ ys - (xsᵀ *ᵥ ys) ⬝ᵥ (xsxsi *ᵥ (xsᵀ *ᵥ ys))

/-- `BaseML_ErrorFE`, panel.py:1567-1613, for the optimiser's result `lam`; `corrected` is line 1593, which
panel_fe.py:443-446 does not have. -/
noncomputable def errFE (corrected : Bool) (y : τ × n → ℝ) (x : Matrix (τ × n) k ℝ) (W : Matrix n n ℝ) (lam : ℝ) :
    Option (ErrFit τ n k) :=
  let yd := quasi τ n 0 *ᵥ y
  let xd := quasi τ n 0 * x
  let ys := yd - lam • (bigW τ W *ᵥ yd)
  let xs := xd - lam • (bigW τ W * xd)
  (inv? (xsᵀ * xs)).map fun xsxsi =>
    let clik := (Fintype.card n : ℝ) * Fintype.card τ / 2 * Real.log (errSS xsxsi xs ys) - jacob τ W lam
    let ll := addConst τ n clik
    let b := xsxsi *ᵥ (xsᵀ *ᵥ ys)
    let u := yd - xd *ᵥ b
    let ef := u - lam • (bigW τ W *ᵥ u)
    let sig2 := (ef ⬝ᵥ ef) / NT τ n
    { b := b, lam := lam, phi := 0, u := u, predy := yd - u, eFiltered := ef, sig2 := sig2, varb := sig2 • xsxsi
      logll := if corrected then ll + NT τ n / 2 * Real.log (NT τ n) else ll }

/-- `mu_i` of `ML_ErrorFE`, panel.py:1854-1855. -/
noncomputable def muErrFE (y : τ × n → ℝ) (x : Matrix (τ × n) k ℝ) (f : ErrFit τ n k) : n → ℝ := fun i =>
  (∑ s, (y - x *ᵥ f.b) (s, i)) / Fintype.card τ

/-- `vm1` and `vm` of `BaseML_ErrorFE`, panel.py:1616-1642. -/
noncomputable def errFEVm (W : Matrix n n ℝ) (f : ErrFit τ n k) : Option (Matrix (k ⊕ Unit) (k ⊕ Unit) ℝ) :=
  (inv? (filledA W f.lam)).bind fun ai =>
    let wai := W * ai
    let T : ℝ := Fintype.card τ
    let v : Matrix (Fin 2) (Fin 2) ℝ :=
      !![T * ((wai * wai).trace + (waiᵀ * wai).trace), T * wai.trace / f.sig2;
         T * wai.trace / f.sig2, NT τ n / (2 * f.sig2 ^ 2)]
    (inv? v).map fun vm1 => fromBlocks f.varb 0 0 (Matrix.of fun _ _ => vm1 0 0)

/-! ### Random effects, error -/

/-- `np.tile(M @ mean over time, t)`: `J/T ⊗ M`, panel.py:1987-1993, 2086-2090. -/
noncomputable def tileMean (τ : Type) [Fintype τ] (M : Matrix n n ℝ) : Matrix (τ × n) (τ × n) ℝ :=
  (Matrix.of fun _ _ => 1 / (Fintype.card τ : ℝ) : Matrix τ τ ℝ) ⊗ₖ M

/-- The transformation `a + tile((P - (I - lam W)) mean(a)) - lam W a`, panel.py:1987-1999, 2084-2096. -/
noncomputable def reTrans (τ : Type) [Fintype τ] [DecidableEq τ] (W P : Matrix n n ℝ) (lam : ℝ) :
    Matrix (τ × n) (τ × n) ℝ :=
  1 + tileMean τ (P - (1 - lam • W)) - lam • bigW τ W

/-- `P` of the objective, panel.py:2081-2082, for real eigenvalues `ev` and the matrix `E` of eigenvectors. -/
noncomputable def objP (τ : Type) [Fintype τ] (ev : n → ℝ) (E : Matrix n n ℝ) (lam phi : ℝ) : Matrix n n ℝ :=
  diagonal (fun i => (Real.sqrt (Fintype.card τ * phi ^ 2 + 1 / (1 - lam * ev i) ^ 2))⁻¹) * Eᵀ

/-- `err_c_loglik_ord`, panel.py:2077-2117, for real eigenvalues. -/
noncomputable def errREObj (y : τ × n → ℝ) (x : Matrix (τ × n) k ℝ) (W : Matrix n n ℝ) (ev : n → ℝ) (E : Matrix n n ℝ)
    (lam phi : ℝ) : Option ℝ :=
  let A := reTrans τ W (objP τ ev E lam phi) lam
  let ys := A *ᵥ y
  let xs := A * x
  (inv? (xsᵀ * xs)).map fun xsxsi =>
    let sig2 := errSS xsxsi xs ys / (Fintype.card n * Fintype.card τ)
    let phiJacob := 1 / 2 * ∑ i, Real.log (1 + Fintype.card τ * phi ^ 2 * (1 - lam * ev i) ^ 2)
    let jac := Fintype.card τ * ∑ i, Real.log (1 - lam * ev i)
    (Fintype.card n : ℝ) * Fintype.card τ / 2 * Real.log sig2 + phiJacob - jac

/-- `BaseML_ErrorRE`, panel.py:1968-2017, for the optimiser's result `(lam, phi0)`; `d`, `U` are the eigenvalues and
eigenvectors that `la.eigh(Omega_between)` returns. -/
noncomputable def errRE (y : τ × n → ℝ) (x : Matrix (τ × n) k ℝ) (W : Matrix n n ℝ) (ev : n → ℝ) (E : Matrix n n ℝ)
    (d : n → ℝ) (U : Matrix n n ℝ) (lam phi0 : ℝ) : Option (ErrFit τ n k) :=
  (errREObj y x W ev E lam phi0).bind fun f =>
    let P := U * (diagonal (fun i => (Real.sqrt (d i))⁻¹) * Uᵀ)
    let A := reTrans τ W P lam
    let ys := A *ᵥ y
    let xs := A * x
    (inv? (xsᵀ * xs)).map fun xsxsi =>
      let b := xsxsi *ᵥ (xsᵀ *ᵥ ys)
      let ef := ys - xs *ᵥ b
      let sig2 := (ef ⬝ᵥ ef) / NT τ n
      { b := b, lam := lam, phi := phi0 ^ 2, u := y - x *ᵥ b, predy := y - (y - x *ᵥ b), eFiltered := ef, sig2 := sig2
        varb := sig2 • xsxsi, logll := addConst τ n f }

/-- `Omega_between`, panel.py:1977-1982. -/
noncomputable def omegaBetween (τ : Type) [Fintype τ] (W : Matrix n n ℝ) (lam phi : ℝ) : Matrix n n ℝ :=
  (Fintype.card τ * phi) • (1 : Matrix n n ℝ) + ((1 - lam • W)ᵀ * (1 - lam • W))⁻¹

/-- The information matrix of (lambda, phi, sig2), panel.py:2020-2066 (panel.py:2025 has `r = sqrt(self.phi)`, where
`self.phi` is the squared parameter; panel_re.py:563 has `r = self.phi`, where it is the parameter itself). -/
noncomputable def errREInfo (τ : Type) [Fintype τ] (W : Matrix n n ℝ) (lam r sig2 : ℝ) :
    Option (Matrix (Fin 3) (Fin 3) ℝ) :=
  let T : ℝ := Fintype.card τ
  let a := filledA W lam
  (inv? (aᵀ * a)).bind fun aTai =>
    let gamma := (Wᵀ * a + aᵀ * W) * aTai
    (inv? ((T * r) • (1 : Matrix n n ℝ) + aTai)).map fun vi =>
      let sigma := vi * aTai
      let tr1 := gamma.trace
      let tr2 := vi.trace
      let tr3 := sigma.trace
      let tr4 := (sigma * gamma).trace
      let tr5 := (sigma * vi).trace
      let tr6 := ((sigma * gamma) * vi).trace
      let tr7 := ((sigma * gamma) * sigma).trace
      !![(T - 1) / 2 * tr1 ^ 2 + 1 / 2 * tr4 ^ 2, T / (2 * sig2) * tr6, (T - 1) / (2 * sig2) * tr1 + 1 / (2 * sig2) * tr7;
         T / (2 * sig2) * tr6, T ^ 2 / (2 * sig2 ^ 2) * tr2 ^ 2, T / (2 * sig2 ^ 2) * tr5;
         (T - 1) / (2 * sig2) * tr1 + 1 / (2 * sig2) * tr7, T / (2 * sig2 ^ 2) * tr5,
           1 / (2 * sig2 ^ 2) * ((T - 1) * Fintype.card n + tr3 ^ 2)]

/-- The information matrix that `BaseML_ErrorRE` inverts: `vi` is computed with `sqrt(self.phi)`, panel.py:2025. -/
noncomputable def errREFitInfo (W : Matrix n n ℝ) (f : ErrFit τ n k) : Option (Matrix (Fin 3) (Fin 3) ℝ) :=
  errREInfo τ W f.lam (Real.sqrt f.phi) f.sig2

end Spreg.PanelML
