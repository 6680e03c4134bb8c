import Verif.Model.PanelML
/-
Model of the deprecated classes of panel_re.py as a whole (BasePanel_RE_Lag with its loop, BasePanel_RE_Error). The fixed
effects classes of panel_fe.py are `lagFEOld`, `errFE false` of PanelML.lean. Optimisers are parameters, as there.
-/
namespace Spreg.PanelML
open Matrix Spreg.Lin Spreg.ML

variable {τ n k : Type} [Fintype τ] [Fintype n] [Fintype k] [DecidableEq τ] [DecidableEq n] [DecidableEq k]

/-- `BasePanel_RE_Lag.__init__`, panel_re.py:118-189: start, loop (the same as that of panel.py), results. -/
noncomputable def lagREFullOld (optPhi : ℝ → (k → ℝ) → ℝ) (optRho : LagPre (τ × n) k → ℝ)
    (y : τ × n → ℝ) (x : Matrix (τ × n) k ℝ) (W : Matrix n n ℝ) : Option (LagFit τ n k × ℕ) :=
  (ols x y).bind fun o =>
    (reLoop optPhi optRho y x W 100 1 ⟨1 / 10, 1 / 10, o.betas⟩).bind fun q =>
      (lagREOld y x W q.1.phi q.1.rho).map fun f => ({ f with b := q.1.b }, q.2)

/-- `err_c_loglik_ord`, panel_re.py:806-839, for real eigenvalues: `sig2` is not divided by the number of observations. -/
noncomputable def errREObjOld (y : τ × n → ℝ) (x : Matrix (τ × n) k ℝ) (W : Matrix n n ℝ) (ev : n → ℝ) (E : Matrix n n ℝ)
    (lam phi : ℝ) : Option ℝ :=
  let A := reTrans τ W (objP τ ev E lam phi) lam
  let ys := A *ᵥ y
  let xs := A * x
  (inv? (xsᵀ * xs)).map fun xsxsi =>
    let sig2 := errSS xsxsi xs ys
    let phiJacob := 1 / 2 * ∑ i, Real.log (1 + Fintype.card τ * phi ^ 2 * (1 - lam * ev i) ^ 2)
    let jac := Fintype.card τ * ∑ i, Real.log (1 - lam * ev i)
    (Fintype.card n : ℝ) * Fintype.card τ / 2 * Real.log sig2 + phiJacob - jac

open Classical in
/-- The matrix `W` of the final step, panel_re.py:480, 489-495: the symmetrised weights if the neighbours are mutual. `A` are
the original weights, `t` the transform in force. -/
noncomputable def oldREW (A : Matrix n n ℝ) (t : Transform) : Matrix n n ℝ :=
  if patternSymm A then symmetrize A else weightsOf A t

/-- `BasePanel_RE_Error`, panel_re.py:472-555, for the optimiser's result `(lam, phi)`: `W` is `w.sparse`, `WW` the matrix of the
final step, `ev` and `E` its eigenvalues and eigenvectors. -/
noncomputable def errREOld (y : τ × n → ℝ) (x : Matrix (τ × n) k ℝ) (W WW : Matrix n n ℝ) (ev : n → ℝ) (E : Matrix n n ℝ)
    (lam phi : ℝ) : Option (ErrFit τ n k) :=
  (errREObjOld y x W ev E lam phi).bind fun f =>
    let pr := objP τ ev E lam phi - (1 - lam • WW)
    let A : Matrix (τ × n) (τ × n) ℝ := 1 + tileMean τ pr - lam • bigW τ W
    let ys := A *ᵥ y
    let xs := A * x
    (inv? (xsᵀ * xs)).map fun xsxsi =>
      let b := xsxsi *ᵥ (xsᵀ *ᵥ ys)
      let ef := ys - xs *ᵥ b
      let sig2 := (ef ⬝ᵥ ef) / NT τ n
      { b := b, lam := lam, phi := phi, u := y - x *ᵥ b, predy := y - (y - x *ᵥ b), eFiltered := ef, sig2 := sig2
        varb := sig2 • xsxsi, logll := addConst τ n f }

/-- `sig2_u` of `BasePanel_RE_Error`, panel_re.py:552: the last entry of `betas`. -/
def oldSig2u (f : ErrFit τ n k) : ℝ := f.phi ^ 2 * f.sig2
/-- `sig2_u` of `BaseML_ErrorRE`, panel.py:2013. -/
def newSig2u (f : ErrFit τ n k) : ℝ := f.phi * f.sig2

/-- The information matrix that `BasePanel_RE_Error` inverts, panel_re.py:557-601: computed from `WW`. -/
noncomputable def errREOldInfo (WW : Matrix n n ℝ) (f : ErrFit τ n k) : Option (Matrix (Fin 3) (Fin 3) ℝ) :=
  errREInfo τ WW f.lam f.phi f.sig2

end Spreg.PanelML
