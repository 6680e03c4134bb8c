import Verif.Model.PanelGLS
import Verif.Model.Panel
/-
Model of the deprecated sp_panels.py: `BaseGM_KKP`, `GM_KKP._set_regimes`, `_moments_kkp`, `_get_Tau`, `_get_panel_data`.
The conventions are those of `Model/PanelGLS.lean` and `Model/Panel.lean`.
-/
namespace Spreg.KKPOld
open Matrix Spreg Spreg.Lin Spreg.PanelML Spreg.GM Spreg.PanelGLS Spreg.Panel
open scoped Kronecker

variable {τ n k : Type} [Fintype τ] [Fintype n] [Fintype k] [DecidableEq τ] [DecidableEq n] [DecidableEq k]

/-- `Q`, sp_panels.py:413-416: the Kronecker product of `I - J/T` (`i = 0`) or `J/T` (`i = 1`) and an identity. -/
noncomputable def oldQ (τ n : Type) [Fintype τ] [DecidableEq τ] [DecidableEq n] (first : Bool) :
    Matrix (τ × n) (τ × n) ℝ :=
  if first then ((1 : Matrix τ τ ℝ) - Matrix.of fun _ _ => 1 / (Fintype.card τ : ℝ)) ⊗ₖ (1 : Matrix n n ℝ)
  else (Matrix.of fun _ _ => 1 / (Fintype.card τ : ℝ) : Matrix τ τ ℝ) ⊗ₖ (1 : Matrix n n ℝ)

/-- Entries of both sets of moments, sp_panels.py:417-428, 446-448. -/
noncomputable def oldEntries (first : Bool) (W : Matrix n n ℝ) (u : τ × n → ℝ) : Matrix (Fin 3) (Fin 2) ℝ × (Fin 3 → ℝ) :=
  let Q := oldQ τ n first
  let ub := bigW τ W *ᵥ u
  let ubb := bigW τ W *ᵥ ub
  let Qu := Q *ᵥ u
  let Qub := Q *ᵥ ub
  let Qubb := Q *ᵥ ubb
  (Matrix.of fun i j => ![![2 * (u ⬝ᵥ Qub), -(ub ⬝ᵥ Qub)], ![2 * (ubb ⬝ᵥ Qub), -(ubb ⬝ᵥ Qubb)],
      ![u ⬝ᵥ Qubb + ub ⬝ᵥ Qub, -(ub ⬝ᵥ Qubb)]] i j,
   ![u ⬝ᵥ Qu, ub ⬝ᵥ Qub, u ⬝ᵥ Qub])

/-- `(T - 1) ** (1 - i)`. -/
noncomputable def expo (T : ℝ) (i : ℕ) : ℝ := (T - 1) ^ (1 - i)

/-- `_moments_kkp(ws, u, 0)`, sp_panels.py:429-449. -/
noncomputable def oldMoments0 (W : Matrix n n ℝ) (u : τ × n → ℝ) : Moments (Fin 3) (Fin 3) :=
  let N : ℝ := Fintype.card n
  let c := expo (Fintype.card τ) 0
  let e := oldEntries true W u
  let G23 := c * traceW2 W
  { G := Matrix.of fun i j => (![![e.1 0 0, e.1 0 1, N * c], ![e.1 1 0, e.1 1 1, G23], ![e.1 2 0, e.1 2 1, 0]] i j) / (N * c)
    g := fun i => e.2 i / (N * c) }

/-- `_moments_kkp(ws, u, 1, trace_w2)`, sp_panels.py:431-449. -/
noncomputable def oldMoments1 (W : Matrix n n ℝ) (u : τ × n → ℝ) : Moments (Fin 3) (Fin 4) :=
  let N : ℝ := Fintype.card n
  let c := expo (Fintype.card τ) 1
  let e := oldEntries false W u
  let G23 := c * traceW2 W
  { G := Matrix.of fun i j => (![![e.1 0 0, e.1 0 1, 0, N * c], ![e.1 1 0, e.1 1 1, 0, G23],
      ![e.1 2 0, e.1 2 1, 0, 0]] i j) / (N * c)
    g := fun i => e.2 i / (N * c) }

/-- `moments6`, sp_panels.py:104-105. -/
noncomputable def oldMoments6 (W : Matrix n n ℝ) (u : τ × n → ℝ) : Moments (Fin 2 × Fin 3) (Fin 4) :=
  let m0 := oldMoments0 W u
  let m1 := oldMoments1 W u
  { G := Matrix.of fun r j => if r.1 = 0 then ![m0.G r.2 0, m0.G r.2 1, m0.G r.2 2, 0] j else m1.G r.2 j
    g := fun r => if r.1 = 0 then m0.g r.2 else m1.g r.2 }

/-- `_get_Tau(ws, trace_w2)`, sp_panels.py:465-474. -/
noncomputable def oldTau (W : Matrix n n ℝ) : Matrix (Fin 3) (Fin 3) ℝ :=
  let N : ℝ := Fintype.card n
  let T12 := 2 * traceW2 W / N
  let wtw := Wᵀ * W
  let T22 := ∑ i, ∑ j, wtw i j ^ 2
  let T23 := ∑ i, ∑ j, wtw i j * (Wᵀ + W) i j
  let T33 := ∑ j, ((∑ i, W i j * W j i) + wtw j j)
  Matrix.of fun i j => (![![2 * N, T12, 0], ![T12, T22, T23], ![0, T23, T33]] i j) / N

/-- Attributes of `BaseGM_KKP`: those of `BaseGM_ErrorRE`, and the attribute `n`. -/
structure OldFit (τ n k : Type) where
  fit : KKPFit τ n k
  n : ℕ

/-- Second part of `BaseGM_KKP.__init__`, sp_panels.py:110-124. -/
noncomputable def oldGLS (y : τ × n → ℝ) (x : Matrix (τ × n) k ℝ) (W : Matrix n n ℝ) (lam sigV sig1 : ℝ) :
    Option (OldFit τ n k) :=
  let theta := 1 - Real.sqrt sigV / Real.sqrt sig1
  let glsW := 1 - theta • oldQ τ n false
  (ols (glsW * panelFilterM W lam x) (glsW *ᵥ panelFilter W lam y)).map fun o =>
    let predy := x *ᵥ o.betas
    let u := y - predy
    { fit := { betas := o.betas, lam := lam, sigV := sigV, sig1 := sig1, predy := predy, u := u
               eFiltered := u - lam • (bigW τ W *ᵥ u), vm := sig2nk o.u (Fintype.card k) • o.xtxi }
      n := Fintype.card n }

open Classical in
/-- `BaseGM_KKP.__init__`, sp_panels.py:81-125; `opt3`, `opt6` as in `PanelGLS.kkp`. -/
noncomputable def kkpOld (opt3 : Moments (Fin 3) (Fin 3) → ℝ × ℝ)
    (opt6 : Moments (Fin 2 × Fin 3) (Fin 4) → Option (Matrix (Fin 2 × Fin 3) (Fin 2 × Fin 3) ℝ) → ℝ × ℝ × ℝ)
    (y : τ × n → ℝ) (x : Matrix (τ × n) k ℝ) (W : Matrix n n ℝ) (fullWeights : Bool) : Option (OldFit τ n k) :=
  (ols x y).bind fun o =>
    let p := opt3 (oldMoments0 W o.u)
    let ulu := o.u - p.1 • (bigW τ W *ᵥ o.u)
    let sig1 := (ulu ⬝ᵥ (oldQ τ n false *ᵥ ulu)) / Fintype.card n
    let Tau := if fullWeights then oldTau W else 1
    let Xi := diagonal ![p.2 * p.2 / ((Fintype.card τ : ℝ) - 1), sig1 * sig1] ⊗ₖ Tau
    let m6 := oldMoments6 W o.u
    if Xi = 0 then
      let q := opt6 m6 none
      oldGLS y x W q.1 q.2.1 q.2.2
    else
      (inv? Xi).bind fun Xii =>
        if Xii.PosDef then
          let q := opt6 m6 (some Xi)
          oldGLS y x W q.1 q.2.1 q.2.2
        else none

/-! ### Data -/

variable {α : Type}

/-- Data part of `_get_panel_data`, sp_panels.py:512-545. A `y` without columns divides by zero in `x.shape[1] // T`. -/
def oldPanelData (y x : Mat α) (wn : ℕ) : Py (Stacked α) :=
  if wn = 0 then .error .zeroDivision else
  if ¬ wn ∣ y.rows then .error .exception else
  let N := y.rows
  let T := y.cols
  if T = 0 then .error .zeroDivision else
  let k := x.cols / T
  if x.rows ≠ N ∧ x.rows ≠ N * T then .error .exception else
  if x.cols ≠ k ∧ x.cols ≠ k * T then .error .exception else
  if y.cols > 1 then
    (y.reshapeF (y.rows * y.cols)).bind fun bigy =>
    ((x.slice 0 T).reshapeF (N * T)).bind fun bigx0 =>
    ((List.range' 1 (k - 1)).foldlM (stackStep x N T) bigx0).map fun bigx => ⟨bigy, bigx, k, T⟩
  else .ok ⟨y, x, k, T⟩

/-- `_get_panel_data`, sp_panels.py:512-565, for arrays: data, then names (the lines on names are those of
`check_panel`). -/
def oldPanel (y x : Mat α) (wn : ℕ) (nameY : NameY) (nameX : Option (List String)) :
    Py (Stacked α × NameY × Option (List String)) := do
  let d ← oldPanelData y x wn
  let ny ← panelNameY nameY
  let nx ← panelNameX nameX d.k d.T
  pure (d, ny, nx)

/-- `GM_KKP._set_regimes`, sp_panels.py:376-388, for a list of regimes: `regimes * (n_rows // w.n)`. -/
def setRegimes {L : Type} (regimes : List L) (wn nRows : ℕ) : Py (List L) :=
  if regimes.length = wn then
    if wn = 0 then .error .zeroDivision else .ok (List.replicate (nRows / wn) regimes).flatten
  else if regimes.length = nRows then .ok regimes
  else .error .exception

end Spreg.KKPOld
