import Verif.Model.GM
import Verif.Model.PanelML
import Mathlib.LinearAlgebra.Matrix.PosDef
/-
Model of panel.py: PanelFE, PanelRE and BaseGM_ErrorRE, for stacked data (row `s*N + i` is the pair `(s, i)`).

* Arithmetic is exact; division by zero (numpy's inf or nan) is 0 and excluded by hypotheses.
* `optim_moments` (SciPy) is a parameter; the Cholesky factorisation before it raises unless the matrix is positive definite.
* `numpy.linalg.pinv` is a parameter.
-/
namespace Spreg.PanelGLS
open Matrix Spreg.Lin Spreg.PanelML Spreg.GM
open scoped Kronecker

variable {τ n k : Type} [Fintype τ] [Fintype n] [Fintype k] [DecidableEq τ] [DecidableEq n] [DecidableEq k]

/-- `y_mat.mean(axis=0)`, panel.py:353, 548. -/
noncomputable def unitMean (v : τ × n → ℝ) : n → ℝ := fun i => (∑ s, v (s, i)) / Fintype.card τ

/-- `x_mat.mean(axis=0)`, panel.py:354, 549. -/
noncomputable def unitMeanM (x : Matrix (τ × n) k ℝ) : Matrix n k ℝ :=
  Matrix.of fun i j => (∑ s, x (s, i) j) / Fintype.card τ

/-- `np.tile(y_mean, T)`, panel.py:356, 551. -/
def tile (τ : Type) (m : n → ℝ) : τ × n → ℝ := fun a => m a.2

/-- The columns of `np.tile(x_mean[:, i], T)`, panel.py:359-362, 553-554. -/
def tileM (τ : Type) (m : Matrix n k ℝ) : Matrix (τ × n) k ℝ := Matrix.of fun a j => m a.2 j

/-! ### Fixed effects -/

/-- Attributes of `PanelFE`. -/
structure FEFit (τ n k : Type) where
  betas : k → ℝ
  predy : τ × n → ℝ
  u : τ × n → ℝ
  xtxi : Matrix k k ℝ
  sig2 : ℝ
  vm : Matrix k k ℝ
  fixedEffects : n → ℝ
  mu : n → ℝ

/-- `PanelFE.__init__`, panel.py:347-389. -/
noncomputable def panelFE (y : τ × n → ℝ) (x : Matrix (τ × n) k ℝ) : Option (FEFit τ n k) :=
  let ym := unitMean y
  let xm := unitMeanM x
  let demY := y - tile τ ym
  let demX := x - tileM τ xm
  (ols demX demY).bind fun reg =>
    let predy := x *ᵥ reg.betas
    let u := y - predy
    (inv? (xᵀ * x)).map fun xtxi =>
      let df := NT τ n - Fintype.card n
      let sig2 := utu reg.u / df
      { betas := reg.betas, predy := predy, u := u, xtxi := xtxi, sig2 := sig2, vm := sig2 • reg.xtxi
        fixedEffects := ym - xm *ᵥ reg.betas, mu := unitMean u }

/-! ### Random effects -/

/-- `np.var(x_dem, axis=0)`, panel.py:560. -/
noncomputable def colVar (x : Matrix (τ × n) k ℝ) (j : k) : ℝ :=
  let m := (∑ a, x a j) / NT τ n
  (∑ a, (x a j - m) ^ 2) / NT τ n

/-- `valid_cols`, panel.py:561. -/
def Valid (xdem : Matrix (τ × n) k ℝ) (j : k) : Prop := 1 / 10 ^ 12 < colVar xdem j

/-- Attributes of `PanelRE`; `hausman` is `none` for NaN. -/
structure REFit (τ n k : Type) where
  sigma2e : ℝ
  sigma2mu : ℝ
  theta : ℝ
  betas : k → ℝ
  predy : τ × n → ℝ
  u : τ × n → ℝ
  sig2 : ℝ
  vm : Matrix k k ℝ
  hausman : Option ℝ
  hausmanDf : ℕ

open Classical in
/-- The within regression, panel.py:563-577: coefficients and inverse of the valid columns, if there are any, and
residuals. `none` for a singular matrix. -/
noncomputable def within (xd : Matrix (τ × n) k ℝ) (yd : τ × n → ℝ) :
    Option (Option (({j // Valid xd j} → ℝ) × Matrix {j // Valid xd j} {j // Valid xd j} ℝ) × (τ × n → ℝ)) :=
  if 0 < Fintype.card {j // Valid xd j} then
    let xs : Matrix (τ × n) {j // Valid xd j} ℝ := xd.submatrix id Subtype.val
    (inv? (xsᵀ * xs)).map fun xi =>
      let b := xi *ᵥ (xsᵀ *ᵥ yd)
      (some (b, xi), yd - xs *ᵥ b)
  else some (none, yd)

open Classical in
/-- Coefficients of the between regression, panel.py:582-590. -/
noncomputable def between (pinv : Matrix k k ℝ → Matrix k k ℝ) (xm : Matrix n k ℝ) (ym : n → ℝ) : k → ℝ :=
  match inv? (xmᵀ * xm) with
  | some xi => xi *ᵥ (xmᵀ *ᵥ ym)
  | none => pinv (xmᵀ * xm) *ᵥ (xmᵀ *ᵥ ym)

open Classical in
/-- The Hausman test, panel.py:617-637. -/
noncomputable def hausman (xd : Matrix (τ × n) k ℝ)
    (fe : Option (({j // Valid xd j} → ℝ) × Matrix {j // Valid xd j} {j // Valid xd j} ℝ)) (sigma2e : ℝ) (betas : k → ℝ)
    (vm : Matrix k k ℝ) : Option ℝ :=
  fe.bind fun p =>
    let bDiff := p.1 - fun j => betas j.1
    let vDiff := sigma2e • p.2 - vm.submatrix Subtype.val Subtype.val
    (inv? vDiff).map fun vi => bDiff ⬝ᵥ (vi *ᵥ bDiff)

open Classical in
/-- `PanelRE.__init__`, panel.py:541-637. -/
noncomputable def panelRE (pinv : Matrix k k ℝ → Matrix k k ℝ) (y : τ × n → ℝ) (x : Matrix (τ × n) k ℝ) :
    Option (REFit τ n k) :=
  let T : ℝ := Fintype.card τ
  let ym := unitMean y
  let xm := unitMeanM x
  let yl := tile τ ym
  let xl := tileM τ xm
  let yd := y - yl
  let xd := x - xl
  (within xd yd).bind fun w =>
    let df := NT τ n - Fintype.card n - Fintype.card {j // Valid xd j}
    let se := utu w.2 / df
    let eb := ym - xm *ᵥ between pinv xm ym
    let sb := utu eb / (Fintype.card n - Fintype.card k)
    let sm0 := sb - se / T
    let sm := if sm0 < 0 then 0 else sm0
    let denom := se + T * sm
    let theta := 1 - Real.sqrt (se / denom)
    (ols (x - theta • xl) (y - theta • yl)).map fun reg =>
      let predy := x *ᵥ reg.betas
      let sig2 := sig2n reg.u
      let vm := sig2 • reg.xtxi
      { sigma2e := se, sigma2mu := sm, theta := theta, betas := reg.betas, predy := predy, u := y - predy, sig2 := sig2
        vm := vm, hausman := hausman xd w.1 se reg.betas vm, hausmanDf := Fintype.card {j // Valid xd j} }

/-! ### Kapoor, Kelejian, Prucha -/

/-- `Q` applied to a stacked vector, panel.py:1255-1262: deviations from unit means (`i = 0`) or unit means (`i = 1`). -/
noncomputable def kkpQ (first : Bool) (v : τ × n → ℝ) : τ × n → ℝ :=
  if first then v - tile τ (unitMean v) else tile τ (unitMean v)

/-- The entries that both sets of moments have in common, panel.py:1264-1269, 1288-1290: `(G11, G12, G21, G22, G31, G32)`
and `(g1, g2, g3)`. -/
noncomputable def kkpEntries (first : Bool) (W : Matrix n n ℝ) (u : τ × n → ℝ) : Matrix (Fin 3) (Fin 2) ℝ × (Fin 3 → ℝ) :=
  let ub := bigW τ W *ᵥ u
  let ubb := bigW τ W *ᵥ ub
  let Qu := kkpQ first u
  let Qub := kkpQ first ub
  let Qubb := kkpQ first ubb
  (Matrix.of fun i j => ![![2 * (u ⬝ᵥ Qub), -(ub ⬝ᵥ Qub)], ![2 * (ubb ⬝ᵥ Qub), -(ubb ⬝ᵥ Qubb)],
      ![u ⬝ᵥ Qubb + ub ⬝ᵥ Qub, -(ub ⬝ᵥ Qubb)]] i j,
   ![u ⬝ᵥ Qu, ub ⬝ᵥ Qub, u ⬝ᵥ Qub])

/-- `trace_w2`, panel.py:1272: `(ws.power(2)).sum()`. -/
def traceW2 (W : Matrix n n ℝ) : ℝ := ∑ i, ∑ j, W i j ^ 2

/-- `_moments_kkp(ws, u, 0)`, panel.py:1275-1292. -/
noncomputable def momentsKKP0 (W : Matrix n n ℝ) (u : τ × n → ℝ) : Moments (Fin 3) (Fin 3) :=
  let N : ℝ := Fintype.card n
  let T : ℝ := Fintype.card τ
  let e := kkpEntries true W u
  { G := Matrix.of fun i j => (![![e.1 0 0, e.1 0 1, N * (T - 1)], ![e.1 1 0, e.1 1 1, traceW2 W * (T - 1)],
      ![e.1 2 0, e.1 2 1, 0]] i j) / (N * (T - 1))
    g := fun i => e.2 i / (N * (T - 1)) }

/-- `_moments_kkp(ws, u, 1)`, panel.py:1282-1292. -/
noncomputable def momentsKKP1 (W : Matrix n n ℝ) (u : τ × n → ℝ) : Moments (Fin 3) (Fin 4) :=
  let N : ℝ := Fintype.card n
  let e := kkpEntries false W u
  { G := Matrix.of fun i j => (![![e.1 0 0, e.1 0 1, 0, N], ![e.1 1 0, e.1 1 1, 0, traceW2 W],
      ![e.1 2 0, e.1 2 1, 0, 0]] i j) / N
    g := fun i => e.2 i / N }

/-- `moments6`, panel.py:1151-1152: row `(0, i)` is row `i` of the first set with a zero appended, `(1, i)` row `i` of the
second. -/
noncomputable def moments6 (W : Matrix n n ℝ) (u : τ × n → ℝ) : Moments (Fin 2 × Fin 3) (Fin 4) :=
  let m0 := momentsKKP0 W u
  let m1 := momentsKKP1 W u
  { G := Matrix.of fun r j => if r.1 = 0 then ![m0.G r.2 0, m0.G r.2 1, m0.G r.2 2, 0] j else m1.G r.2 j
    g := fun r => if r.1 = 0 then m0.g r.2 else m1.g r.2 }

/-- `_get_Tau`, panel.py:1305-1315. -/
noncomputable def getTau (W : Matrix n n ℝ) : Matrix (Fin 3) (Fin 3) ℝ :=
  let N : ℝ := Fintype.card n
  let T12 := 2 * traceW2 W / N
  let wtw := Wᵀ * W
  let T22 := ∑ i, ∑ j, wtw i j ^ 2
  let wtpw := Wᵀ + W
  let T23 := ∑ i, ∑ j, wtw i j * wtpw i j
  let T33 := ∑ j, ((∑ i, W i j * W j i) + wtw j j)
  Matrix.of fun i j => (![![2 * N, T12, 0], ![T12, T22, T23], ![0, T23, T33]] i j) / N

/-- `Xi`, panel.py:1143-1149. -/
noncomputable def kkpXi (T sigV sig1 : ℝ) (Tau : Matrix (Fin 3) (Fin 3) ℝ) : Matrix (Fin 2 × Fin 3) (Fin 2 × Fin 3) ℝ :=
  diagonal ![sigV * sigV / (T - 1), sig1 * sig1] ⊗ₖ Tau

/-- Attributes of `BaseGM_ErrorRE`; `betas` without the last three entries, which are `lam`, `sigV`, `sig1`. -/
structure KKPFit (τ n k : Type) where
  betas : k → ℝ
  lam : ℝ
  sigV : ℝ
  sig1 : ℝ
  predy : τ × n → ℝ
  u : τ × n → ℝ
  eFiltered : τ × n → ℝ
  vm : Matrix k k ℝ

/-- `Q1`, panel.py:1140. -/
noncomputable def kkpQ1 (τ n : Type) [Fintype τ] [DecidableEq n] : Matrix (τ × n) (τ × n) ℝ :=
  (Matrix.of fun _ _ => 1 / (Fintype.card τ : ℝ) : Matrix τ τ ℝ) ⊗ₖ (1 : Matrix n n ℝ)

/-- `get_spFilter(w, lamb, sf)`, utils.py:459-468, for stacked data (for one period the same without the Kronecker product). -/
def panelFilter (W : Matrix n n ℝ) (lam : ℝ) (v : τ × n → ℝ) : τ × n → ℝ := v - lam • (bigW τ W *ᵥ v)

/-- The same for a matrix. -/
def panelFilterM (W : Matrix n n ℝ) (lam : ℝ) (x : Matrix (τ × n) k ℝ) : Matrix (τ × n) k ℝ := x - lam • (bigW τ W * x)

/-- Second part of `BaseGM_ErrorRE.__init__`, panel.py:1157-1171, for the estimates `lam`, `sigV`, `sig1`. -/
noncomputable def kkpGLS (y : τ × n → ℝ) (x : Matrix (τ × n) k ℝ) (W : Matrix n n ℝ) (lam sigV sig1 : ℝ) :
    Option (KKPFit τ n k) :=
  let theta := 1 - Real.sqrt sigV / Real.sqrt sig1
  let glsW := 1 - theta • kkpQ1 τ n
  (ols (glsW * panelFilterM W lam x) (glsW *ᵥ panelFilter W lam y)).map fun o =>
    let predy := x *ᵥ o.betas
    let u := y - predy
    { betas := o.betas, lam := lam, sigV := sigV, sig1 := sig1, predy := predy, u := u, eFiltered := panelFilter W lam u
      vm := sig2nk o.u (Fintype.card k) • o.xtxi }

open Classical in
/-- `BaseGM_ErrorRE.__init__`, panel.py:1128-1171; `opt3`, `opt6` are the two calls of `optim_moments` (`opt6` gets the
weighting matrix, unless it is zero). `none` when a singular matrix or `la.cholesky` raises. -/
noncomputable def kkp (opt3 : Moments (Fin 3) (Fin 3) → ℝ × ℝ)
    (opt6 : Moments (Fin 2 × Fin 3) (Fin 4) → Option (Matrix (Fin 2 × Fin 3) (Fin 2 × Fin 3) ℝ) → ℝ × ℝ × ℝ)
    (y : τ × n → ℝ) (x : Matrix (τ × n) k ℝ) (W : Matrix n n ℝ) (fullWeights : Bool) : Option (KKPFit τ n k) :=
  (ols x y).bind fun o =>
    let p := opt3 (momentsKKP0 W o.u)
    let ulu := panelFilter W p.1 o.u
    let sig1 := (ulu ⬝ᵥ (kkpQ1 τ n *ᵥ ulu)) / Fintype.card n
    let Tau := if fullWeights then getTau W else 1
    let Xi := kkpXi (Fintype.card τ) p.2 sig1 Tau
    let m6 := moments6 W o.u
    if Xi = 0 then
      let q := opt6 m6 none
      kkpGLS y x W q.1 q.2.1 q.2.2
    else
      (inv? Xi).bind fun Xii =>
        if Xii.PosDef then
          let q := opt6 m6 (some Xi)
          kkpGLS y x W q.1 q.2.1 q.2.2
        else none

end Spreg.PanelGLS
