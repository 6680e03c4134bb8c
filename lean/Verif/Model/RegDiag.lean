import Verif.Model.LM
import Verif.Model.GMRegimes
import Verif.Model.RegimesMat
/-
Model of the spatial diagnostics of `OLS_Regimes` (ols_regimes.py:462-540, 668-692, output.py:306-410): the tests of
`Verif.Model.LM` read the design, the fit and, separately, the attribute `reg.k`.
The column `none` of a design is the constant, `some j` is variable `j`.
-/
namespace Spreg.RegDiag
open Matrix Spreg Spreg.Lin Spreg.LM

variable {n k q ρ p : Type} [Fintype n] [Fintype k] [Fintype q] [Fintype ρ] [Fintype p]

/-- The object handed to the diagnostics: `reg.x, reg.y, reg.xtx, reg.xtxi, reg.u, reg.predy` and `reg.k`. -/
structure Diag (n k : Type) where
  reg : Reg n k
  kAttr : ℕ

/-- `lm_wx`, diagnostics_sp.py:680-722: degrees of freedom `reg.k - 1`. -/
noncomputable def wxTest [DecidableEq q] (d : Diag n k) (W : Matrix n n ℝ) (sel : q → k) : Option Test :=
  (lmWX d.reg W sel).map fun t => { t with df := d.kAttr - 1 }

/-- `lm_spdurbin`, diagnostics_sp.py:724-794: degrees of freedom `k = x1.shape[1]`. -/
noncomputable def jointTest [DecidableEq k] [DecidableEq q] (d : Diag n k) (W : Matrix n n ℝ) (sel : q → k) : Option Test :=
  (lmSpDurbin d.reg W sel).map fun t => { t with df := Fintype.card k }

/-- `rlm_wx`, diagnostics_sp.py:796-819: degrees of freedom `reg.k - 1`. -/
noncomputable def robustWX [DecidableEq k] [DecidableEq q] (d : Diag n k) (W : Matrix n n ℝ) (sel : q → k) : Option Test :=
  (jointTest d W sel).map fun t => { stat := t.stat - (lmLag d.reg W).stat, df := d.kAttr - 1 }

/-- `lm_slxerr`, diagnostics_sp.py:844-865: degrees of freedom `reg.k`. -/
noncomputable def errWX [DecidableEq q] (d : Diag n k) (W : Matrix n n ℝ) (sel : q → k) : Option Test :=
  (wxTest d W sel).map fun t => { stat := (lmErr d.reg W).stat + t.stat, df := d.kAttr }

/-- Degrees of freedom printed beside the joint test, output.py:404-409: `reg.k`. -/
def jointPrinted (d : Diag n k) : ℕ := d.kAttr

/-- `get_eI`, diagnostics_sp.py:907-911, with `ols.k`. -/
noncomputable def meanI (d : Diag n k) (W : Matrix n n ℝ) : ℝ :=
  -((Fintype.card n : ℝ) * trA d.reg W) / (s0 W * ((Fintype.card n : ℝ) - d.kAttr))

/-- `get_vI`, diagnostics_sp.py:891-904, with `ols.k`. -/
noncomputable def varI (d : Diag n k) (W : Matrix n n ℝ) : ℝ :=
  let nn := (Fintype.card n : ℝ)
  let kk := (d.kAttr : ℝ)
  let A := (AB d.reg W).1
  let trA2 := ∑ i, (A * A) i i
  let B := (AB d.reg W).2
  let trB := (∑ i, B i i) * 4
  (nn ^ 2 / (s0 W ^ 2 * (nn - kk) * (nn - kk + 2))) *
    (s1 W + 2 * trA2 - trB - (2 * trA d.reg W ^ 2) / (nn - kk))

/-- The design with its constant, `np.hstack((np.ones((n, 1)), x))`, regimes.py:230, ols_regimes.py:571. -/
def withConst (x : Matrix n p ℝ) : Matrix n (Option p) ℝ := Matrix.of fun i j => j.elim 1 (x i)

/-- `OLS(y, x)`: `reg.k = x.shape[1]`, ols.py:124. -/
noncomputable def plain [DecidableEq k] (x : Matrix n k ℝ) (y : n → ℝ) : Option (Diag n k) :=
  (LM.reg x y).map fun r => ⟨r, Fintype.card k⟩

/-- The pooled regression of `OLS_Regimes`, ols_regimes.py:499-512, 539: `vary` says which columns vary over regimes,
`vary none` is `constant_regi == 'many'`. -/
noncomputable def pooled [DecidableEq ρ] [DecidableEq p] (x : Matrix n p ℝ) (y : n → ℝ) (g : n → ρ) (vary : Option p → Bool) :
    Option (Diag n (GM.RCol vary ρ)) :=
  plain (GM.frame g vary (withConst x)) y

/-- The variable of a column of the pooled design. -/
def varOf (vary : Option p → Bool) : GM.RCol vary ρ → Option p
  | .inl (v, _) => v.1
  | .inr v => v.1

/-- The columns with `var_type == 'x'` in the pooled table, regimes.py:220, 231, 441-497: all but the constants. -/
abbrev PooledX (vary : Option p → Bool) (ρ : Type) : Type := {c : GM.RCol vary ρ // (varOf vary c).isSome = true}

/-- One regression per regime, ols_regimes.py:625-664, with what `_get_spat_diag_props` adds, ols_regimes.py:682-690: residuals
and predictions of the regimes, the expanded design, the inverse of its cross product, and `reg.k = kr`, the number of columns
of one regime. `none` when one of the regressions or the inverse raises. -/
noncomputable def multi [DecidableEq ρ] [DecidableEq p] (x : Matrix n p ℝ) (y : n → ℝ) (g : n → ρ) :
    Option (Diag n (Option p × ρ)) :=
  let xc := withConst x
  let fit := fun r => ols (RegimesMat.sub xc g r) (RegimesMat.subv y g r)
  if h : ∀ r, (fit r).isSome = true then
    let fs := fun r => (fit r).get (h r)
    let X := RegimesMat.expand xc g
    (inv? (Xᵀ * X)).map fun xtxi =>
      { reg := ⟨X, y, { xtx := Xᵀ * X, xtxi := xtxi, betas := fun c => (fs c.2).betas c.1,
                        predy := fun i => (fs (g i)).predy ⟨i, rfl⟩, u := fun i => (fs (g i)).u ⟨i, rfl⟩ }⟩
        kAttr := Fintype.card (Option p) }
  else none

/-- The columns with `var_type == 'x'` when every regime has its own regression, ols_regimes.py:650-652: all but the first of
every regime. -/
abbrev MultiX (p ρ : Type) : Type := {c : Option p × ρ // c.1.isSome = true}

end Spreg.RegDiag
