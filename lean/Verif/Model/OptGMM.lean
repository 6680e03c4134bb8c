import Verif.Model.Linear
/-
Model of the optimal-weighted GMM of the regimes classes (`robust="ogmm"`), twosls_regimes.py:700-725.
-/
namespace Spreg.OptGMM
open Matrix Spreg.Lin

variable {n k l : Type} [Fintype n] [Fintype k] [Fintype l]

/-- The attributes replaced by `_optimal_weight` (twosls_regimes.py:719, utils.py:791-815). `sig2 = none` stands for
the Boolean False that is stored there. -/
structure Fit (n k : Type) where
  betas : k → ℝ
  vm : Matrix k k ℝ
  predy : n → ℝ
  u : n → ℝ
  sig2 : Option ℝ

/-- The divisor: `n - k` if `sig2n_k`, else `n` (twosls_regimes.py:705-708). -/
def dof (n k : Type) [Fintype n] [Fintype k] (sig2n_k : Bool) : ℝ :=
  if sig2n_k then (Fintype.card n : ℝ) - Fintype.card k else Fintype.card n

/-- `_optimal_weight(reg, sig2n_k)`, twosls_regimes.py:700-719, for a regression with `z`, `h`, `y` and residuals `u`. A failing
inversion raises (`none`). -/
noncomputable def optimalWeight [DecidableEq k] [DecidableEq l] (z : Matrix n k ℝ) (h : Matrix n l ℝ) (y u : n → ℝ)
    (sig2n_k : Bool) : Option (Fit n k) :=
  let Hu := broadcast h fun i => u i ^ 2
  let S := (1 / dof n k sig2n_k) • (hᵀ * Hu)
  (inv? S).bind fun Si =>
    let ztH := zᵀ * h
    let ztHSi := ztH * Si
    (inv? (ztHSi * ztHᵀ)).map fun fac2 =>
      let fac3 := ztHSi *ᵥ (hᵀ *ᵥ y)
      let betas := fac2 *ᵥ fac3
      { betas := betas, vm := dof n k sig2n_k • fac2, predy := z *ᵥ betas, u := y - z *ᵥ betas, sig2 := none }

/-- `BaseTSLS` followed by `_optimal_weight`: twosls_regimes.py:443-453 (all regimes in one equation) and 676-682 (one regime),
twosls_sp_regimes.py:966-972. -/
noncomputable def ogmm [DecidableEq k] [DecidableEq l] (z : Matrix n k ℝ) (h : Matrix n l ℝ) (y : n → ℝ)
    (sig2n_k : Bool) : Option (Fit n k) :=
  (tslsZH z h y).bind fun f => optimalWeight z h y f.u sig2n_k

end Spreg.OptGMM
