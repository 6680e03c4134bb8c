import Verif.Model.Regimes
import Verif.Model.Chow
/-
Model of the regression classes that estimate one model per regime: `OLS_Regimes._ols_regimes_multi`,
`TSLS_Regimes._tsls_regimes_multi`, `GM_Lag_Regimes_Multi`, `ML_Lag_Regimes_Multi` and the `*_regimes_multi` methods of the spatial
error classes. The estimator of one regime is a parameter; only the number of its coefficients is fixed here.
-/
namespace Spreg.Multi
open Spreg Spreg.Regimes Spreg.Chow

/-- The attributes of a regime's own model that the assembling loop reads: `kb` coefficients and a `kv` by `kv` variance matrix. -/
structure RegRes (V : Type) where
  kb : ℕ
  kv : ℕ
  betas : ℕ → V
  vm : ℕ → ℕ → V
  u : List V
  predy : List V

/-- NumPy `a[lo:lo+len] = b` for a column `b` of `m` rows: `m` must be `len`, or 1 (broadcast); otherwise ValueError. -/
def setRows {V : Type} (lo len m : ℕ) (b a : ℕ → V) : Py (ℕ → V) :=
  if m = len then .ok fun i => if lo ≤ i ∧ i < lo + len then b (i - lo) else a i
  else if m = 1 then .ok fun i => if lo ≤ i ∧ i < lo + len then b 0 else a i
  else .error .valueError

/-- NumPy `a[lo:lo+len, lo:lo+len] = b` for an `m` by `m` array `b`. -/
def setBlock {V : Type} (lo len m : ℕ) (b a : ℕ → ℕ → V) : Py (ℕ → ℕ → V) :=
  if m = len then .ok fun i j => if (lo ≤ i ∧ i < lo + len) ∧ lo ≤ j ∧ j < lo + len then b (i - lo) (j - lo) else a i j
  else if m = 1 then .ok fun i j => if (lo ≤ i ∧ i < lo + len) ∧ lo ≤ j ∧ j < lo + len then b 0 0 else a i j
  else .error .valueError

/-- The assembled attributes. -/
structure Asm (V : Type) where
  betas : ℕ → V
  vm : ℕ → ℕ → V
  u : List V
  predy : List V

/-- The loop `for r in self.regimes_set` that fills `vm` and `betas`: ols_regimes.py:633-651, twosls_regimes.py:570-589,
twosls_sp_regimes.py:799-825, ml_lag_regimes.py:562-582, error_sp_regimes.py:459-474, 1054-1069, error_sp_hom_regimes.py:557-575,
1255-1273, error_sp_het_regimes.py:545-563, 1262-1280, ml_error_regimes.py:481-499. `kr` is the size of a block of `vm`, `kb` of a
block of `betas`, `c` the counter. -/
def fill {V : Type} (kr kb : ℕ) : ℕ → List (RegRes V) → (ℕ → V) × (ℕ → ℕ → V) → Py ((ℕ → V) × (ℕ → ℕ → V))
  | _, [], a => .ok a
  | c, m :: t, a => do
    let vm ← setBlock (c * kr) kr m.kv m.vm a.2
    let b ← setRows (c * kb) kb m.kb m.betas a.1
    fill kr kb (c + 1) t (b, vm)

/-- The classes with one model per regime. `combo` is the spatial lag added by the `GM_Combo*_Regimes` classes
(`add_lag != False`). -/
inductive Cls where
  | ols | tsls
  | gmError | gmEndogError (combo : Bool)
  | hhError | hhEndogError (combo : Bool)
  | mlError | mlLag | gmLag
  deriving DecidableEq

/-- Number of spatial lags among the coefficients of a class. -/
def Cls.nlag : Cls → ℕ
  | .gmEndogError true | .hhEndogError true | .mlLag | .gmLag => 1
  | _ => 0

/-- Length of the list `cols2regi` when the multi-regime method is called: with the constant for the error classes
(error_sp_regimes.py:324, 851-853, 984-986, error_sp_hom_regimes.py:369, 989-991, 1155-1157, error_sp_het_regimes.py:357, 972-974,
1160-1162, ml_error_regimes.py:330), without it for `OLS_Regimes`, `TSLS_Regimes` and the lag classes, which append one flag for the
spatial lag (twosls_sp_regimes.py:531-534, 551, ml_lag_regimes.py:363-366, 382). -/
def Cls.flags (cls : Cls) (kx ky : ℕ) : ℕ := match cls with
  | .ols => kx
  | .tsls => kx + ky
  | .gmError | .hhError | .mlError => 1 + kx
  | .gmEndogError cb | .hhEndogError cb => 1 + (kx + ky) + cb.toNat
  | .mlLag => kx + 1
  | .gmLag => kx + ky + 1

/-- `self.kr`: ols_regimes.py:614 and twosls_regimes.py:540 use the columns kept by `check_const_regi`; all the other classes use
`len(cols2regi)`: error_sp_regimes.py:438, 1035 (without lambda), error_sp_hom_regimes.py:536, 1228, error_sp_het_regimes.py:524, 1235,
ml_error_regimes.py:460 (lambda added), ml_lag_regimes.py:546, twosls_sp_regimes.py:769 (constant added). -/
def Cls.kr (cls : Cls) (kx ky kept : ℕ) : ℕ := match cls with
  | .ols => 1 + kept
  | .tsls => 1 + kept + ky
  | .gmError | .gmEndogError _ => cls.flags kx ky
  | _ => cls.flags kx ky + 1

/-- Rows of `self.betas` for one regime: `kr + 1` for `GM_Error_Regimes` and `GM_Endog_Error_Regimes`, whose variance matrix has no
row for lambda (error_sp_regimes.py:442, 1038), `kr` for the others. -/
def Cls.kb (cls : Cls) (kx ky kept : ℕ) : ℕ := match cls with
  | .gmError | .gmEndogError _ => cls.kr kx ky kept + 1
  | _ => cls.kr kx ky kept

/-- Number of rows of the variance matrix of a regime's own model with `kept` variables and the constant. -/
def Cls.ownV (cls : Cls) (ky kept : ℕ) : ℕ := match cls with
  | .ols | .gmError => 1 + kept
  | .tsls => 1 + kept + ky
  | .gmEndogError cb => 1 + kept + ky + cb.toNat
  | .hhError | .mlError | .mlLag => 1 + kept + 1
  | .hhEndogError cb => 1 + kept + ky + cb.toNat + 1
  | .gmLag => 1 + kept + ky + 1

/-- Number of coefficients of a regime's own model: `BaseGM_Error` and `BaseGM_Endog_Error` return lambda without a variance
(error_sp.py:97-107, 433-441). -/
def Cls.ownB (cls : Cls) (ky kept : ℕ) : ℕ := match cls with
  | .gmError | .gmEndogError _ => cls.ownV ky kept + 1
  | _ => cls.ownV ky kept

/-- What `_work*` returns for a regime has the number of coefficients of its class. -/
def Sized {V : Type} (cls : Cls) (ky kept : ℕ) (m : RegRes V) : Prop := m.kb = cls.ownB ky kept ∧ m.kv = cls.ownV ky kept

/-- The multi-regime methods: `check_const_regi`, one model per regime on the columns kept, then the assembling loop; returns the
names of the columns (`self.name_x_r`) and the attributes. `est r cols` stands for `_work*`. -/
def multi {L C V : Type} [DecidableEq L] [Zero V] (cls : Cls) (ky : ℕ) (isConst : List ℕ → C → Bool) (rs regimes : List L)
    (names : List String) (cols : List C) (est : L → List C → Py (RegRes V)) : Py (List String × Asm V) := do
  let p := checkConstRegi isConst (rs.map (regiIds regimes)) names cols
  let res ← rs.mapM fun r => est r p.2
  let a ← fill (cls.kr cols.length ky p.2.length) (cls.kb cols.length ky p.2.length) 0 res (fun _ => 0, fun _ _ => 0)
  let z := List.replicate regimes.length (0 : V)
  .ok ("CONSTANT" :: p.1,
    { betas := a.1, vm := a.2,
      u := scatter regimes (rs.zip (res.map (·.u))) z, predy := scatter regimes (rs.zip (res.map (·.predy))) z })

/-- `REGI.Chow(self)` of the assembled model, regimes.py:83-93: `kf = kryd = 0`. -/
noncomputable def multiChow (cls : Cls) (kx ky kept nr : ℕ) (a : Asm ℝ) : Py ChowRes :=
  chowRun (cls.kr kx ky kept) 0 0 nr ((List.range (nr * cls.kb kx ky kept)).map a.betas)
    (Matrix.of fun (i j : Fin (nr * cls.kr kx ky kept)) => a.vm i j)

end Spreg.Multi
