import Verif.Props.SURUnits2
import Verif.Props.GMEquiv
/-
C162: SUR estimates do not depend on the order of observations, of equations, or on the units of regressors.
-/
set_option linter.unusedSectionVars false
namespace Spreg.SUR
open Matrix Spreg.Lin Spreg.Gauss

variable {m n S R : Type} [Fintype m] [Fintype n] [Fintype S] [Fintype R] [DecidableEq S] [DecidableEq R] {K : R → Type}
  [∀ r, Fintype (K r)]

/-- Other presentation of the same data: observation `i` of the new data is observation `σ i` of the old, equation `s` is
equation `ρ s`, and the regressors of equation `r` are replaced by `X_r T_r` with `T_r` invertible (a change of units or of
order of the columns, for instance). -/
structure Rec (m n S R : Type) (K : R → Type) [∀ r, Fintype (K r)] where
  σ : m ≃ n
  ρ : S ≃ R
  T : ∀ r, Matrix (K r) (K r) ℝ
  Ti : ∀ r, Matrix (K r) (K r) ℝ

/-- `Ti` is the inverse of `T`. -/
structure Rec.Ok [∀ r, DecidableEq (K r)] (t : Rec m n S R K) : Prop where
  hT : ∀ r, t.T r * t.Ti r = 1
  hTi : ∀ r, t.Ti r * t.T r = 1

namespace Rec
variable (t : Rec m n S R K)

/-- Regressors. -/
def x (X : ∀ r, Matrix n (K r) ℝ) : ∀ s, Matrix m (K (t.ρ s)) ℝ := fun s => Matrix.of fun i j => (X (t.ρ s) * t.T (t.ρ s)) (t.σ i) j
/-- Dependent variables. -/
def y (y : R → n → ℝ) : S → m → ℝ := fun s i => y (t.ρ s) (t.σ i)
/-- Residuals, fitted values. -/
def e (E : Matrix n R ℝ) : Matrix m S ℝ := Matrix.of fun i s => E (t.σ i) (t.ρ s)
/-- Spatial weights. -/
def w (W : Matrix n n ℝ) : Matrix m m ℝ := Matrix.of fun i j => W (t.σ i) (t.σ j)
/-- Covariances between equations. -/
def g (A : Matrix R R ℝ) : Matrix S S ℝ := Matrix.of fun s u => A (t.ρ s) (t.ρ u)
/-- Coefficients. -/
def b (b : ∀ r, K r → ℝ) : ∀ s, K (t.ρ s) → ℝ := fun s => t.Ti (t.ρ s) *ᵥ b (t.ρ s)
/-- The covariance matrix of the coefficients: block `(s, u)` is `Ti_{ρ s} V_{ρ s, ρ u} Ti_{ρ u}'`. -/
def v (V : Matrix (Stk K) (Stk K) ℝ) : Matrix (Stk fun s => K (t.ρ s)) (Stk fun s => K (t.ρ s)) ℝ := Matrix.of fun p q =>
  ∑ i, ∑ j, t.Ti (t.ρ p.1) p.2 i * V ⟨t.ρ p.1, i⟩ ⟨t.ρ q.1, j⟩ * t.Ti (t.ρ q.1) q.2 j
/-- Estimates. -/
def est (a : Est R K) : Est S fun s => K (t.ρ s) := { b := t.b a.b, varb := t.v a.varb, sig := t.g a.sig }

/-- Positions of the stacked coefficients. -/
def pos : (Stk fun s => K (t.ρ s)) ≃ Stk K := Equiv.sigmaCongrLeft t.ρ
end Rec

theorem inv?_submatrix {l k : Type} [Fintype l] [Fintype k] [DecidableEq l] [DecidableEq k] (e : l ≃ k) (A : Matrix k k ℝ) :
    inv? (A.submatrix e e) = (inv? A).map fun B => B.submatrix e e := by
  unfold inv?
  rw [det_submatrix_equiv_self]
  split
  · rw [Option.map_some, inv_submatrix_equiv]
  · rw [Option.map_none]

section block
variable {K' : R → Type} [∀ r, Fintype (K' r)]
theorem mul_block {l : Type} (M : Matrix l (Stk K) ℝ) (T : ∀ r, Matrix (K r) (K' r) ℝ) (p : l) (q : Stk K') :
    (M * blockDiagonal' T) p q = ∑ b, M p ⟨q.1, b⟩ * T q.1 b q.2 := by
  rw [Matrix.mul_apply, Fintype.sum_sigma, Finset.sum_eq_single q.1]
  · refine Finset.sum_congr rfl fun b _ => ?_
    rcases q with ⟨t, j⟩
    rw [blockDiagonal'_apply_eq]
  · intro r _ hr
    refine Finset.sum_eq_zero fun b _ => ?_
    rw [blockDiagonal'_apply_ne _ _ _ hr, mul_zero]
  · intro h; exact absurd (Finset.mem_univ _) h

theorem block_mul {l : Type} (M : Matrix (Stk K) l ℝ) (T : ∀ r, Matrix (K r) (K' r) ℝ) (p : Stk K') (q : l) :
    ((blockDiagonal' T)ᵀ * M) p q = ∑ a, T p.1 a p.2 * M ⟨p.1, a⟩ q := by
  have h := mul_block Mᵀ T q p
  rw [← Matrix.transpose_apply ((blockDiagonal' T)ᵀ * M) q p, transpose_mul, transpose_transpose, h]
  exact Finset.sum_congr rfl fun a _ => mul_comm _ _
end block

namespace Rec
variable (t : Rec m n S R K)

theorem v_eq (V : Matrix (Stk K) (Stk K) ℝ) :
    t.v V = (blockDiagonal' t.Ti * V * (blockDiagonal' t.Ti)ᵀ).submatrix t.pos t.pos := by
  ext p q
  have h : (blockDiagonal' t.Ti * V * (blockDiagonal' t.Ti)ᵀ) (t.pos p) (t.pos q) =
      ∑ a, ∑ b, t.Ti (t.ρ p.1) p.2 a * V ⟨t.ρ p.1, a⟩ ⟨t.ρ q.1, b⟩ * t.Ti (t.ρ q.1) q.2 b := by
    have e : blockDiagonal' t.Ti * V * (blockDiagonal' t.Ti)ᵀ =
        (blockDiagonal' fun r => (t.Ti r)ᵀ)ᵀ * (V * blockDiagonal' fun r => (t.Ti r)ᵀ) := by
      rw [← blockDiagonal'_transpose, transpose_transpose, Matrix.mul_assoc]
    rw [e, block_mul]
    refine Finset.sum_congr rfl fun a _ => ?_
    rw [mul_block, Finset.mul_sum]
    refine Finset.sum_congr rfl fun b _ => ?_
    simp only [transpose_apply]
    exact (mul_assoc _ _ _).symm
  exact h.symm

theorem resids (X : ∀ r, Matrix n (K r) ℝ) (y : R → n → ℝ) (b : ∀ r, K r → ℝ) [∀ r, DecidableEq (K r)] (ht : t.Ok) :
    surResids (t.y y) (t.x X) (t.b b) = t.e (surResids y X b) ∧ surPredict (t.x X) (t.b b) = t.e (surPredict X b) := by
  have key : ∀ s i, (t.x X s *ᵥ t.b b s) i = (X (t.ρ s) *ᵥ b (t.ρ s)) (t.σ i) := by
    intro s i
    have : (t.x X s *ᵥ t.b b s) i = ((X (t.ρ s) * t.T (t.ρ s)) *ᵥ (t.Ti (t.ρ s) *ᵥ b (t.ρ s))) (t.σ i) := rfl
    rw [this, mulVec_mulVec, Matrix.mul_assoc, ht.hT, Matrix.mul_one]
  constructor
  · ext i s
    simp only [surResids, e, Matrix.of_apply, key]; rfl
  · ext i s
    simp only [surPredict, e, Matrix.of_apply, key]

omit [Fintype S] [Fintype R] [DecidableEq S] [DecidableEq R] in
theorem crossXX_eq (X : ∀ r, Matrix n (K r) ℝ) (s u : S) :
    crossXX (t.x X) s u = (t.T (t.ρ s))ᵀ * crossXX X (t.ρ s) (t.ρ u) * t.T (t.ρ u) := by
  have : crossXX (t.x X) s u = (X (t.ρ s) * t.T (t.ρ s))ᵀ * (X (t.ρ u) * t.T (t.ρ u)) := by
    ext i j
    simp only [crossXX, Matrix.mul_apply, transpose_apply, x, Matrix.of_apply]
    exact t.σ.sum_comp fun a => (∑ j, X (t.ρ s) a j * t.T (t.ρ s) j i) * ∑ k, X (t.ρ u) a k * t.T (t.ρ u) k j
  rw [this, transpose_mul]
  simp only [crossXX, Matrix.mul_assoc]

omit [Fintype S] [Fintype R] [DecidableEq S] [DecidableEq R] in
theorem crossXy_eq (X : ∀ r, Matrix n (K r) ℝ) (y : R → n → ℝ) (s u : S) :
    crossXy (t.x X) (t.y y) s u = (t.T (t.ρ s))ᵀ *ᵥ crossXy X y (t.ρ s) (t.ρ u) := by
  have : crossXy (t.x X) (t.y y) s u = (X (t.ρ s) * t.T (t.ρ s))ᵀ *ᵥ y (t.ρ u) := by
    funext i
    simp only [crossXy, mulVec, dotProduct, transpose_apply, x, Matrix.of_apply, Rec.y]
    exact t.σ.sum_comp fun a => (X (t.ρ s) * t.T (t.ρ s)) a i * y (t.ρ u) a
  rw [this, transpose_mul, ← mulVec_mulVec]
  rfl

omit [DecidableEq S] [DecidableEq R] in
theorem sigOf_eq (E : Matrix n R ℝ) : sigOf (t.e E) = t.g (sigOf E) := by
  ext s u
  simp only [sigOf, Rec.e, g, Matrix.smul_apply, Matrix.mul_apply, transpose_apply, Matrix.of_apply, Fintype.card_congr t.σ]
  rw [t.σ.sum_comp fun a => E a (t.ρ s) * E a (t.ρ u)]

omit [Fintype m] [Fintype n] in
theorem inv?_g (A : Matrix R R ℝ) : inv? (t.g A) = (inv? A).map t.g := inv?_submatrix t.ρ A

variable [∀ r, DecidableEq (K r)]

theorem blocks (ht : t.Ok) : blockDiagonal' t.T * blockDiagonal' t.Ti = 1 ∧ blockDiagonal' t.Ti * blockDiagonal' t.T = 1 := by
  constructor
  · rw [← blockDiagonal'_mul]; simp only [ht.hT]; exact blockDiagonal'_one
  · rw [← blockDiagonal'_mul]; simp only [ht.hTi]; exact blockDiagonal'_one

theorem surEst_eq (ht : t.Ok) (X : ∀ r, Matrix n (K r) ℝ) (y : R → n → ℝ) (E : Matrix n R ℝ) :
    surEst (crossXX (t.x X)) (crossXy (t.x X) (t.y y)) (t.e E) = (surEst (crossXX X) (crossXy X y) E).map t.est := by
  unfold surEst
  dsimp only
  rw [sigOf_eq, inv?_g]
  rcases inv? (sigOf E) with _ | Qi
  · rw [Option.map_none, Option.bind_none, Option.bind_none, Option.map_none]
  rw [Option.map_some, Option.bind_some, Option.bind_some]
  set M : Matrix (Stk K) (Stk K) ℝ := Matrix.of fun p q : Stk K => (Matrix.of fun i j => crossXX X p.1 q.1 i j *
        Qi p.1 q.1 : Matrix (K p.1) (K q.1) ℝ) p.2 q.2 with hM
  have hx : (Matrix.of fun p q : Stk (fun s => K (t.ρ s)) => (Matrix.of fun i j => crossXX (t.x X) p.1 q.1 i j *
        t.g Qi p.1 q.1 : Matrix (K (t.ρ p.1)) (K (t.ρ q.1)) ℝ) p.2 q.2 : Matrix _ _ ℝ) =
      ((blockDiagonal' t.T)ᵀ * M * blockDiagonal' t.T).submatrix t.pos t.pos := by
    ext p q
    have h : ((blockDiagonal' t.T)ᵀ * M * blockDiagonal' t.T) (t.pos p) (t.pos q) =
        ∑ a, t.T (t.ρ p.1) a p.2 * ∑ b, M ⟨t.ρ p.1, a⟩ ⟨t.ρ q.1, b⟩ * t.T (t.ρ q.1) b q.2 := by
      rw [Matrix.mul_assoc, block_mul]
      refine Finset.sum_congr rfl fun a _ => ?_
      rw [mul_block]; rfl
    rw [submatrix_apply, h]
    simp only [Matrix.of_apply, crossXX_eq, hM, g]
    rw [Matrix.mul_assoc, Matrix.mul_apply, Finset.sum_mul]
    refine Finset.sum_congr rfl fun a _ => ?_
    rw [Matrix.mul_apply, transpose_apply, mul_assoc, Finset.sum_mul]
    refine congrArg _ (Finset.sum_congr rfl fun b _ => by ring)
  rw [hx, inv?_submatrix, GM.inv?_conj _ _ _ (t.blocks ht).1 (t.blocks ht).2]
  rcases inv? M with _ | V
  · rw [Option.map_none, Option.map_none, Option.map_none, Option.map_none, Option.map_none]
  rw [Option.map_some, Option.map_some, Option.map_some, Option.map_some, Option.map_some]
  congr 1
  have hy : (fun p : Stk (fun s => K (t.ρ s)) => ∑ u, t.g Qi p.1 u * crossXy (t.x X) (t.y y) p.1 u p.2) =
      fun p => ((blockDiagonal' t.T)ᵀ *ᵥ fun p : Stk K => ∑ u, Qi p.1 u * crossXy X y p.1 u p.2) (t.pos p) := by
    funext p
    have h := block_mul (Matrix.of fun (p : Stk K) (_ : Unit) => ∑ u, Qi p.1 u * crossXy X y p.1 u p.2) t.T (t.pos p) ()
    have h' : ((blockDiagonal' t.T)ᵀ *ᵥ fun p : Stk K => ∑ u, Qi p.1 u * crossXy X y p.1 u p.2) (t.pos p) =
        ((blockDiagonal' t.T)ᵀ * (Matrix.of fun (p : Stk K) (_ : Unit) => ∑ u, Qi p.1 u * crossXy X y p.1 u p.2)) (t.pos p) () := rfl
    rw [h', h]
    simp only [crossXy_eq, g, Matrix.of_apply]
    rw [t.ρ.sum_comp fun u => Qi (t.ρ p.1) u * ((t.T (t.ρ p.1))ᵀ *ᵥ crossXy X y (t.ρ p.1) u) p.2]
    simp only [mulVec, dotProduct, Finset.mul_sum, transpose_apply]
    rw [Finset.sum_comm]
    refine Finset.sum_congr rfl fun a _ => Finset.sum_congr rfl fun u _ => ?_
    change _ = t.T (t.ρ p.1) a p.2 * (Qi (t.ρ p.1) u * crossXy X y (t.ρ p.1) u a)
    ring
  unfold est
  congr 1
  · rw [hy]
    funext s i
    have e1 : ((blockDiagonal' t.Ti * V * (blockDiagonal' t.Ti)ᵀ).submatrix t.pos t.pos *ᵥ
        fun p => ((blockDiagonal' t.T)ᵀ *ᵥ fun p : Stk K => ∑ u, Qi p.1 u * crossXy X y p.1 u p.2) (t.pos p)) =
      fun p => ((blockDiagonal' t.Ti * V * (blockDiagonal' t.Ti)ᵀ) *ᵥ ((blockDiagonal' t.T)ᵀ *ᵥ
        fun p : Stk K => ∑ u, Qi p.1 u * crossXy X y p.1 u p.2)) (t.pos p) :=
      GM.subσ_mulVec t.pos (f := t.pos) _ _
    have e2 : (blockDiagonal' t.Ti)ᵀ * (blockDiagonal' t.T)ᵀ = 1 := by
      rw [← transpose_mul, (t.blocks ht).1, transpose_one]
    rw [e1, mulVec_mulVec, Matrix.mul_assoc, Matrix.mul_assoc, e2, Matrix.mul_one, ← mulVec_mulVec]
    have e3 := block_mul (Matrix.of fun (p : Stk K) (_ : Unit) => (V *ᵥ fun p : Stk K => ∑ u, Qi p.1 u * crossXy X y p.1 u p.2) p)
      (fun r => (t.Ti r)ᵀ) (t.pos ⟨s, i⟩) ()
    rw [← blockDiagonal'_transpose, transpose_transpose] at e3
    exact e3
  · rw [v_eq]

theorem eqByEq_eq (ht : t.Ok) (X : ∀ r, Matrix n (K r) ℝ) (y : R → n → ℝ) :
    eqByEq (crossXX (t.x X)) (crossXy (t.x X) (t.y y)) = (eqByEq (crossXX X) (crossXy X y)).map t.b := by
  have hu : ∀ r, IsUnit (t.T r).det := fun r =>
    (Matrix.isUnit_iff_isUnit_det _).1 ⟨⟨t.T r, t.Ti r, ht.hT r, ht.hTi r⟩, rfl⟩
  have hd : ∀ s, IsUnit (crossXX (t.x X) s s).det ↔ IsUnit (crossXX X (t.ρ s) (t.ρ s)).det := by
    intro s
    rw [crossXX_eq, det_mul, det_mul, det_transpose, IsUnit.mul_iff, IsUnit.mul_iff]
    exact ⟨fun h => h.1.2, fun h => ⟨⟨hu _, h⟩, hu _⟩⟩
  unfold eqByEq
  by_cases h : ∀ r, IsUnit (crossXX X r r).det
  · rw [if_pos h, if_pos fun s => (hd s).2 (h _), Option.map_some]
    refine congrArg some ?_
    funext s
    have hc := GM.inv?_conj (t.T (t.ρ s)) (t.Ti (t.ρ s)) (crossXX X (t.ρ s) (t.ρ s)) (ht.hT _) (ht.hTi _)
    rw [inv?_of_isUnit (h _), ← crossXX_eq, inv?_of_isUnit ((hd s).2 (h _)), Option.map_some] at hc
    rw [Option.some.inj hc, crossXy_eq]
    have e2 : (t.Ti (t.ρ s))ᵀ * (t.T (t.ρ s))ᵀ = 1 := by rw [← transpose_mul, ht.hT, transpose_one]
    rw [mulVec_mulVec, Matrix.mul_assoc, e2, Matrix.mul_one, ← mulVec_mulVec]
    rfl
  · rw [if_neg h, if_neg fun h' => h fun r => ?_, Option.map_none]
    have := (hd (t.ρ.symm r)).1 (h' _)
    rwa [t.ρ.apply_symm_apply] at this

/-- State of the iterations. -/
def st (s : St n R K) : St m S fun s => K (t.ρ s) :=
  { est := t.est s.est, resids := t.e s.resids, det0 := s.det0, det1 := s.det1, niter := s.niter }

/-- Results of `BaseSUR`. -/
def fit (f : Fit n R K) : Fit m S fun s => K (t.ρ s) :=
  { est := t.est f.est, bOLS := t.b f.bOLS, sigOLS := t.g f.sigOLS, bigE := t.e f.bigE, bigYP := t.e f.bigYP,
    ldetS0 := f.ldetS0, ldetS1 := f.ldetS1, niter := f.niter, llik := f.llik }

omit [Fintype m] [Fintype n] [∀ r, DecidableEq (K r)] in
theorem slogdet_g (A : Matrix R R ℝ) : slogdet (t.g A) = slogdet A := by
  unfold slogdet
  have : (t.g A).det = A.det := det_submatrix_equiv_self t.ρ A
  rw [this]

theorem start_eq (ht : t.Ok) (X : ∀ r, Matrix n (K r) ℝ) (y : R → n → ℝ) :
    surStart (t.x X) (t.y y) = (surStart X y).map fun p => (t.b p.1, t.st p.2) := by
  unfold surStart
  rw [t.eqByEq_eq ht]
  rcases eqByEq (crossXX X) (crossXy X y) with _ | b
  · rw [Option.map_none, Option.bind_none, Option.bind_none, Option.map_none]
  rw [Option.map_some, Option.bind_some, Option.bind_some, (t.resids X y b ht).1, t.surEst_eq ht]
  rcases he : surEst (crossXX X) (crossXy X y) (surResids y X b) with _ | e
  · rw [Option.map_none, Option.map_none, Option.map_none, Option.map_none]
  rw [Option.map_some, Option.map_some, Option.map_some, Option.map_some]
  refine congrArg some (Prod.ext rfl ?_)
  dsimp only [st]
  rw [St.mk.injEq]
  refine ⟨rfl, (t.resids X y e.b ht).1, ?_, t.slogdet_g _, rfl⟩
  exact t.ρ.sum_comp fun r => Real.log (e.sig r r)

theorem loop_eq (ht : t.Ok) (X : ∀ r, Matrix n (K r) ℝ) (y : R → n → ℝ) (eps : ℝ) (mx : ℕ) (s : St n R K) :
    surLoop (t.x X) (t.y y) eps mx (t.st s) = (surLoop X y eps mx s).map t.st := by
  induction hm : mx + 1 - s.niter using Nat.strong_induction_on generalizing s with
  | _ k ih =>
    rw [surLoop, surLoop]
    have h1 : (t.st s).det1 - (t.st s).det0 = s.det1 - s.det0 := rfl
    have h2 : (t.st s).niter = s.niter := rfl
    rw [h1, h2]
    split
    · next hcnd =>
      have h3 : (t.st s).resids = t.e s.resids := rfl
      rw [h3, t.surEst_eq ht]
      rcases he : surEst (crossXX X) (crossXy X y) s.resids with _ | e
      · rw [Option.map_none, Option.bind_none, Option.bind_none, Option.map_none]
      rw [Option.map_some, Option.bind_some, Option.bind_some]
      rw [← ih (mx + 1 - (s.niter + 1)) (by omega) _ rfl]
      refine congrArg (surLoop (t.x X) (t.y y) eps mx) ?_
      dsimp only [st]
      rw [St.mk.injEq]
      exact ⟨rfl, (t.resids X y e.b ht).1, rfl, t.slogdet_g _, rfl⟩
    · rfl

theorem base_eq (ht : t.Ok) (X : ∀ r, Matrix n (K r) ℝ) (y : R → n → ℝ) (iter : Bool) (mx : ℕ) (eps : ℝ) :
    baseSUR (t.x X) (t.y y) iter mx eps = (baseSUR X y iter mx eps).map t.fit := by
  unfold baseSUR
  rw [t.start_eq ht]
  rcases surStart X y with _ | ⟨b, s0⟩
  · rw [Option.map_none, Option.bind_none, Option.bind_none, Option.map_none]
  rw [Option.map_some, Option.bind_some, Option.bind_some]
  dsimp only
  cases iter with
  | true =>
    simp only [if_true]
    rw [t.loop_eq ht, Option.map_map, Option.map_map]
    rcases surLoop X y eps mx s0 with _ | s
    · rw [Option.map_none, Option.map_none]
    rw [Option.map_some, Option.map_some]
    refine congrArg some ?_
    simp only [Function.comp, fit, st]
    rw [Fit.mk.injEq]
    exact ⟨rfl, rfl, rfl, (t.resids X y s.est.b ht).1, (t.resids X y s.est.b ht).2, rfl, rfl, rfl,
      by rw [Fintype.card_congr t.σ, Fintype.card_congr t.ρ]⟩
  | false =>
    simp only [Bool.false_eq_true, if_false, Option.map_some]
    refine congrArg some ?_
    simp only [fit, st]
    rw [Fit.mk.injEq]
    exact ⟨rfl, rfl, rfl, rfl, (t.resids X y s0.est.b ht).2, rfl, rfl, rfl,
      by rw [Fintype.card_congr t.σ, Fintype.card_congr t.ρ]⟩
end Rec
end Spreg.SUR
