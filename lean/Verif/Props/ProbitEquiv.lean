import Verif.Model.Probit
import Verif.Props.Probit
import Verif.Props.Probit3
import Verif.Props.GMEquiv
/-
C161: probit results do not depend on the order of the observations, the units and origins of the regressors, nor on which of the
two outcomes is coded 1.
-/
namespace Spreg.Probit
open Matrix Spreg Spreg.Lin Spreg.GM

variable {m n k s : Type} [Fintype m] [Fintype n] [Fintype k] [Fintype s]

/-- The data with observations in another order and regressors in another basis. -/
def newX (σ : m ≃ n) (T : Matrix k k ℝ) (x : Matrix n k ℝ) : Matrix m k ℝ := x.submatrix σ id * T

theorem newX_mulVec {σ : m ≃ n} {T Ti : Matrix k k ℝ} [DecidableEq k] (hT : T * Ti = 1) (x : Matrix n k ℝ) (b : k → ℝ) (i : m) :
    (newX σ T x *ᵥ (Ti *ᵥ b)) i = (x *ᵥ b) (σ i) := by
  unfold newX
  rw [mulVec_mulVec, Matrix.mul_assoc, hT, Matrix.mul_one]
  rfl

theorem ll_new [DecidableEq k] {σ : m ≃ n} {T Ti : Matrix k k ℝ} (hT : T * Ti = 1) (x : Matrix n k ℝ) (y : n → ℝ) (b : k → ℝ) :
    ll (newX σ T x) (fun i => y (σ i)) (Ti *ᵥ b) = ll x y b := by
  unfold ll sgn
  simp only [newX_mulVec hT]
  exact Equiv.sum_comp σ fun i => Real.log (Phi ((2 * y i - 1) * (x *ᵥ b) i))

theorem lamb_new [DecidableEq k] {σ : m ≃ n} {T Ti : Matrix k k ℝ} (hT : T * Ti = 1) (x : Matrix n k ℝ) (y : n → ℝ) (b : k → ℝ) :
    lamb (newX σ T x) (fun i => y (σ i)) (Ti *ᵥ b) = fun i => lamb x y b (σ i) := by
  funext i
  unfold lamb sgn
  simp only [newX_mulVec hT]

theorem gradient_new [DecidableEq k] {σ : m ≃ n} {T Ti : Matrix k k ℝ} (hT : T * Ti = 1) (x : Matrix n k ℝ) (y : n → ℝ) (b : k → ℝ) :
    gradient (newX σ T x) (fun i => y (σ i)) (Ti *ᵥ b) = Tᵀ *ᵥ gradient x y b := by
  unfold gradient
  rw [lamb_new hT, newX, ← vecMul_vecMul, mulVec_transpose]
  congr 1
  funext j
  simp only [vecMul, dotProduct, submatrix_apply, id]
  exact Equiv.sum_comp σ fun i => lamb x y b i * x i j

theorem hessian_new [DecidableEq k] {σ : m ≃ n} {T Ti : Matrix k k ℝ} (hT : T * Ti = 1) (x : Matrix n k ℝ) (y : n → ℝ) (b : k → ℝ) :
    hessian (newX σ T x) (fun i => y (σ i)) (Ti *ᵥ b) = Tᵀ * hessian x y b * T := by
  unfold hessian
  rw [lamb_new hT]
  have e : (Matrix.of fun (i : m) j => newX σ T x i j * (-(lamb x y b (σ i)) * (lamb x y b (σ i) + (newX σ T x *ᵥ (Ti *ᵥ b)) i))) =
      (Matrix.of fun i j => x i j * (-(lamb x y b i) * (lamb x y b i + (x *ᵥ b) i))).submatrix σ id * T := by
    ext i j
    simp only [newX_mulVec hT, of_apply]
    simp only [newX, mul_apply, submatrix_apply, id, of_apply, Finset.sum_mul]
    exact Finset.sum_congr rfl fun l _ => by ring
  rw [e]
  unfold newX
  rw [transpose_mul, Matrix.mul_assoc, Matrix.mul_assoc, ← Matrix.mul_assoc _ _ T]
  congr 2
  exact sub_mul_sub σ xᵀ _

/-- The whole path of Newton's method in the new data is the old path in the new basis. -/
theorem newtonLoop_new [DecidableEq k] {T Ti : Matrix k k ℝ} (hT : T * Ti = 1) (hTi : Ti * T = 1) {fg fg' : (k → ℝ) → k → ℝ}
    {fh fh' : (k → ℝ) → Matrix k k ℝ} (hg : ∀ b, fg' (Ti *ᵥ b) = Tᵀ *ᵥ fg b) (hh : ∀ b, fh' (Ti *ᵥ b) = Tᵀ * fh b * T)
    (r : ℕ) : ∀ (mm : ℝ) (b : k → ℝ), newtonLoop fg' fh' r mm (Ti *ᵥ b) =
      (newtonLoop fg fh r mm b).map fun p => (Ti *ᵥ p.1, p.2.1, p.2.2) := by
  induction r with
  | zero => intro mm b; rfl
  | succ r ih =>
    intro mm b
    unfold newtonLoop
    split_ifs with hm
    swap; · rfl
    rw [hh, inv?_conj T Ti _ hT hTi]
    cases hi : inv? (fh b) with
    | none => rfl
    | some B =>
      have hT' : Tiᵀ * Tᵀ = 1 := by rw [← transpose_mul, hT, transpose_one]
      have hs : -(Ti * B * Tiᵀ) *ᵥ fg' (Ti *ᵥ b) = Ti *ᵥ (-B *ᵥ fg b) := by
        rw [hg, mulVec_mulVec, Matrix.neg_mul, Matrix.mul_assoc _ Tiᵀ, hT', Matrix.mul_one, mulVec_mulVec, Matrix.mul_neg]
      have hd : fg' (Ti *ᵥ b) ⬝ᵥ (Ti *ᵥ (-B *ᵥ fg b)) = fg b ⬝ᵥ (-B *ᵥ fg b) := by
        rw [hg, dotProduct_mulVec, ← mulVec_transpose, mulVec_mulVec, hT', one_mulVec]
      simp only [Option.map_some]
      rw [hs, hd, ← mulVec_add, ih]
      cases newtonLoop fg fh r (fg b ⬝ᵥ (-B *ᵥ fg b)) (b + -B *ᵥ fg b) <;> rfl

/-- The argument `optim` for the new data: results of the SciPy optimisers are taken to be those of the old data in the new
basis. -/
def Optim.to (Ti : Matrix k k ℝ) : Optim k → Optim k
  | .newton => .newton
  | .bfgs r => .bfgs (r.map fun p => (Ti *ᵥ p.1, p.2.1, p.2.2))
  | .ncg r => .ncg (r.map fun p => (Ti *ᵥ p.1, p.2.1, p.2.2))
  | .other => .other

theorem startVal_new [DecidableEq k] {σ : m ≃ n} {T Ti : Matrix k k ℝ} (hT : T * Ti = 1) (hTi : Ti * T = 1) (x : Matrix n k ℝ)
    (y : n → ℝ) (bs : Option (k → ℝ)) :
    startVal (newX σ T x) (fun i => y (σ i)) (bs.map (Ti *ᵥ ·)) = (startVal x y bs).map (Ti *ᵥ ·) := by
  cases bs with
  | some b => rfl
  | none =>
    unfold startVal
    simp only [Option.map_none]
    have e : (newX σ T x)ᵀ * newX σ T x = Tᵀ * (xᵀ * x) * T := by
      unfold newX
      rw [transpose_mul, Matrix.mul_assoc, ← Matrix.mul_assoc _ _ T, Matrix.mul_assoc Tᵀ]
      congr 2
      exact sub_mul_sub σ xᵀ x
    have e2 : (newX σ T x)ᵀ *ᵥ (fun i => y (σ i)) = Tᵀ *ᵥ (xᵀ *ᵥ y) := by
      unfold newX
      rw [transpose_mul, ← mulVec_mulVec]
      congr 1
      exact subσ_mulVec σ xᵀ id y
    rw [e, inv?_conj T Ti _ hT hTi, e2]
    cases inv? (xᵀ * x) with
    | none => rfl
    | some B =>
      have hT' : Tiᵀ * Tᵀ = 1 := by rw [← transpose_mul, hT, transpose_one]
      simp only [Option.map_some, Except.map]
      rw [mulVec_mulVec _ _ Tᵀ, Matrix.mul_assoc _ Tiᵀ, hT', Matrix.mul_one, ← mulVec_mulVec _ Ti]

theorem parEst_new [DecidableEq k] {σ : m ≃ n} {T Ti : Matrix k k ℝ} (hT : T * Ti = 1) (hTi : Ti * T = 1) (x : Matrix n k ℝ)
    (y : n → ℝ) (o : Optim k) (bs : Option (k → ℝ)) (mi : ℕ) :
    parEst (newX σ T x) (fun i => y (σ i)) (o.to Ti) (bs.map (Ti *ᵥ ·)) mi =
      (parEst x y o bs mi).map fun p => ((Ti *ᵥ p.1.1, p.1.2), p.2) := by
  unfold parEst
  rw [startVal_new hT hTi]
  cases startVal x y bs with
  | error e => rfl
  | ok b =>
    cases o with
    | other => rfl
    | bfgs r => cases r <;> rfl
    | ncg r => cases r <;> rfl
    | newton =>
      simp only [Except.map, bind, Except.bind, Optim.to, newton, newtonLoop_new hT hTi (gradient_new hT x y) (hessian_new hT x y)]
      cases newtonLoop (gradient x y) (hessian x y) mi 1 b with
      | error e => rfl
      | ok p => simp only [pure, Except.pure]; rw [ll_new hT]

/-- The results in the new data: coefficients and their covariance in the new basis, everything by observation in the new
order. -/
def Fit.to (σ : m ≃ n) (Ti : Matrix k k ℝ) (f : Fit n k) : Fit m k :=
  { betas := Ti *ᵥ f.betas, warning := f.warning, logl := f.logl, vm := Ti * f.vm * Tiᵀ, xb := fun i => f.xb (σ i)
    predy := fun i => f.predy (σ i), predybin := fun i => f.predybin (σ i), phiy := fun i => f.phiy (σ i)
    uNaive := fun i => f.uNaive (σ i), uGen := fun i => f.uGen (σ i) }

/-- C161: the whole fit, including its exceptions, for every invertible change of basis of the regressors and every order of the
observations. -/
theorem C161_basis [DecidableEq k] (σ : m ≃ n) (T Ti : Matrix k k ℝ) (hT : T * Ti = 1) (hTi : Ti * T = 1) (x : Matrix n k ℝ)
    (y : n → ℝ) (o : Optim k) (bs : Option (k → ℝ)) (mi : ℕ) :
    baseProbit (newX σ T x) (fun i => y (σ i)) (o.to Ti) (bs.map (Ti *ᵥ ·)) mi = (baseProbit x y o bs mi).map (Fit.to σ Ti) := by
  rename_i inst
  obtain rfl : inst = fun a b => Classical.propDecidable (a = b) := Subsingleton.elim _ _
  classical
  unfold baseProbit
  rw [parEst_new hT hTi]
  cases parEst x y o bs mi with
  | error e => rfl
  | ok p =>
    simp only [Except.map, bind, Except.bind]
    rw [hessian_new hT, inv?_conj T Ti _ hT hTi]
    cases inv? (hessian x y p.1.1) with
    | none => rfl
    | some B =>
      simp only [Option.map_some, pure, Except.pure, Fit.to, newX_mulVec hT]
      have e1 : newX σ T x *ᵥ (Ti *ᵥ p.1.1) = fun i => (x *ᵥ p.1.1) (σ i) := funext fun i => newX_mulVec hT x p.1.1 i
      rw [e1, Matrix.mul_neg, Matrix.neg_mul]

/-! ### Units, origins, order: the reported results -/

/-- Specification: the same data with the observations in the order `σ` and regressor `j` measured as `a j + c j * x`. -/
def Remeasured (σ : m ≃ n) (a c : s → ℝ) (x : Matrix n (Unit ⊕ s) ℝ) (x' : Matrix m (Unit ⊕ s) ℝ) : Prop :=
  (∀ i, x i (.inl ()) = 1) ∧ (∀ i, x' i (.inl ()) = 1) ∧ ∀ i j, x' i (.inr j) = a j + c j * x (σ i) (.inr j)

/-- Specification: coefficient vectors of the two parametrisations describe the same linear index. -/
def SameIndex (a c : s → ℝ) (b b' : Unit ⊕ s → ℝ) : Prop :=
  (∀ j, b' (.inr j) = b (.inr j) / c j) ∧ b' (.inl ()) = b (.inl ()) - ∑ j, a j / c j * b (.inr j)

/-- Change of basis of a remeasurement. -/
def tMat [DecidableEq s] (a c : s → ℝ) : Matrix (Unit ⊕ s) (Unit ⊕ s) ℝ :=
  fromBlocks 1 (Matrix.of fun _ j => a j) 0 (diagonal c)

/-- Its inverse. -/
noncomputable def tInv [DecidableEq s] (a c : s → ℝ) : Matrix (Unit ⊕ s) (Unit ⊕ s) ℝ :=
  fromBlocks 1 (Matrix.of fun _ j => -(a j / c j)) 0 (diagonal fun j => 1 / c j)

theorem tMat_inv [DecidableEq s] {a c : s → ℝ} (hc : ∀ j, c j ≠ 0) : tMat a c * tInv a c = 1 := by
  unfold tMat tInv
  rw [fromBlocks_multiply, ← fromBlocks_one]
  congr 1
  · simp
  · ext i j
    simp [mul_diagonal]
    ring
  · simp
  · rw [Matrix.zero_mul, zero_add, diagonal_mul_diagonal, ← diagonal_one]
    congr 1
    funext j
    field_simp [hc j]

theorem newX_tMat [DecidableEq s] {σ : m ≃ n} {a c : s → ℝ} {x : Matrix n (Unit ⊕ s) ℝ} {x' : Matrix m (Unit ⊕ s) ℝ}
    (h : Remeasured σ a c x x') : x' = newX σ (tMat a c) x := by
  obtain ⟨h1, h2, h3⟩ := h
  ext i j
  unfold newX tMat
  rw [mul_apply, Fintype.sum_sum_type]
  rcases j with j | j
  · simp [h1, h2]
  · simp [h1, h3, diagonal_apply]
    ring

theorem tInv_inl [DecidableEq s] (a c : s → ℝ) (b : Unit ⊕ s → ℝ) :
    (tInv a c *ᵥ b) (.inl ()) = b (.inl ()) - ∑ j, a j / c j * b (.inr j) := by
  unfold tInv
  rw [mulVec, dotProduct, Fintype.sum_sum_type]
  simp [sub_eq_add_neg]

theorem tInv_inr [DecidableEq s] (a c : s → ℝ) (b : Unit ⊕ s → ℝ) (j : s) : (tInv a c *ᵥ b) (.inr j) = b (.inr j) / c j := by
  unfold tInv
  rw [mulVec, dotProduct, Fintype.sum_sum_type]
  simp [diagonal_apply]
  ring

theorem sameIndex_iff [DecidableEq s] (a c : s → ℝ) (b b' : Unit ⊕ s → ℝ) : SameIndex a c b b' ↔ b' = tInv a c *ᵥ b := by
  constructor
  · rintro ⟨h1, h2⟩
    funext j
    rcases j with ⟨⟩ | j
    · rw [tInv_inl, h2]
    · rw [tInv_inr, h1]
  · rintro rfl
    exact ⟨fun j => tInv_inr a c b j, tInv_inl a c b⟩

theorem tInv_conj [DecidableEq s] (a c : s → ℝ) (V : Matrix (Unit ⊕ s) (Unit ⊕ s) ℝ) (i j : s) :
    (tInv a c * V * (tInv a c)ᵀ) (.inr i) (.inr j) = V (.inr i) (.inr j) / (c i * c j) := by
  rw [← V.fromBlocks_toBlocks]
  unfold tInv
  rw [fromBlocks_transpose, fromBlocks_multiply, fromBlocks_multiply, fromBlocks_apply₂₂]
  simp only [transpose_zero, Matrix.zero_mul, Matrix.mul_zero, zero_add, diagonal_transpose, fromBlocks_apply₂₂]
  rw [mul_diagonal, diagonal_mul]
  ring

/-- Specification: results of the two runs. Fitted values, residuals and likelihood are those of the same observations, slopes and
their covariances are those in the new units. -/
structure SameFit (σ : m ≃ n) (a c : s → ℝ) (f : Fit n (Unit ⊕ s)) (f' : Fit m (Unit ⊕ s)) : Prop where
  betas : SameIndex a c f.betas f'.betas
  vm : ∀ i j, f'.vm (.inr i) (.inr j) = f.vm (.inr i) (.inr j) / (c i * c j)
  warning : f'.warning = f.warning
  logl : f'.logl = f.logl
  xb : ∀ i, f'.xb i = f.xb (σ i)
  predy : ∀ i, f'.predy i = f.predy (σ i)
  predybin : ∀ i, f'.predybin i = f.predybin (σ i)
  phiy : ∀ i, f'.phiy i = f.phiy (σ i)
  uNaive : ∀ i, f'.uNaive i = f.uNaive (σ i)
  uGen : ∀ i, f'.uGen i = f.uGen (σ i)

/-- Starting values in the new units. -/
def SameStart (a c : s → ℝ) : Option (Unit ⊕ s → ℝ) → Option (Unit ⊕ s → ℝ) → Prop
  | none, none => True
  | some b, some b' => SameIndex a c b b'
  | _, _ => False

/-- C161: Newton's method. If the probit model can be fitted in the old units it can be fitted in the new ones, with the same
results, and the other way round; if it raises, it raises the same. -/
theorem C161_units [DecidableEq s] (σ : m ≃ n) (a c : s → ℝ) (hc : ∀ j, c j ≠ 0) (x : Matrix n (Unit ⊕ s) ℝ)
    (x' : Matrix m (Unit ⊕ s) ℝ) (y : n → ℝ) (y' : m → ℝ) (hx : Remeasured σ a c x x') (hy : ∀ i, y' i = y (σ i))
    (bs bs' : Option (Unit ⊕ s → ℝ)) (hb : SameStart a c bs bs') (mi : ℕ) :
    match baseProbit x y .newton bs mi, baseProbit x' y' .newton bs' mi with
    | .ok f, .ok f' => SameFit σ a c f f'
    | .error e, .error e' => e' = e
    | _, _ => False := by
  obtain rfl := newX_tMat hx
  obtain rfl : y' = fun i => y (σ i) := funext hy
  obtain rfl : bs' = bs.map (tInv a c *ᵥ ·) := by
    cases bs <;> cases bs' <;> simp only [SameStart] at hb
    · rfl
    · rw [(sameIndex_iff a c _ _).1 hb]; rfl
  have hT := tMat_inv (a := a) hc
  have e := C161_basis σ (tMat a c) (tInv a c) hT (mul_eq_one_comm.1 hT) x y .newton bs mi
  rw [show Optim.to (tInv a c) (.newton : Optim (Unit ⊕ s)) = .newton from rfl] at e
  rw [e]
  cases baseProbit x y .newton bs mi with
  | error e => exact rfl
  | ok f =>
    exact ⟨(sameIndex_iff a c _ _).2 rfl, tInv_conj a c f.vm, rfl, rfl, fun _ => rfl, fun _ => rfl, fun _ => rfl, fun _ => rfl,
      fun _ => rfl, fun _ => rfl⟩

theorem xmean_new {σ : m ≃ n} (T : Matrix k k ℝ) (x : Matrix n k ℝ) : xmean (newX σ T x) = Tᵀ *ᵥ xmean x := by
  funext j
  unfold xmean newX
  rw [Fintype.card_congr σ]
  simp only [mulVec, dotProduct, transpose_apply, mul_apply, submatrix_apply, id]
  rw [Finset.sum_comm, Finset.sum_div]
  refine Finset.sum_congr rfl fun l _ => ?_
  rw [← Finset.sum_mul, Equiv.sum_comp σ fun i => x i l]
  ring

/-- The effects for a given scale. -/
noncomputable def apeOf [DecidableEq s] (sc : ℝ) (x : Matrix n (Unit ⊕ s) ℝ) (f : Fit n (Unit ⊕ s)) : Ape s :=
  let D := 1 - (xmean x ⬝ᵥ f.betas) • Matrix.of fun i j => f.betas i * xmean x j
  let vm := sc ^ 2 • (D * f.vm * Dᵀ)
  { scale := sc, slopes := fun j => f.betas (.inr j) * sc, vm := Matrix.of fun i j => vm (.inr i) (.inr j)
    stdErr := fun j => Real.sqrt (vm (.inr j) (.inr j)) }

theorem probitApe_ok [DecidableEq s] {sm : ScaleM} {x : Matrix n (Unit ⊕ s) ℝ} {f : Fit n (Unit ⊕ s)} {sc : ℝ}
    (h : scaleOf sm x f.betas f.phiy = .ok sc) : probitApe sm x f = .ok (apeOf sc x f) := by
  unfold probitApe
  rw [h]
  rfl

/-- C161: the average partial effects in the new units: slopes, covariances and standard errors are those of the new units, the
scale is the same. -/
theorem C161_ape [DecidableEq s] (σ : m ≃ n) (a c : s → ℝ) (hc : ∀ j, c j ≠ 0) (x : Matrix n (Unit ⊕ s) ℝ)
    (x' : Matrix m (Unit ⊕ s) ℝ) (y : n → ℝ) (y' : m → ℝ) (hx : Remeasured σ a c x x') (hy : ∀ i, y' i = y (σ i))
    (bs bs' : Option (Unit ⊕ s → ℝ)) (hb : SameStart a c bs bs') (mi : ℕ) (sm : ScaleM) (f : Fit n (Unit ⊕ s)) (A : Ape s)
    (hf : baseProbit x y .newton bs mi = .ok f) (hA : probitApe sm x f = .ok A) :
    ∃ f' A', baseProbit x' y' .newton bs' mi = .ok f' ∧ probitApe sm x' f' = .ok A' ∧ A'.scale = A.scale ∧
      (∀ j, A'.slopes j = A.slopes j / c j) ∧ (∀ i j, A'.vm i j = A.vm i j / (c i * c j)) ∧
      ∀ j, A'.stdErr j = A.stdErr j / |c j| := by
  obtain rfl := newX_tMat hx
  obtain rfl : y' = fun i => y (σ i) := funext hy
  obtain rfl : bs' = bs.map (tInv a c *ᵥ ·) := by
    cases bs <;> cases bs' <;> simp only [SameStart] at hb
    · rfl
    · rw [(sameIndex_iff a c _ _).1 hb]; rfl
  have hT := tMat_inv (a := a) hc
  have hTi := mul_eq_one_comm.1 hT
  have e := C161_basis σ (tMat a c) (tInv a c) hT hTi x y .newton bs mi
  rw [show Optim.to (tInv a c) (.newton : Optim (Unit ⊕ s)) = .newton from rfl, hf] at e
  have hxmb : (tMat a c)ᵀ *ᵥ xmean x ⬝ᵥ (tInv a c *ᵥ f.betas) = xmean x ⬝ᵥ f.betas := by
    rw [dotProduct_mulVec, ← mulVec_transpose, mulVec_mulVec, ← transpose_mul, hT, transpose_one, one_mulVec]
  have hscale : scaleOf sm (newX σ (tMat a c) x) (tInv a c *ᵥ f.betas) (fun i => f.phiy (σ i)) = scaleOf sm x f.betas f.phiy := by
    cases sm with
    | xmean => simp only [scaleOf, xmean_new, hxmb]
    | phimean => simp only [scaleOf]; rw [Fintype.card_congr σ, Equiv.sum_comp σ f.phiy]
    | other => rfl
  cases hs : scaleOf sm x f.betas f.phiy with
  | error e => unfold probitApe at hA; rw [hs] at hA; cases hA
  | ok sc =>
    rw [probitApe_ok hs] at hA
    obtain rfl := (Except.ok.inj hA).symm
    refine ⟨f.to σ (tInv a c), apeOf sc (newX σ (tMat a c) x) (f.to σ (tInv a c)), e, probitApe_ok (hscale.trans hs), ?_⟩
    have hb : (Matrix.of fun i j => (tInv a c *ᵥ f.betas) i * xmean (newX σ (tMat a c) x) j) =
        tInv a c * (Matrix.of fun i j => f.betas i * xmean x j) * tMat a c := by
      have e1 : (Matrix.of fun i j => f.betas i * xmean x j) = vecMulVec f.betas (xmean x) := rfl
      have e2 : (Matrix.of fun i j => (tInv a c *ᵥ f.betas) i * xmean (newX σ (tMat a c) x) j) =
        vecMulVec (tInv a c *ᵥ f.betas) (xmean (newX σ (tMat a c) x)) := rfl
      rw [e1, e2, xmean_new, mul_vecMulVec, vecMulVec_mul, mulVec_transpose]
    have hv : (1 - (xmean (newX σ (tMat a c) x) ⬝ᵥ (tInv a c *ᵥ f.betas)) •
          (Matrix.of fun i j => (tInv a c *ᵥ f.betas) i * xmean (newX σ (tMat a c) x) j)) * (tInv a c * f.vm * (tInv a c)ᵀ) *
          (1 - (xmean (newX σ (tMat a c) x) ⬝ᵥ (tInv a c *ᵥ f.betas)) •
          (Matrix.of fun i j => (tInv a c *ᵥ f.betas) i * xmean (newX σ (tMat a c) x) j))ᵀ =
        tInv a c * ((1 - (xmean x ⬝ᵥ f.betas) • Matrix.of fun i j => f.betas i * xmean x j) * f.vm *
          (1 - (xmean x ⬝ᵥ f.betas) • Matrix.of fun i j => f.betas i * xmean x j)ᵀ) * (tInv a c)ᵀ := by
      rw [hb, xmean_new, hxmb]
      set D := (1 - (xmean x ⬝ᵥ f.betas) • Matrix.of fun i j => f.betas i * xmean x j) with hD
      have e3 : (1 - (xmean x ⬝ᵥ f.betas) • (tInv a c * (Matrix.of fun i j => f.betas i * xmean x j) * tMat a c)) =
          tInv a c * D * tMat a c := by
        rw [hD, Matrix.mul_sub, Matrix.sub_mul, Matrix.mul_one, hTi, Matrix.mul_smul, Matrix.smul_mul]
      have hT' : (tInv a c)ᵀ * (tMat a c)ᵀ = 1 := by rw [← transpose_mul, hT, transpose_one]
      rw [e3, transpose_mul, transpose_mul]
      calc tInv a c * D * tMat a c * (tInv a c * f.vm * (tInv a c)ᵀ) * ((tMat a c)ᵀ * (Dᵀ * (tInv a c)ᵀ))
          = tInv a c * D * (tMat a c * tInv a c) * f.vm * ((tInv a c)ᵀ * (tMat a c)ᵀ) * (Dᵀ * (tInv a c)ᵀ) := by
            simp only [Matrix.mul_assoc]
        _ = _ := by rw [hT, hT', Matrix.mul_one, Matrix.mul_one]; simp only [Matrix.mul_assoc]
    have hvm : ∀ (V : Matrix (Unit ⊕ s) (Unit ⊕ s) ℝ) i j, (sc ^ 2 • (tInv a c * V * (tInv a c)ᵀ) :
        Matrix (Unit ⊕ s) (Unit ⊕ s) ℝ) (.inr i) (.inr j) = (sc ^ 2 • V : Matrix (Unit ⊕ s) (Unit ⊕ s) ℝ) (.inr i) (.inr j) / (c i * c j) := by
      intro V i j
      rw [Matrix.smul_apply, tInv_conj, Matrix.smul_apply, smul_eq_mul, smul_eq_mul, mul_div_assoc]
    refine ⟨rfl, fun j => ?_, fun i j => ?_, fun j => ?_⟩
    · simp only [apeOf, Fit.to, tInv_inr]; ring
    · simp only [apeOf, Fit.to]; rw [hv]; exact hvm _ i j
    · simp only [apeOf, Fit.to]; rw [hv, hvm]
      rw [Real.sqrt_div' _ (mul_self_nonneg _), Real.sqrt_mul_self_eq_abs]

/-- C161: fit statistics and spatial tests do not change. -/
theorem C161_statistics [DecidableEq m] [DecidableEq n] (σ : m ≃ n) (y : n → ℝ) (y' : m → ℝ) (hy : ∀ i, y' i = y (σ i))
    (w : Matrix n n ℝ) (w' : Matrix m m ℝ) (hw : ∀ i j, w' i j = w (σ i) (σ j)) (a c : s → ℝ) (f : Fit n (Unit ⊕ s))
    (f' : Fit m (Unit ⊕ s)) (h : SameFit σ a c f f') :
    predTable y' f'.predybin = predTable y f.predybin ∧ lrtest y' f' = lrtest y f ∧ mcfadRho y' f' = mcfadRho y f ∧
      pinkse w' f'.predy f'.phiy f'.uGen = pinkse w f.predy f.phiy f.uGen ∧
      moranKP w' f'.uNaive (phiProd f'.predy) = moranKP w f.uNaive (phiProd f.predy) ∧
      pinkseSlade w' f'.predy f'.uNaive = pinkseSlade w f.predy f.uNaive := by
  obtain rfl : y' = fun i => y (σ i) := funext hy
  obtain rfl : w' = w.submatrix σ σ := by ext i j; exact hw i j
  have e1 := funext h.predybin
  have e2 := funext h.predy
  have e3 := funext h.phiy
  have e4 := funext h.uNaive
  have e5 := funext h.uGen
  have hs : ∀ v : n → ℝ, ∑ i, v (σ i) = ∑ i, v i := fun v => Equiv.sum_comp σ v
  have hn : ∀ v : n → ℕ, ∑ i, v (σ i) = ∑ i, v i := fun v => Equiv.sum_comp σ v
  have hc := Fintype.card_congr σ
  have hL : L0 (fun i => y (σ i)) = L0 y := by unfold L0; rw [hc, hs y]
  have hq : ∀ v : n → ℝ, (fun i => v (σ i)) ⬝ᵥ (w.submatrix σ σ *ᵥ fun i => v (σ i)) = v ⬝ᵥ (w *ᵥ v) := fun v => by
    rw [subσ_mulVec, dot_σ]
  have hww : ∑ i, (w.submatrix σ σ * w.submatrix σ σ) i i = ∑ i, (w * w) i i := by rw [subσσ_mul, tr_σ]
  have hwt : ∑ i, (w.submatrix σ σ * (w.submatrix σ σ)ᵀ) i i = ∑ i, (w * wᵀ) i i := by
    rw [transpose_submatrix, subσσ_mul, tr_σ]
  have htw : ∑ i, ((w.submatrix σ σ)ᵀ * w.submatrix σ σ) i i = ∑ i, (wᵀ * w) i i := by
    rw [transpose_submatrix, subσσ_mul, tr_σ]
  refine ⟨?_, ?_, ?_, ?_, ?_, ?_⟩
  · unfold predTable
    rw [e1]
    simp only [hc]
    congr 1
    · exact hs y
    · rw [hs y]
    · exact hn f.predybin
    · rw [hn f.predybin]
    · exact hn fun i => (if f.predybin i = 1 then 1 else 0) * (if y i = 1 then 1 else 0)
    · exact hn fun i => (if f.predybin i = 0 then 1 else 0) * (if y i = 0 then 1 else 0)
    · exact hn fun i => (if f.predybin i = 1 then 1 else 0) * (if y i = 0 then 1 else 0)
    · exact hn fun i => (if f.predybin i = 0 then 1 else 0) * (if y i = 1 then 1 else 0)
  · unfold lrtest; rw [hL, h.logl]
  · unfold mcfadRho; rw [hL, h.logl]
  · unfold pinkse
    simp only [e2, e3, e5, hc, hq, hww, hwt, phiProd]
    rw [hs fun i => f.phiy i * f.phiy i / (f.predy i * (1 - f.predy i))]
  · unfold moranKP
    have hd : diagonal (phiProd fun i => f.predy (σ i)) = (diagonal (phiProd f.predy)).submatrix σ σ := by
      ext i j
      by_cases hij : i = j
      · subst hij; simp [phiProd]
      · rw [diagonal_apply_ne _ hij, submatrix_apply, diagonal_apply_ne _ fun h => hij (σ.injective h)]
    simp only [e4, e2, hq]
    rw [hd, transpose_submatrix, subσσ_mul, subσσ_mul, subσσ_mul, subσσ_mul]
    congr 2
    exact Equiv.sum_comp σ fun i => (w * diagonal (phiProd f.predy) * (w * diagonal (phiProd f.predy)) +
      wᵀ * diagonal (phiProd f.predy) * (w * diagonal (phiProd f.predy))) i i
  · unfold pinkseSlade
    simp only [e2, e4, hww, htw, phiProd]
    rw [hq fun i => f.uNaive i / Real.sqrt (f.predy i * (1 - f.predy i))]

/-! ### Which outcome is coded 1 -/

theorem sgn_flip (y : n → ℝ) (i : n) : sgn (fun i => 1 - y i) i = -sgn y i := by unfold sgn; ring

theorem flip_index (x : Matrix n k ℝ) (y : n → ℝ) (b : k → ℝ) (i : n) :
    sgn (fun i => 1 - y i) i * (x *ᵥ (-b)) i = sgn y i * (x *ᵥ b) i := by
  rw [sgn_flip, mulVec_neg, Pi.neg_apply]; ring

theorem ll_flip (x : Matrix n k ℝ) (y : n → ℝ) (b : k → ℝ) : ll x (fun i => 1 - y i) (-b) = ll x y b := by
  unfold ll
  simp only [flip_index]

theorem lamb_flip (x : Matrix n k ℝ) (y : n → ℝ) (b : k → ℝ) : lamb x (fun i => 1 - y i) (-b) = fun i => -lamb x y b i := by
  funext i
  unfold lamb
  rw [flip_index, sgn_flip]
  ring

theorem gradient_flip (x : Matrix n k ℝ) (y : n → ℝ) (b : k → ℝ) : gradient x (fun i => 1 - y i) (-b) = -gradient x y b := by
  unfold gradient
  rw [lamb_flip]
  exact neg_vecMul _ _

theorem hessian_flip (x : Matrix n k ℝ) (y : n → ℝ) (b : k → ℝ) : hessian x (fun i => 1 - y i) (-b) = hessian x y b := by
  unfold hessian
  rw [lamb_flip]
  congr 1
  ext i j
  simp only [of_apply, mulVec_neg, Pi.neg_apply]
  ring

theorem newtonLoop_flip [DecidableEq k] {fg fg' : (k → ℝ) → k → ℝ} {fh fh' : (k → ℝ) → Matrix k k ℝ}
    (hg : ∀ b, fg' (-b) = -fg b) (hh : ∀ b, fh' (-b) = fh b) (r : ℕ) : ∀ (mm : ℝ) (b : k → ℝ),
    newtonLoop fg' fh' r mm (-b) = (newtonLoop fg fh r mm b).map fun p => (-p.1, p.2.1, p.2.2) := by
  induction r with
  | zero => intro mm b; rfl
  | succ r ih =>
    intro mm b
    unfold newtonLoop
    split_ifs with hm
    swap; · rfl
    rw [hh]
    cases inv? (fh b) with
    | none => rfl
    | some B =>
      simp only
      rw [hg, mulVec_neg, neg_dotProduct_neg, ← neg_add, ih]
      cases newtonLoop fg fh r (fg b ⬝ᵥ (-B *ᵥ fg b)) (b + -B *ᵥ fg b) <;> rfl

/-- C161: coding the other outcome as 1, with a starting value: the coefficients, the index and the residuals change sign,
probabilities become those of the other outcome, everything else is the same. -/
theorem C161_recode [DecidableEq k] (x : Matrix n k ℝ) (y : n → ℝ) (b : k → ℝ) (mi : ℕ) (f : Fit n k)
    (hf : baseProbit x y .newton (some b) mi = .ok f) :
    ∃ f', baseProbit x (fun i => 1 - y i) .newton (some (-b)) mi = .ok f' ∧ f'.betas = -f.betas ∧ f'.vm = f.vm ∧
      f'.logl = f.logl ∧ f'.warning = f.warning ∧ f'.xb = -f.xb ∧ (∀ i, f'.predy i = 1 - f.predy i) ∧ f'.phiy = f.phiy ∧
      f'.uNaive = -f.uNaive ∧ f'.uGen = -f.uGen ∧ ∀ i, f.predy i ≠ 1 / 2 → f'.predybin i = 1 - f.predybin i := by
  rename_i inst
  obtain rfl : inst = fun a b => Classical.propDecidable (a = b) := Subsingleton.elim _ _
  classical
  have hn := newtonLoop_flip (gradient_flip x y) (hessian_flip x y) mi 1 b
  unfold baseProbit parEst startVal newton at hf ⊢
  simp only [bind, Except.bind, hn] at hf ⊢
  cases hl : newtonLoop (gradient x y) (hessian x y) mi 1 b with
  | error e => rw [hl] at hf; cases hf
  | ok p =>
    rw [hl] at hf
    simp only [Except.map, pure, Except.pure] at hf ⊢
    rw [hessian_flip]
    cases hi : inv? (hessian x y p.1) with
    | none => rw [hi] at hf; cases hf
    | some B =>
      rw [hi] at hf
      obtain rfl := (Except.ok.inj hf).symm
      refine ⟨_, rfl, rfl, rfl, ?_, rfl, ?_, ?_, ?_, ?_, ?_, ?_⟩
      · simp only; rw [ll_flip]
      · exact mulVec_neg _ _
      · intro i; simp only [mulVec_neg, Pi.neg_apply, Phi_neg]
      · funext i; simp only [mulVec_neg, Pi.neg_apply, phi_neg]
      · funext i; simp only [mulVec_neg, Pi.neg_apply, Phi_neg]; ring
      · funext i; simp only [mulVec_neg, Pi.neg_apply, Phi_neg, phi_neg]; ring
      · intro i hi
        simp only [mulVec_neg, Pi.neg_apply, Phi_neg] at hi ⊢
        rcases lt_or_gt_of_ne hi with h | h
        · rw [if_pos (by linarith), if_neg (by linarith)]
        · rw [if_neg (by linarith), if_pos h]

/-- C161: whatever the starting values and the optimisers: fits of `y` and of `1 - y` that solve the first-order conditions have
opposite coefficients. -/
theorem C161_recode_optimum [DecidableEq k] (x : Matrix n k ℝ) (y : n → ℝ) (hy : Binary y) (hx : FullRank x) (b b' : k → ℝ)
    (h : gradient x y b = 0) (h' : gradient x (fun i => 1 - y i) b' = 0) : b' = -b := by
  have e : gradient x y (-b') = 0 := by
    have := gradient_flip x y (-b')
    rw [neg_neg, h'] at this
    rw [← neg_neg (gradient x y (-b')), ← this, neg_zero]
  have := C88_unique x y hy hx b (-b') h e
  rw [this, neg_neg]

/-! ### A case that meets the hypotheses -/

/-- Three observations, one variable. -/
def exX : Matrix (Fin 3) (Unit ⊕ Unit) ℝ := Matrix.of fun i j => match j with
  | .inl _ => 1
  | .inr _ => i.val

/-- The same in other units (say Fahrenheit for Celsius), last observation first. -/
noncomputable def exX' : Matrix (Fin 3) (Unit ⊕ Unit) ℝ := Matrix.of fun i j => match j with
  | .inl _ => 1
  | .inr _ => 32 + 9 / 5 * (Fin.rev i).val

def exY : Fin 3 → ℝ := ![0, 1, 0]

example : ∃ f f', baseProbit exX exY .newton none 50 = .ok f ∧
    baseProbit exX' (fun i => exY (Fin.rev i)) .newton none 50 = .ok f' ∧
    SameFit Fin.revPerm (fun _ => 32) (fun _ => 9 / 5) f f' := by
  have hx : FullRank exX := by
    intro v hv
    have h : ∀ i : Fin 3, v (.inl ()) + i.val * v (.inr ()) = 0 := fun i => by
      have := congrFun hv i
      rw [mulVec, dotProduct, Fintype.sum_sum_type] at this
      simpa [exX] using this
    have h0 := h 0
    have h1 := h 1
    simp at h0 h1
    rw [h0, zero_add] at h1
    funext j
    rcases j with ⟨⟩ | ⟨⟩
    · exact h0
    · exact h1
  have hy : Binary exY := by
    intro i
    fin_cases i <;> simp [exY]
  obtain ⟨f, hf⟩ := C89_total exX exY hy hx none 50
  have := C161_units Fin.revPerm (fun _ => 32) (fun _ => 9 / 5) (fun _ => by norm_num) exX exX' exY (fun i => exY (Fin.rev i))
    ⟨fun _ => rfl, fun _ => rfl, fun _ _ => rfl⟩ (fun _ => rfl) none none trivial 50
  rw [hf] at this
  cases h' : baseProbit exX' (fun i => exY (Fin.rev i)) .newton none 50 with
  | error e => rw [h'] at this; exact this.elim
  | ok f' => rw [h'] at this; exact ⟨f, f', hf, rfl, this⟩

end Spreg.Probit
