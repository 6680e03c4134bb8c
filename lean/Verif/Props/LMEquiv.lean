import Verif.Props.LM
import Verif.Props.GMEquiv3
/-
C150: the spatial diagnostics do not depend on the order of the observations, on units, on the choice of basis, or (with row
sums one) on the origin of the variables.
-/
namespace Spreg.LM
open Matrix Spreg Spreg.Lin Spreg.GM

variable {m n k q : Type} [Fintype m] [Fintype n] [Fintype k] [Fintype q]
variable [DecidableEq m] [DecidableEq n] [DecidableEq k] [DecidableEq q]

/-- What the diagnosed regression becomes. -/
def _root_.Spreg.GM.Tr.reg (t : Tr m n k) (r : Reg n k) : Reg m k where
  x := t.x r.x
  y := t.y r.x r.y
  fit := t.ols r.x r.fit

omit [DecidableEq m] [DecidableEq n] in
theorem reg_tr (t : Tr m n k) (x : Matrix n k ℝ) (y : n → ℝ) (r : Reg n k) (h : LM.reg x y = some r) :
    LM.reg (t.x x) (t.y x y) = some (t.reg r) := by
  obtain ⟨-, hr⟩ := reg_eq_some h
  unfold LM.reg at h ⊢
  rw [t.ols?]
  cases ho : Lin.ols x y with
  | none => rw [ho] at h; cases h
  | some o =>
    rw [ho] at h
    have e := Option.some.inj h
    rw [← e]
    rfl

omit [DecidableEq m] [DecidableEq n] in
theorem s2_tr (t : Tr m n k) (r : Reg n k) : (t.reg r).s2 = t.c ^ 2 * r.s2 := by
  show sig2n (t.u r.fit.u) = _
  unfold Reg.s2 sig2n
  rw [utu_eq_dot, utu_eq_dot, t.u_dot, Fintype.card_congr t.σ]
  ring

omit [DecidableEq m] [DecidableEq n] in
theorem nn_tr (t : Tr m n k) (r : Reg n k) : (t.reg r).nn = r.nn := by
  unfold Reg.nn; rw [Fintype.card_congr t.σ]

omit [DecidableEq m] [DecidableEq n] in
theorem tr_t_tr (t : Tr m n k) (W : Matrix n n ℝ) : tr_t (t.w W) = tr_t W := by
  unfold tr_t
  have e : ((t.w W)ᵀ + t.w W) * t.w W = t.w ((Wᵀ + W) * W) := by
    rw [t.w_transpose]
    show (t.w Wᵀ + t.w W) * t.w W = _
    rw [show t.w Wᵀ + t.w W = t.w (Wᵀ + W) from rfl, t.w_mul]
  rw [e]
  exact tr_σ t.σ _

theorem rm_tr (t : Tr m n k) (x : Matrix n k ℝ) : rm (t.x x) = t.w (rm x) := by
  unfold rm
  have e1 : t.T⁻¹ = t.Ti := Matrix.inv_eq_right_inv t.hT
  have e2 : t.Tᵀ⁻¹ = t.Tiᵀ := by rw [← transpose_nonsing_inv, e1]
  have hi : ((t.x x)ᵀ * t.x x)⁻¹ = t.Ti * (xᵀ * x)⁻¹ * t.Tiᵀ := by
    rw [t.xx, Matrix.mul_inv_rev, Matrix.mul_inv_rev, e1, e2, Matrix.mul_assoc]
  have hp : t.x x * ((t.x x)ᵀ * t.x x)⁻¹ * (t.x x)ᵀ = t.w (x * (xᵀ * x)⁻¹ * xᵀ) := by
    rw [hi]
    have : t.x x * (t.Ti * (xᵀ * x)⁻¹ * t.Tiᵀ) * (t.x x)ᵀ
        = (x * t.T * (t.Ti * (xᵀ * x)⁻¹ * t.Tiᵀ) * (x * t.T)ᵀ).submatrix t.σ t.σ := by
      ext i j
      simp only [Tr.x, mul_apply, submatrix_apply, id, transpose_apply]
    rw [this, transpose_mul]
    have e : x * t.T * (t.Ti * (xᵀ * x)⁻¹ * t.Tiᵀ) * (t.Tᵀ * xᵀ) = x * (xᵀ * x)⁻¹ * xᵀ := by
      calc _ = x * (t.T * t.Ti) * (xᵀ * x)⁻¹ * (t.Tiᵀ * t.Tᵀ) * xᵀ := by simp only [Matrix.mul_assoc]
        _ = _ := by rw [← transpose_mul, t.hT, transpose_one, Matrix.mul_one, Matrix.mul_one]
    rw [e]
    rfl
  rw [hp]
  ext i j
  simp only [Tr.w, Matrix.sub_apply, submatrix_apply, Matrix.one_apply, t.σ.injective.eq_iff]

omit [DecidableEq m] [DecidableEq n] in
/-- Lag of the transformed prediction or dependent variable. -/
theorem lag_tr (t : Tr m n k) (x : Matrix n k ℝ) (W : Matrix n n ℝ) (e : k → ℝ) (he : W *ᵥ (x *ᵥ t.d) = x *ᵥ e) (v : n → ℝ) :
    t.w W *ᵥ t.y x v = fun i => (t.c • (W *ᵥ v) + x *ᵥ e) (t.σ i) := by
  rw [t.y_eq]
  unfold Tr.w
  rw [subσ_mulVec]
  funext i
  rw [mulVec_add, mulVec_smul, he]

omit [DecidableEq m] [DecidableEq n] in
theorem utwuDs_tr (t : Tr m n k) (r : Reg n k) (W : Matrix n n ℝ) : utwuDs (t.reg r) (t.w W) = utwuDs r W := by
  unfold utwuDs wu
  rw [s2_tr]
  show t.u r.fit.u ⬝ᵥ (t.w W *ᵥ t.u r.fit.u) / _ = _
  rw [t.w_mulVec, t.u_dot, mul_div_mul_left _ _ (pow_ne_zero 2 t.hc)]


theorem jj_eq {x : Matrix n k ℝ} {y : n → ℝ} {r : Reg n k} (h : LM.reg x y = some r) (W : Matrix n n ℝ) :
    jj r W = ((rm x *ᵥ (W *ᵥ r.fit.predy)) ⬝ᵥ (rm x *ᵥ (W *ᵥ r.fit.predy)) + tr_t W * r.s2) / (r.nn * r.s2) := by
  obtain ⟨hx, hr⟩ := reg_eq_some h
  unfold jj
  rw [rm_dot x hx]
  have h1 : r.x = x := by rw [hr]
  have h2 : r.fit.xtxi = (xᵀ * x)⁻¹ := by rw [hr]; rfl
  simp only [h1, h2]

/-- Projection of the lag of a transformed vector. -/
theorem rm_lag_tr (t : Tr m n k) (x : Matrix n k ℝ) (hx : IsUnit (xᵀ * x).det) (W : Matrix n n ℝ) (e : k → ℝ)
    (he : W *ᵥ (x *ᵥ t.d) = x *ᵥ e) (v : n → ℝ) :
    rm (t.x x) *ᵥ (t.w W *ᵥ t.y x v) = t.u (rm x *ᵥ (W *ᵥ v)) := by
  rw [lag_tr t x W e he, rm_tr, Tr.w, subσ_mulVec, t.u_eq]
  funext i
  rw [mulVec_add, mulVec_smul, mulVec_mulVec e, rm_mul_x x hx, zero_mulVec, add_zero]

theorem jj_tr (t : Tr m n k) (x : Matrix n k ℝ) (y : n → ℝ) (r : Reg n k) (h : LM.reg x y = some r) (W : Matrix n n ℝ)
    (e : k → ℝ) (he : W *ᵥ (x *ᵥ t.d) = x *ᵥ e) : jj (t.reg r) (t.w W) = jj r W := by
  obtain ⟨hx, hr⟩ := reg_eq_some h
  have h1 : r.x = x := by rw [hr]
  rw [jj_eq h, jj_eq (reg_tr t x y r h), s2_tr, nn_tr, tr_t_tr]
  have : (t.reg r).fit.predy = t.y x r.fit.predy := by rw [← h1]; rfl
  rw [this, rm_lag_tr t x hx W e he, t.u_dot]
  rw [show t.c ^ 2 * (rm x *ᵥ W *ᵥ r.fit.predy ⬝ᵥ rm x *ᵥ W *ᵥ r.fit.predy) + tr_t W * (t.c ^ 2 * r.s2) =
    t.c ^ 2 * (rm x *ᵥ W *ᵥ r.fit.predy ⬝ᵥ rm x *ᵥ W *ᵥ r.fit.predy + tr_t W * r.s2) by ring,
    show r.nn * (t.c ^ 2 * r.s2) = t.c ^ 2 * (r.nn * r.s2) by ring, mul_div_mul_left _ _ (pow_ne_zero 2 t.hc)]

omit [DecidableEq n] in
theorem u_orth {x : Matrix n k ℝ} {y : n → ℝ} {r : Reg n k} (h : LM.reg x y = some r) (e : k → ℝ) :
    r.fit.u ⬝ᵥ (x *ᵥ e) = 0 := by
  obtain ⟨hx, hr⟩ := reg_eq_some h
  have := normal_eq x y hx
  rw [dotProduct_mulVec, ← mulVec_transpose, hr]
  show (xᵀ *ᵥ (olsWith x y (xᵀ * x)⁻¹).u) ⬝ᵥ e = 0
  rw [this, zero_dotProduct]

omit [DecidableEq m] [DecidableEq n] in
theorem utwyDs_tr (t : Tr m n k) (x : Matrix n k ℝ) (y : n → ℝ) (r : Reg n k) (h : LM.reg x y = some r) (W : Matrix n n ℝ)
    (e : k → ℝ) (he : W *ᵥ (x *ᵥ t.d) = x *ᵥ e) : utwyDs (t.reg r) (t.w W) = utwyDs r W := by
  obtain ⟨hx, hr⟩ := reg_eq_some h
  have h1 : r.x = x := by rw [hr]
  have h2 : (t.reg r).y = t.y x r.y := by rw [← h1]; rfl
  have h3 : (t.reg r).fit.u = t.u r.fit.u := rfl
  unfold utwyDs
  rw [s2_tr, h2, h3, lag_tr t x W e he, t.u_dotσ, dotProduct_add, dotProduct_smul, u_orth h, add_zero, smul_eq_mul, ← mul_assoc,
    ← pow_two, mul_div_mul_left _ _ (pow_ne_zero 2 t.hc)]

omit [DecidableEq m] [DecidableEq n] in
theorem trA_tr (t : Tr m n k) (r : Reg n k) (W : Matrix n n ℝ) :
    trA (t.reg r) (t.w W) = trA r W := by
  have e : (t.reg r).fit.xtxi * ((t.reg r).xᵀ * (t.w W * (t.reg r).x)) =
      t.Ti * (r.fit.xtxi * (r.xᵀ * (W * r.x))) * t.T := by
    show t.Ti * r.fit.xtxi * t.Tiᵀ * ((t.x r.x)ᵀ * (t.w W * t.x r.x)) = _
    have : t.w W * t.x r.x = (W * r.x * t.T).submatrix t.σ id := by
      unfold Tr.w Tr.x
      rw [subσ_mul, Matrix.mul_assoc]
    rw [this]
    unfold Tr.x
    rw [transpose_submatrix, sub_mul_sub, transpose_mul]
    calc _ = t.Ti * r.fit.xtxi * (t.Tiᵀ * t.Tᵀ) * r.xᵀ * (W * r.x * t.T) := by simp only [Matrix.mul_assoc]
      _ = _ := by rw [← transpose_mul, t.hT, transpose_one]; simp only [Matrix.mul_assoc, Matrix.one_mul]
  unfold trA
  rw [e]
  show trace _ = trace _
  rw [trace_mul_comm, ← Matrix.mul_assoc, t.hT, Matrix.one_mul]

omit [DecidableEq m] [DecidableEq n] in
theorem s0_tr (t : Tr m n k) (W : Matrix n n ℝ) : s0 (t.w W) = s0 W := by
  unfold s0 Tr.w
  rw [← Equiv.sum_comp t.σ fun i => ∑ j, W i j]
  refine Finset.sum_congr rfl fun i _ => ?_
  exact Equiv.sum_comp t.σ fun j => W (t.σ i) j

omit [DecidableEq m] [DecidableEq n] in
theorem s1_tr (t : Tr m n k) (W : Matrix n n ℝ) : s1 (t.w W) = s1 W := by
  unfold s1 Tr.w
  rw [← Equiv.sum_comp t.σ fun i => ∑ j, (W i j + W j i) ^ 2]
  congr 1
  refine Finset.sum_congr rfl fun i _ => ?_
  exact Equiv.sum_comp t.σ fun j => (W (t.σ i) j + W j (t.σ i)) ^ 2

omit [DecidableEq m] [DecidableEq n] in
theorem AB_tr (t : Tr m n k) (r : Reg n k) (W : Matrix n n ℝ) :
    (AB (t.reg r) (t.w W)).1 = t.Ti * (AB r W).1 * t.T ∧ (AB (t.reg r) (t.w W)).2 = t.Ti * (AB r W).2 * t.T := by
  have hU : (1 / 2.0 : ℝ) • (t.w W + (t.w W)ᵀ) = t.w ((1 / 2.0 : ℝ) • (W + Wᵀ)) := rfl
  have hz : ∀ U : Matrix n n ℝ, t.w U * t.x r.x = (U * r.x * t.T).submatrix t.σ id := fun U => by
    unfold Tr.w Tr.x
    rw [subσ_mul, Matrix.mul_assoc]
  have key : ∀ C : Matrix k k ℝ, t.Ti * r.fit.xtxi * t.Tiᵀ * (t.Tᵀ * C * t.T) = t.Ti * (r.fit.xtxi * C) * t.T := fun C => by
    calc _ = t.Ti * r.fit.xtxi * (t.Tiᵀ * t.Tᵀ) * C * t.T := by simp only [Matrix.mul_assoc]
      _ = _ := by rw [← transpose_mul, t.hT, transpose_one]; simp only [Matrix.mul_assoc, Matrix.one_mul]
  constructor
  · show t.Ti * r.fit.xtxi * t.Tiᵀ * ((t.x r.x)ᵀ * ((1 / 2.0 : ℝ) • (t.w W + (t.w W)ᵀ) * t.x r.x)) = _
    rw [hU, hz]
    have : (t.x r.x)ᵀ * ((((1 / 2.0 : ℝ) • (W + Wᵀ)) * r.x * t.T).submatrix t.σ id) =
        t.Tᵀ * (r.xᵀ * (((1 / 2.0 : ℝ) • (W + Wᵀ)) * r.x)) * t.T := by
      unfold Tr.x
      rw [transpose_submatrix, sub_mul_sub, transpose_mul]
      simp only [Matrix.mul_assoc]
    rw [this, key]
    rfl
  · show t.Ti * r.fit.xtxi * t.Tiᵀ * (((1 / 2.0 : ℝ) • (t.w W + (t.w W)ᵀ) * t.x r.x)ᵀ *
      ((1 / 2.0 : ℝ) • (t.w W + (t.w W)ᵀ) * t.x r.x)) = _
    rw [hU, hz, transpose_submatrix, sub_mul_sub, transpose_mul]
    have : ∀ A : Matrix n k ℝ, t.Tᵀ * Aᵀ * (A * t.T) = t.Tᵀ * (Aᵀ * A) * t.T := fun A => by simp only [Matrix.mul_assoc]
    rw [this, key]
    rfl

omit [DecidableEq m] [DecidableEq n] in
/-- **C150** (tests on the residuals): LM-error, and Moran's I with its moments, are the same for the data in another order, in
other units, in another basis of the regressors, and with any combination of the regressors added to the dependent variable. -/
theorem C150_error_tests (t : Tr m n k) (x : Matrix n k ℝ) (y : n → ℝ) (r : Reg n k) (h : LM.reg x y = some r)
    (W : Matrix n n ℝ) :
    ∃ r', LM.reg (t.x x) (t.y x y) = some r' ∧ lmErr r' (t.w W) = lmErr r W ∧
      mI r' (t.w W) = mI r W ∧ eI r' (t.w W) = eI r W ∧ vI r' (t.w W) = vI r W := by
  refine ⟨_, reg_tr t x y r h, ?_, ?_, ?_, ?_⟩
  · unfold lmErr; rw [utwuDs_tr, tr_t_tr]
  · unfold mI wu
    rw [s0_tr]
    show (Fintype.card m : ℝ) * (t.u r.fit.u ⬝ᵥ (t.w W *ᵥ t.u r.fit.u)) / (s0 W * utu (t.u r.fit.u)) = _
    rw [t.w_mulVec, utu_eq_dot, utu_eq_dot, t.u_dot, t.u_dot, Fintype.card_congr t.σ,
      show (Fintype.card n : ℝ) * (t.c ^ 2 * (r.fit.u ⬝ᵥ W *ᵥ r.fit.u)) = t.c ^ 2 * ((Fintype.card n : ℝ) * (r.fit.u ⬝ᵥ W *ᵥ r.fit.u))
        by ring, show s0 W * (t.c ^ 2 * (r.fit.u ⬝ᵥ r.fit.u)) = t.c ^ 2 * (s0 W * (r.fit.u ⬝ᵥ r.fit.u)) by ring,
      mul_div_mul_left _ _ (pow_ne_zero 2 t.hc)]
  · unfold eI; rw [trA_tr, s0_tr, Fintype.card_congr t.σ]
  · unfold vI
    have hc : ∀ A : Matrix k k ℝ, ∑ i, (t.Ti * A * t.T) i i = ∑ i, A i i := fun A => by
      show trace _ = trace _
      rw [trace_mul_comm, ← Matrix.mul_assoc, t.hT, Matrix.one_mul]
    have h2 : ∀ A : Matrix k k ℝ, t.Ti * A * t.T * (t.Ti * A * t.T) = t.Ti * (A * A) * t.T := fun A => by
      calc _ = t.Ti * A * (t.T * t.Ti) * A * t.T := by simp only [Matrix.mul_assoc]
        _ = _ := by rw [t.hT]; simp only [Matrix.mul_assoc, Matrix.one_mul]
    simp only [(AB_tr t r W).1, (AB_tr t r W).2, h2, hc, trA_tr, s0_tr, s1_tr, Fintype.card_congr t.σ]

/-- **C150** (lag tests): the tests against a spatial lag are the same for the data in another order, in other units, in another
basis of the regressors, and with a combination of the regressors added to the dependent variable whose lag is a combination of
them too - nothing, or a constant with row sums one. -/
theorem C150_lag_tests (t : Tr m n k) (x : Matrix n k ℝ) (y : n → ℝ) (r : Reg n k) (h : LM.reg x y = some r)
    (W : Matrix n n ℝ) (hd : ∃ e, W *ᵥ (x *ᵥ t.d) = x *ᵥ e) :
    ∃ r', LM.reg (t.x x) (t.y x y) = some r' ∧ lmLag r' (t.w W) = lmLag r W ∧ rlmErr r' (t.w W) = rlmErr r W ∧
      rlmLag r' (t.w W) = rlmLag r W ∧ lmSarma r' (t.w W) = lmSarma r W := by
  obtain ⟨e, he⟩ := hd
  have hy := utwyDs_tr t x y r h W e he
  have hj := jj_tr t x y r h W e he
  have hu := utwuDs_tr t r W
  have ht := tr_t_tr t W
  have hn := nn_tr t r
  refine ⟨_, reg_tr t x y r h, ?_, ?_, ?_, ?_⟩
  · unfold lmLag; rw [hy, hj, hn]
  · unfold rlmErr; simp only [hy, hj, hn, hu, ht]
  · unfold rlmLag; rw [hy, hj, hn, hu, ht]
  · unfold lmSarma; simp only [hy, hj, hu, ht, Fintype.card_congr t.σ]

/-! ### Durbin tests -/

/-- The regressors tested for a lag are replaced by `T'`-combinations of them, up to combinations `x C` of all regressors that
appear when they are lagged. -/
structure Sel (t : Tr m n k) (x : Matrix n k ℝ) (W : Matrix n n ℝ) (sel : q → k) where
  S : Matrix q q ℝ
  Si : Matrix q q ℝ
  C : Matrix k q ℝ
  hS : S * Si = 1
  hSi : Si * S = 1
  lag : W * (x * t.T).submatrix id sel = W * x.submatrix id sel * S + x * C

omit [DecidableEq m] [DecidableEq n] in
theorem wx_tr (t : Tr m n k) (r : Reg n k) (W : Matrix n n ℝ) (sel : q → k) (s : Sel t r.x W sel) :
    t.w W * selCols (t.reg r) sel = (W * selCols r sel * s.S + r.x * s.C).submatrix t.σ id := by
  show t.w W * ((r.x * t.T).submatrix t.σ id).submatrix id sel = _
  have e : W * selCols r sel * s.S + r.x * s.C = W * (r.x * t.T).submatrix id sel := s.lag.symm
  rw [submatrix_submatrix, e]
  exact subσ_mul t.σ W ((r.x * t.T).submatrix id sel)

theorem rm_wx_tr (t : Tr m n k) (r : Reg n k) (hx : IsUnit (r.xᵀ * r.x).det) (W : Matrix n n ℝ) (sel : q → k)
    (s : Sel t r.x W sel) :
    rm (t.x r.x) * (t.w W * selCols (t.reg r) sel) = (rm r.x * (W * selCols r sel) * s.S).submatrix t.σ id := by
  rw [wx_tr t r W sel s, rm_tr]
  unfold Tr.w
  rw [subσ_mul, Matrix.mul_add, ← Matrix.mul_assoc (rm r.x) r.x, rm_mul_x _ hx, Matrix.zero_mul, add_zero,
    ← Matrix.mul_assoc (rm r.x) (W * selCols r sel)]

omit [DecidableEq m] [DecidableEq n] in
theorem wxu_tr (t : Tr m n k) {x : Matrix n k ℝ} {y : n → ℝ} {r : Reg n k} (h : LM.reg x y = some r) (W : Matrix n n ℝ)
    (sel : q → k) (s : Sel t r.x W sel) :
    (t.w W * selCols (t.reg r) sel)ᵀ *ᵥ t.u r.fit.u = t.c • (s.Sᵀ *ᵥ ((W * selCols r sel)ᵀ *ᵥ r.fit.u)) := by
  obtain ⟨-, hr⟩ := reg_eq_some h
  have h1 : r.x = x := by rw [hr]
  have h0 : r.xᵀ *ᵥ r.fit.u = 0 := by
    funext j
    have := u_orth h (Pi.single j 1)
    rw [mulVec_single_one, ← h1] at this
    rw [mulVec, dotProduct_comm]
    exact this
  rw [wx_tr t r W sel s, transpose_submatrix, t.u_eq, subσ_mulVec]
  funext j
  simp only [id]
  rw [mulVec_smul, transpose_add, add_mulVec, transpose_mul _ s.S, transpose_mul _ s.C, ← mulVec_mulVec, ← mulVec_mulVec _ s.Cᵀ, h0, mulVec_zero,
    add_zero]

/-- A quadratic form in the new basis. -/
theorem quad_tr (S Si V : Matrix q q ℝ) (hS : S * Si = 1) (a : q → ℝ) :
    ((Sᵀ *ᵥ a) ᵥ* (Si * V * Siᵀ)) ⬝ᵥ (Sᵀ *ᵥ a) = (a ᵥ* V) ⬝ᵥ a := by
  have e1 : Siᵀ *ᵥ (Sᵀ *ᵥ a) = a := by rw [mulVec_mulVec, ← transpose_mul, hS, transpose_one, one_mulVec]
  have e2 : (Sᵀ *ᵥ a) ᵥ* Si = a := by rw [← mulVec_transpose, e1]
  rw [← vecMul_vecMul, ← vecMul_vecMul, e2, ← dotProduct_mulVec, e1]

theorem lmWX_eq {x : Matrix n k ℝ} {y : n → ℝ} {r : Reg n k} (h : LM.reg x y = some r) (W : Matrix n n ℝ) (sel : q → k) :
    lmWX r W sel = (inv? ((rm r.x * (W * selCols r sel))ᵀ * (rm r.x * (W * selCols r sel)))).map fun V =>
      { stat := (((W * selCols r sel)ᵀ *ᵥ r.fit.u) ᵥ* V) ⬝ᵥ ((W * selCols r sel)ᵀ *ᵥ r.fit.u) / r.s2, df := Fintype.card k - 1 } := by
  obtain ⟨hx, hr⟩ := reg_eq_some h
  have h1 : r.x = x := by rw [hr]
  have h2 : r.fit.xtxi = (xᵀ * x)⁻¹ := by rw [hr]; rfl
  unfold lmWX
  rw [h1, rm_cross x hx]
  simp only [h2]
  rw [transpose_mul ((W * selCols r sel)ᵀ) x, transpose_transpose]

/-- **C150** (test against lagged regressors): the same for the data in another order, in other units and in another basis. -/
theorem C150_lmWX (t : Tr m n k) (x : Matrix n k ℝ) (y : n → ℝ) (r : Reg n k) (h : LM.reg x y = some r) (W : Matrix n n ℝ)
    (sel : q → k) (s : Sel t x W sel) :
    ∃ r', LM.reg (t.x x) (t.y x y) = some r' ∧ lmWX r' (t.w W) sel = lmWX r W sel := by
  obtain ⟨hx, hr⟩ := reg_eq_some h
  have h1 : r.x = x := by rw [hr]
  subst h1
  refine ⟨_, reg_tr t _ y r h, ?_⟩
  rw [lmWX_eq h, lmWX_eq (reg_tr t _ y r h)]
  show (inv? ((rm (t.x r.x) * (t.w W * selCols (t.reg r) sel))ᵀ * (rm (t.x r.x) * (t.w W * selCols (t.reg r) sel)))).map _ = _
  have hu : (t.reg r).fit.u = t.u r.fit.u := rfl
  rw [rm_wx_tr t r hx W sel s, transpose_submatrix, sub_mul_sub, transpose_mul _ s.S,
    show s.Sᵀ * (rm r.x * (W * selCols r sel))ᵀ * (rm r.x * (W * selCols r sel) * s.S) =
      s.Sᵀ * ((rm r.x * (W * selCols r sel))ᵀ * (rm r.x * (W * selCols r sel))) * s.S by simp only [Matrix.mul_assoc],
    inv?_conj _ _ _ s.hS s.hSi, Option.map_map, hu, wxu_tr t h W sel s, s2_tr]
  congr 1
  funext V
  simp only [Function.comp_apply, smul_vecMul, dotProduct_smul, smul_dotProduct, quad_tr _ _ _ s.hS, smul_eq_mul]
  rw [← mul_assoc, ← pow_two, mul_div_mul_left _ _ (pow_ne_zero 2 t.hc)]

theorem durbin_eq {x : Matrix n k ℝ} {y : n → ℝ} {r : Reg n k} (h : LM.reg x y = some r) (hu : ∃ i, r.fit.u i ≠ 0)
    (W : Matrix n n ℝ) (sel : q → k) :
    let Z : Matrix n (Unit ⊕ q) ℝ := fromCols (Matrix.of fun i (_ : Unit) => (W *ᵥ r.fit.predy) i) (W * selCols r sel)
    let dd : Unit ⊕ q → ℝ := Sum.elim (fun _ => (r.fit.u ⬝ᵥ (W *ᵥ r.y)) / r.s2) fun j => ((W * selCols r sel)ᵀ *ᵥ r.fit.u) j / r.s2
    lmSpDurbin r W sel = (inv? ((rm r.x * Z)ᵀ * (rm r.x * Z) + fromBlocks (Matrix.of fun _ _ => tr_t W * r.s2) 0 0 0)).map fun V =>
      { stat := (dd ᵥ* (r.s2 • V)) ⬝ᵥ dd, df := Fintype.card k } := by
  intro Z dd
  have hs := s2_pos r hu
  have hn : (0 : ℝ) < r.nn := by
    obtain ⟨i, -⟩ := hu
    have : Nonempty n := ⟨i⟩
    unfold Reg.nn; exact_mod_cast Fintype.card_pos
  obtain ⟨hx, hr⟩ := reg_eq_some h
  have hrx : r.x = x := by rw [hr]
  have hxtx : r.fit.xtx = xᵀ * x := by rw [hr]; rfl
  have hne : r.nn / (2 * r.s2) ≠ 0 := by positivity
  have hJ : (fromBlocks (xᵀ * x) 0 0 (Matrix.of fun _ _ => r.nn / (2 * r.s2)) : Matrix (k ⊕ Unit) (k ⊕ Unit) ℝ) *
      fromBlocks (xᵀ * x)⁻¹ 0 0 (Matrix.of fun _ _ => (r.nn / (2 * r.s2))⁻¹) = 1 := by
    rw [fromBlocks_multiply]
    simp only [mul_nonsing_inv _ hx, Matrix.mul_zero, Matrix.zero_mul, add_zero, zero_add]
    rw [← fromBlocks_one]
    congr 1
    ext i j
    simp only [mul_apply, Finset.univ_unique, Matrix.of_apply, Finset.sum_const, Finset.card_singleton, one_smul,
      mul_inv_cancel₀ hne]
    rfl
  have hJi : inv? (fromBlocks (xᵀ * x) 0 0 (Matrix.of fun _ _ => r.nn / (2 * r.s2)) : Matrix (k ⊕ Unit) (k ⊕ Unit) ℝ) =
      some (fromBlocks (xᵀ * x)⁻¹ 0 0 (Matrix.of fun _ _ => (r.nn / (2 * r.s2))⁻¹)) := by
    rw [inv?_of_isUnit (Matrix.isUnit_det_of_right_inverse hJ), Matrix.inv_eq_right_inv hJ]
  unfold lmSpDurbin
  simp only [hrx, hxtx]
  rw [hJi, Option.bind_some]
  have hpp : ∑ i, (Wᵀ * W + W * W) i i = tr_t W := by
    unfold tr_t; rw [Matrix.add_mul]
  rw [hpp, spd_matrix x hx _ _ (tr_t W * r.s2) _ hne _ hJ, dotProduct_comm (W *ᵥ r.y)]

/-- The change of basis of (lag of the prediction, lags of the regressors). -/
def durS (c : ℝ) (S : Matrix q q ℝ) : Matrix (Unit ⊕ q) (Unit ⊕ q) ℝ := fromBlocks (Matrix.of fun _ _ => c) 0 0 S

theorem durS_mul (c d : ℝ) (h : c * d = 1) (S Si : Matrix q q ℝ) (hS : S * Si = 1) : durS c S * durS d Si = 1 := by
  unfold durS
  rw [fromBlocks_multiply]
  simp only [hS, Matrix.mul_zero, Matrix.zero_mul, add_zero, zero_add]
  rw [← fromBlocks_one]
  congr 1
  ext i j
  simp [mul_apply, h]

/-- **C150** (Durbin tests): the joint test against a lag and lagged regressors, and the robust tests derived from it, are the
same for the data in another order, in other units and in another basis. -/
theorem C150_durbin (t : Tr m n k) (x : Matrix n k ℝ) (y : n → ℝ) (r : Reg n k) (h : LM.reg x y = some r)
    (hu : ∃ i, r.fit.u i ≠ 0) (W : Matrix n n ℝ) (hd : ∃ e, W *ᵥ (x *ᵥ t.d) = x *ᵥ e) (sel : q → k) (s : Sel t x W sel) :
    ∃ r', LM.reg (t.x x) (t.y x y) = some r' ∧ lmSpDurbin r' (t.w W) sel = lmSpDurbin r W sel ∧
      (∀ sd, rlmWX r' sd (lmLag r' (t.w W)) = rlmWX r sd (lmLag r W)) ∧
      (∀ wx, lmSlxErr r' (lmErr r' (t.w W)) wx = lmSlxErr r (lmErr r W) wx) := by
  obtain ⟨e, he⟩ := hd
  obtain ⟨hx, hr⟩ := reg_eq_some h
  have h1 : r.x = x := by rw [hr]
  subst h1
  obtain ⟨r', hr', hlag, -⟩ := C150_lag_tests t _ y r h W ⟨e, he⟩
  obtain rfl : t.reg r = r' := Option.some.inj ((reg_tr t _ y r h).symm.trans hr')
  obtain ⟨r'', hr'', herr, -⟩ := C150_error_tests t _ y r h W
  obtain rfl : t.reg r = r'' := Option.some.inj ((reg_tr t _ y r h).symm.trans hr'')
  refine ⟨_, hr', ?_, fun sd => by rw [hlag]; rfl, fun wx => by rw [herr]; rfl⟩
  have hu' : ∃ i, (t.reg r).fit.u i ≠ 0 := by
    obtain ⟨i, hi⟩ := hu
    refine ⟨t.σ.symm i, ?_⟩
    show t.c * r.fit.u (t.σ (t.σ.symm i)) ≠ 0
    rw [Equiv.apply_symm_apply]
    exact mul_ne_zero t.hc hi
  have hs0 : r.s2 ≠ 0 := (s2_pos r hu).ne'
  have hy := utwyDs_tr t _ y r h W e he
  unfold utwyDs at hy
  rw [durbin_eq h hu, durbin_eq hr' hu', hy]
  have hux : (t.reg r).fit.u = t.u r.fit.u := rfl
  have hZ : rm (t.reg r).x * fromCols (Matrix.of fun i (_ : Unit) => (t.w W *ᵥ (t.reg r).fit.predy) i) (t.w W * selCols (t.reg r) sel)
      = (rm r.x * fromCols (Matrix.of fun i (_ : Unit) => (W *ᵥ r.fit.predy) i) (W * selCols r sel) * durS t.c s.S).submatrix t.σ id := by
    rw [mul_fromCols, mul_fromCols]
    have e1 := rm_lag_tr t r.x hx W e he r.fit.predy
    have e2 := rm_wx_tr t r hx W sel s
    ext i j
    rcases j with j | j
    · have := congrFun e1 i
      simp only [durS, fromCols_mul_fromBlocks, Matrix.mul_zero, add_zero, submatrix_apply, id, fromCols_apply_inl]
      rw [show (rm (t.reg r).x * Matrix.of fun i (_ : Unit) => (t.w W *ᵥ (t.reg r).fit.predy) i) i j =
        (rm (t.x r.x) *ᵥ (t.w W *ᵥ t.y r.x r.fit.predy)) i from rfl, this, mul_apply]
      simp only [Finset.univ_unique, Finset.sum_singleton, Matrix.of_apply, Tr.u]
      rw [mul_comm]
      rfl
    · have := congrFun (congrFun e2 i) j
      simp only [durS, fromCols_mul_fromBlocks, Matrix.mul_zero, zero_add, submatrix_apply, id, fromCols_apply_inr] at this ⊢
      exact this
  have hcorner : (fromBlocks (Matrix.of fun _ _ => tr_t (t.w W) * (t.reg r).s2) 0 0 0 : Matrix (Unit ⊕ q) (Unit ⊕ q) ℝ) =
      (durS t.c s.S)ᵀ * fromBlocks (Matrix.of fun _ _ => tr_t W * r.s2) 0 0 0 * durS t.c s.S := by
    unfold durS
    rw [fromBlocks_transpose, fromBlocks_multiply, fromBlocks_multiply, tr_t_tr, s2_tr]
    simp only [Matrix.mul_zero, Matrix.zero_mul, add_zero, transpose_zero]
    congr 1
    ext i j
    simp only [mul_apply, Finset.univ_unique, Finset.sum_singleton, Matrix.of_apply, transpose_apply]
    ring
  have hci : t.c * t.c⁻¹ = 1 := mul_inv_cancel₀ t.hc
  rw [hZ, transpose_submatrix, sub_mul_sub, transpose_mul _ (durS t.c s.S), hcorner]
  generalize hZZ : rm r.x * fromCols (Matrix.of fun i (_ : Unit) => (W *ᵥ r.fit.predy) i) (W * selCols r sel) = B
  rw [show (durS t.c s.S)ᵀ * Bᵀ * (B * durS t.c s.S) +
      (durS t.c s.S)ᵀ * fromBlocks (Matrix.of fun _ _ => tr_t W * r.s2) 0 0 0 * durS t.c s.S =
      (durS t.c s.S)ᵀ * (Bᵀ * B + fromBlocks (Matrix.of fun _ _ => tr_t W * r.s2) 0 0 0) * durS t.c s.S by
    rw [Matrix.mul_add, Matrix.add_mul]; simp only [Matrix.mul_assoc],
    inv?_conj _ _ _ (durS_mul t.c t.c⁻¹ hci s.S s.Si s.hS) (durS_mul t.c⁻¹ t.c (by rw [mul_comm, hci]) s.Si s.S s.hSi), Option.map_map]
  congr 1
  funext V
  simp only [Function.comp_apply]
  have hdd : (Sum.elim (fun _ => (r.fit.u ⬝ᵥ (W *ᵥ r.y)) / r.s2) fun j =>
        ((t.w W * selCols (t.reg r) sel)ᵀ *ᵥ (t.reg r).fit.u) j / (t.reg r).s2 : Unit ⊕ q → ℝ) =
      t.c⁻¹ • ((durS t.c s.S)ᵀ *ᵥ (Sum.elim (fun _ => (r.fit.u ⬝ᵥ (W *ᵥ r.y)) / r.s2) fun j =>
        ((W * selCols r sel)ᵀ *ᵥ r.fit.u) j / r.s2)) := by
    rw [hux, wxu_tr t h W sel s, s2_tr]
    unfold durS
    rw [fromBlocks_transpose, fromBlocks_mulVec]
    have hc := t.hc
    funext j
    rcases j with j | j
    · simp [mulVec, dotProduct, hc]
    · have : (s.Sᵀ *ᵥ fun j => ((W * selCols r sel)ᵀ *ᵥ r.fit.u) j / r.s2) j = (s.Sᵀ *ᵥ ((W * selCols r sel)ᵀ *ᵥ r.fit.u)) j / r.s2 := by
        rw [show (fun j => ((W * selCols r sel)ᵀ *ᵥ r.fit.u) j / r.s2) = r.s2⁻¹ • ((W * selCols r sel)ᵀ *ᵥ r.fit.u) by
          funext j; simp [div_eq_inv_mul], mulVec_smul]
        simp [div_eq_inv_mul]
      simp only [Sum.elim_inr, Pi.smul_apply, smul_eq_mul, transpose_zero, zero_mulVec, zero_add, Sum.elim_comp_inr, this]
      field_simp
  rw [hdd, s2_tr]
  simp only [smul_vecMul, dotProduct_smul, smul_dotProduct, vecMul_smul, smul_eq_mul, quad_tr _ _ _ (durS_mul t.c t.c⁻¹ hci s.S s.Si s.hS)]
  have hc := t.hc
  congr 1
  field_simp

/-! ### Anselin-Kelejian test -/

omit [DecidableEq m] [DecidableEq n] in
/-- **C150** (Anselin-Kelejian): the test of the residuals of 2SLS is the same for the data in another order, in other units, in
another basis of regressors and of instruments, and with a combination of the regressors added to the dependent variable. -/
theorem C150_ak (t : Tr m n k) (B Bi : Matrix q q ℝ) (hB : B * Bi = 1) (hBi : Bi * B = 1) (z : Matrix n k ℝ) (hh : Matrix n q ℝ)
    (y : n → ℝ) (o : TSLSFit n k q) (h : tslsZH z hh y = some o) (W : Matrix n n ℝ) :
    ∃ o', tslsZH (t.x z) (trH t.σ B hh) (t.y z y) = some o' ∧
      akTest o'.u (t.x z) o'.varb (t.w W) = akTest o.u z o.varb W := by
  have hE := t.tslsE B Bi hB hBi z hh y
  unfold GM.tslsE at hE
  rw [h] at hE
  cases ho : tslsZH (t.x z) (trH t.σ B hh) (t.y z y) with
  | none => rw [ho] at hE; cases hE
  | some o' =>
    rw [ho] at hE
    have e : o' = t.tsls Bi z o := Except.ok.inj hE
    refine ⟨o', rfl, ?_⟩
    rw [e]
    show akTest (t.u o.u) (t.x z) (t.Ti * o.varb * t.Tiᵀ) (t.w W) = _
    have hz : t.u o.u ᵥ* (t.w W * t.x z) = t.c • (t.Tᵀ *ᵥ (o.u ᵥ* (W * z))) := by
      have : t.w W * t.x z = (W * z * t.T).submatrix t.σ id := by
        unfold Tr.w Tr.x
        rw [subσ_mul, Matrix.mul_assoc]
      rw [this, ← mulVec_transpose, transpose_submatrix, t.u_eq, subσ_mulVec]
      funext j
      simp only [id]
      rw [mulVec_smul, transpose_mul, ← mulVec_mulVec, ← mulVec_transpose]
    have hq : (t.u o.u ᵥ* (t.w W * t.x z)) ⬝ᵥ ((t.Ti * o.varb * t.Tiᵀ) *ᵥ (t.u o.u ᵥ* (t.w W * t.x z))) =
        t.c ^ 2 * ((o.u ᵥ* (W * z)) ⬝ᵥ (o.varb *ᵥ (o.u ᵥ* (W * z)))) := by
      rw [hz, dotProduct_mulVec, smul_vecMul, dotProduct_smul, smul_dotProduct, quad_tr _ _ _ t.hT, dotProduct_mulVec,
        smul_eq_mul, smul_eq_mul, ← mul_assoc, ← pow_two]
    have hs : sig2n (t.u o.u) = t.c ^ 2 * sig2n o.u := by
      unfold sig2n
      rw [utu_eq_dot, utu_eq_dot, t.u_dot, Fintype.card_congr t.σ]
      ring
    have hc2 : t.c ^ 2 ≠ 0 := pow_ne_zero 2 t.hc
    unfold akTest
    simp only
    rw [hq, hs, t.w_mulVec, utu_eq_dot (t.u o.u), utu_eq_dot o.u, t.u_dot, t.u_dot, s0_tr, tr_t_tr, Fintype.card_congr t.σ]
    have e1 : 4 / (t.c ^ 2 * sig2n o.u) * (t.c ^ 2 * ((o.u ᵥ* (W * z)) ⬝ᵥ (o.varb *ᵥ (o.u ᵥ* (W * z))))) =
        4 / sig2n o.u * ((o.u ᵥ* (W * z)) ⬝ᵥ (o.varb *ᵥ (o.u ᵥ* (W * z)))) := by
      rw [div_mul_eq_mul_div, div_mul_eq_mul_div, show ∀ a : ℝ, 4 * (t.c ^ 2 * a) = t.c ^ 2 * (4 * a) from fun a => by ring,
        mul_div_mul_left _ _ hc2]
    have e2 : (Fintype.card n : ℝ) * (t.c ^ 2 * (o.u ⬝ᵥ W *ᵥ o.u)) / (s0 W * (t.c ^ 2 * (o.u ⬝ᵥ o.u))) =
        (Fintype.card n : ℝ) * (o.u ⬝ᵥ W *ᵥ o.u) / (s0 W * (o.u ⬝ᵥ o.u)) := by
      rw [show (Fintype.card n : ℝ) * (t.c ^ 2 * (o.u ⬝ᵥ W *ᵥ o.u)) = t.c ^ 2 * ((Fintype.card n : ℝ) * (o.u ⬝ᵥ W *ᵥ o.u)) by ring,
        show s0 W * (t.c ^ 2 * (o.u ⬝ᵥ o.u)) = t.c ^ 2 * (s0 W * (o.u ⬝ᵥ o.u)) by ring, mul_div_mul_left _ _ hc2]
    rw [e1, e2]

/-! ### Units and origin of each variable -/

/-- New origin and unit of each regressor but the constant `j0`, and of the dependent variable. -/
noncomputable def _root_.Spreg.GM.Tr.origin (σ : m ≃ n) (j0 : k) (s a : k → ℝ) (hs : ∀ j, s j ≠ 0) (hs0 : s j0 = 1) (ha0 : a j0 = 0)
    (c : ℝ) (hc : c ≠ 0) (b : ℝ) : Tr m n k where
  σ := σ
  T := Matrix.of fun l j => (if l = j then s j else 0) + if l = j0 then a j else 0
  Ti := Matrix.of fun l j => (if l = j then (s j)⁻¹ else 0) - if l = j0 then a j * (s j)⁻¹ else 0
  c := c
  d := Pi.single j0 b
  hT := by
    ext l j
    simp only [mul_apply, Matrix.of_apply, add_mul, mul_sub, ite_mul, mul_ite, zero_mul, mul_zero, Finset.sum_add_distrib,
      Finset.sum_sub_distrib, Finset.sum_ite_eq, Finset.sum_ite_eq', Finset.mem_univ, if_true, hs0, ha0]
    by_cases h1 : l = j <;> by_cases h2 : l = j0 <;> simp [h1, h2, hs, hs0, ha0, Matrix.one_apply]
  hTi := by
    ext l j
    simp only [mul_apply, Matrix.of_apply, sub_mul, mul_add, ite_mul, mul_ite, zero_mul, mul_zero, Finset.sum_add_distrib,
      Finset.sum_sub_distrib, Finset.sum_ite_eq, Finset.sum_ite_eq', Finset.mem_univ, if_true, hs0, ha0]
    by_cases h1 : l = j <;> by_cases h2 : l = j0 <;> simp [h1, h2, hs, hs0, ha0, Matrix.one_apply]
  hc := hc

/-- **C150** (in plain terms): with row sums one and a constant among the regressors, every spatial diagnostic is the same when
the observations are listed in another order and every variable is measured in another unit and from another origin. -/
theorem C150_units_origin (σ : m ≃ n) (x : Matrix n k ℝ) (y : n → ℝ) (r : Reg n k) (h : LM.reg x y = some r)
    (hu : ∃ i, r.fit.u i ≠ 0) (W : Matrix n n ℝ) (hrow : ∀ i, ∑ j, W i j = 1) (j0 : k) (hone : ∀ i, x i j0 = 1)
    (sel : q → k) (s a : k → ℝ) (hs : ∀ j, s j ≠ 0) (hs0 : s j0 = 1) (ha0 : a j0 = 0)
    (c b : ℝ) (hc : c ≠ 0) :
    ∃ r', LM.reg (Matrix.of fun i j => s j * x (σ i) j + a j) (fun i => c * y (σ i) + b) = some r' ∧
      let W' : Matrix m m ℝ := Matrix.of fun i j => W (σ i) (σ j)
      lmErr r' W' = lmErr r W ∧ mI r' W' = mI r W ∧ eI r' W' = eI r W ∧ vI r' W' = vI r W ∧
      lmLag r' W' = lmLag r W ∧ rlmErr r' W' = rlmErr r W ∧ rlmLag r' W' = rlmLag r W ∧ lmSarma r' W' = lmSarma r W ∧
      lmWX r' W' sel = lmWX r W sel ∧ lmSpDurbin r' W' sel = lmSpDurbin r W sel := by
  set t := Tr.origin (m := m) (n := n) σ j0 s a hs hs0 ha0 c hc b with ht
  have hxt : t.x x = Matrix.of fun i j => s j * x (σ i) j + a j := by
    ext i j
    simp only [Tr.x, ht, Tr.origin, submatrix_apply, id, mul_apply, Matrix.of_apply, mul_add, mul_ite, mul_zero,
      Finset.sum_add_distrib, Finset.sum_ite_eq', Finset.mem_univ, if_true, hone, one_mul]
    ring
  have hyt : t.y x y = fun i => c * y (σ i) + b := by
    funext i
    show c * y (σ i) + (x *ᵥ Pi.single j0 b) (σ i) = _
    rw [mulVec_single]
    simp [hone]
  have hd : W *ᵥ (x *ᵥ t.d) = x *ᵥ t.d := by
    have : x *ᵥ t.d = fun _ => b := by
      show x *ᵥ Pi.single j0 b = _
      rw [mulVec_single]
      funext i
      simp [hone]
    rw [this]
    funext i
    simp [mulVec, dotProduct, ← Finset.sum_mul, hrow]
  have hS : Sel t x W sel :=
    { S := diagonal fun j => s (sel j)
      Si := diagonal fun j => (s (sel j))⁻¹
      C := Matrix.of fun l j => if l = j0 then a (sel j) else 0
      hS := by
        rw [diagonal_mul_diagonal, ← diagonal_one]
        congr 1
        funext j
        exact mul_inv_cancel₀ (hs _)
      hSi := by
        rw [diagonal_mul_diagonal, ← diagonal_one]
        congr 1
        funext j
        exact inv_mul_cancel₀ (hs _)
      lag := by
        have hsub : (x * t.T).submatrix id sel = x.submatrix id sel * (diagonal fun j => s (sel j)) +
            Matrix.of fun _ j => a (sel j) := by
          ext i j
          have := congrFun (congrFun hxt (σ.symm i)) (sel j)
          simp only [Tr.x, submatrix_apply, id, Matrix.of_apply, show t.σ = σ from rfl, Equiv.apply_symm_apply] at this
          simp only [submatrix_apply, id, Matrix.add_apply, mul_diagonal, Matrix.of_apply, this]
          ring
        rw [hsub, Matrix.mul_add, ← Matrix.mul_assoc]
        congr 1
        ext i j
        simp only [mul_apply, Matrix.of_apply, ← Finset.sum_mul, hrow, one_mul, mul_ite, mul_zero, Finset.sum_ite_eq',
          Finset.mem_univ, if_true, hone] }
  obtain ⟨r1, h1, e1, e2, e3, e4⟩ := C150_error_tests t x y r h W
  obtain ⟨r2, h2, f1, f2, f3, f4⟩ := C150_lag_tests t x y r h W ⟨_, hd⟩
  obtain ⟨r3, h3, g1⟩ := C150_lmWX t x y r h W sel hS
  obtain ⟨r4, h4, g2, -⟩ := C150_durbin t x y r h hu W ⟨_, hd⟩ sel hS
  obtain rfl : r1 = r2 := Option.some.inj (h1.symm.trans h2)
  obtain rfl : r1 = r3 := Option.some.inj (h1.symm.trans h3)
  obtain rfl : r1 = r4 := Option.some.inj (h1.symm.trans h4)
  rw [hxt, hyt] at h1
  exact ⟨r1, h1, e1, e2, e3, e4, f1, f2, f3, f4, g1, g2⟩

/-- A case that meets the hypotheses: three units on a line with row sums one, `exX` and `exY` of the OLS examples. -/
example : (∃ r, LM.reg exX exY = some r ∧ ∃ i, r.fit.u i ≠ 0) ∧
    (∀ i, ∑ j, (!![0, 1, 0; 1/2, 0, 1/2; 0, 1, 0] : Matrix (Fin 3) (Fin 3) ℝ) i j = 1) ∧ (∀ i, exX i 0 = 1) := by
  obtain ⟨r, h1, h2, -⟩ := exDurbin
  refine ⟨⟨r, h1, h2⟩, fun i => ?_, fun i => ?_⟩
  · fin_cases i <;> simp [Fin.sum_univ_three] <;> norm_num
  · fin_cases i <;> simp [exX]

end Spreg.LM
