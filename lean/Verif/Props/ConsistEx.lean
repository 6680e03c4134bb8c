import Verif.Props.Consist
import Verif.Props.DGPRandom
set_option linter.unusedSectionVars false
namespace Spreg.Consist
open Spreg Spreg.Lin Spreg.LagReg Spreg.Sampling Matrix MeasureTheory Filter Topology

section rep
variable {m kx : Type} [Fintype m] [DecidableEq m] [Fintype kx] [DecidableEq kx]

/-- `t + 1` copies of a map, not connected with each other. -/
def repW (W0 : Matrix m m ℝ) (t : ℕ) : Matrix (m × Fin (t + 1)) (m × Fin (t + 1)) ℝ := blockDiagonal fun _ => W0
/-- The same values in each copy. -/
def repX (x0 : Matrix m kx ℝ) (t : ℕ) : Matrix (m × Fin (t + 1)) kx ℝ := x0.submatrix Prod.fst id

theorem repW_mulVec (W0 : Matrix m m ℝ) (t : ℕ) (v : m → ℝ) : repW W0 t *ᵥ (fun i => v i.1) = fun i => (W0 *ᵥ v) i.1 := by
  funext i
  show ∑ j, repW W0 t i j * v j.1 = ∑ j, W0 i.1 j * v j
  rw [Fintype.sum_prod_type]
  refine Finset.sum_congr rfl fun j _ => ?_
  rw [Finset.sum_eq_single i.2]
  · rw [repW, blockDiagonal_apply, if_pos rfl]
  · intro b _ hb
    rw [repW, blockDiagonal_apply, if_neg (Ne.symm hb), zero_mul]
  · intro h; exact absurd (Finset.mem_univ _) h

theorem repW_pow_mul (W0 : Matrix m m ℝ) (t p : ℕ) (x0 : Matrix m kx ℝ) : repW W0 t ^ p * repX x0 t = repX (W0 ^ p * x0) t := by
  have : repW W0 t ^ p = repW (W0 ^ p) t := by
    show blockDiagonal _ ^ p = _
    rw [← blockDiagonal_pow]; rfl
  rw [this]
  ext i j
  exact congrFun (repW_mulVec (W0 ^ p) t fun i => x0 i j) i

theorem repH (W0 : Matrix m m ℝ) (x0 : Matrix m kx ℝ) (L : ℕ) (lagQ : Bool) (t : ℕ) :
    lagH (repW W0 t) (repX x0 t) (0 : Matrix _ Empty ℝ) L lagQ = (lagH W0 x0 (0 : Matrix _ Empty ℝ) L lagQ).submatrix Prod.fst id := by
  ext i j
  rcases j with (j | j) | (j | ⟨j | j, p⟩)
  · rfl
  · rfl
  · rfl
  · show (repW W0 t ^ (p.1 + 1) * lagVars (repX x0 t) 0 lagQ) i (.inl j) = (W0 ^ (p.1 + 1) * lagVars x0 0 lagQ) i.1 (.inl j)
    exact congrFun (congrFun (repW_pow_mul W0 t (p.1 + 1) x0) i) j
  · exact j.1.elim

theorem repZ (W0 : Matrix m m ℝ) (x0 : Matrix m kx ℝ) (y0 : m → ℝ) (t : ℕ) :
    lagZ (repW W0 t) (repX x0 t) (0 : Matrix _ Empty ℝ) (fun i => y0 i.1) = (lagZ W0 x0 (0 : Matrix _ Empty ℝ) y0).submatrix Prod.fst id := by
  ext i j
  rcases j with (j | j) | (j | j)
  · rfl
  · rfl
  · rfl
  · exact congrFun (repW_mulVec W0 t y0) i

theorem rep_inv (W0 : Matrix m m ℝ) (rho : ℝ) (hreg : IsUnit (1 - rho • W0).det) (t : ℕ) :
    IsUnit (1 - rho • repW W0 t).det ∧ (1 - rho • repW W0 t)⁻¹ = repW (1 - rho • W0)⁻¹ t := by
  have e : (1 - rho • repW W0 t) * repW (1 - rho • W0)⁻¹ t = 1 := by
    have h1 : 1 - rho • repW W0 t = repW (1 - rho • W0) t := by
      ext i j
      simp only [repW, Matrix.sub_apply, Matrix.smul_apply, blockDiagonal_apply, one_apply, Prod.ext_iff]
      by_cases h : i.2 = j.2 <;> simp [h]
    rw [h1]
    show blockDiagonal _ * blockDiagonal _ = _
    rw [← blockDiagonal_mul, mul_nonsing_inv _ hreg]
    exact blockDiagonal_one
  exact ⟨isUnit_det_of_right_inverse e, inv_eq_right_inv e⟩

theorem rep_abs (G0 : Matrix m m ℝ) (t : ℕ) :
    (∀ i, ∑ j, |repW G0 t i j| ≤ ∑ i, ∑ j, |G0 i j|) ∧ ∀ j, ∑ i, |repW G0 t i j| ≤ ∑ i, ∑ j, |G0 i j| := by
  have key : ∀ i j : m × Fin (t + 1), |repW G0 t i j| = if i.2 = j.2 then |G0 i.1 j.1| else 0 := by
    intro i j
    rw [repW, blockDiagonal_apply]; split <;> simp
  constructor
  · intro i
    have : ∑ j, |repW G0 t i j| = ∑ j, |G0 i.1 j| := by
      simp only [key, Fintype.sum_prod_type, Finset.sum_ite_eq, Finset.mem_univ, if_true]
    rw [this]
    exact Finset.single_le_sum (f := fun i => ∑ j, |G0 i j|) (fun i _ => Finset.sum_nonneg fun j _ => abs_nonneg _) (Finset.mem_univ i.1)
  · intro j
    have : ∑ i, |repW G0 t i j| = ∑ i, |G0 i j.1| := by
      simp only [key, Fintype.sum_prod_type, Finset.sum_ite_eq', Finset.mem_univ, if_true]
    rw [this]
    exact Finset.sum_le_sum fun i _ => Finset.single_le_sum (f := fun j => |G0 i j|) (fun j _ => abs_nonneg _) (Finset.mem_univ j.1)

theorem rep_avg [Nonempty m] (f : m → ℝ) (t : ℕ) : (∑ o : m × Fin (t + 1), f o.1) / Fintype.card (m × Fin (t + 1)) = (∑ o, f o) / Fintype.card m := by
  rw [Fintype.sum_prod_type]
  simp only [Finset.sum_const, Finset.card_univ, Fintype.card_fin, nsmul_eq_mul, Fintype.card_prod, ← Finset.mul_sum]
  have : ((t + 1 : ℕ) : ℝ) ≠ 0 := by positivity
  rw [Nat.cast_mul, mul_comm (Fintype.card m : ℝ), mul_div_mul_left _ _ this]

/-- A positive definite limit of the instruments and regressors that are not collinear with them give limits of full rank. -/
theorem rank_ok {l k : Type} [Fintype l] [Fintype k] [DecidableEq l] [DecidableEq k] (B : Matrix l l ℝ) (Q : Matrix l k ℝ) (hB : B.PosDef)
    (hQ : ∀ v, Q *ᵥ v = 0 → v = 0) : B.det ≠ 0 ∧ (Qᵀ * B⁻¹ * Q).det ≠ 0 := by
  refine ⟨hB.det_pos.ne', fun h0 => ?_⟩
  obtain ⟨v, hv, hz⟩ := Matrix.exists_mulVec_eq_zero_iff.2 h0
  refine hv (hQ v ?_)
  by_contra hne
  have hp := (posDef_iff_dotProduct_mulVec.1 hB.inv).2 hne
  have : v ⬝ᵥ ((Qᵀ * B⁻¹ * Q) *ᵥ v) = 0 := by rw [hz, dotProduct_zero]
  rw [← mulVec_mulVec, ← mulVec_mulVec, dotProduct_mulVec, vecMul_transpose] at this
  simp only [star_trivial] at hp
  linarith

/-- Limits of the cross products of unconnected copies of a map on which the model is identified. -/
theorem rep_limits [Nonempty m] (W0 : Matrix m m ℝ) (x0 : Matrix m kx ℝ) (a : ℝ) (b : kx → ℝ) (rho : ℝ) (hreg : IsUnit (1 - rho • W0).det) (L : ℕ) (lagQ : Bool)
    (hH : ∀ v, lagH W0 x0 (0 : Matrix m Empty ℝ) L lagQ *ᵥ v = 0 → v = 0)
    (hZ : ∀ v, (lagH W0 x0 (0 : Matrix m Empty ℝ) L lagQ)ᵀ *ᵥ
      (lagZ W0 x0 (0 : Matrix m Empty ℝ) ((1 - rho • W0)⁻¹ *ᵥ fun i => a + ∑ j, x0 i j * b j) *ᵥ v) = 0 → v = 0) :
    (((Fintype.card m : ℝ)⁻¹ • ((lagH W0 x0 (0 : Matrix m Empty ℝ) L lagQ)ᵀ * lagH W0 x0 (0 : Matrix m Empty ℝ) L lagQ)).det ≠ 0) ∧
    ((((Fintype.card m : ℝ)⁻¹ • ((lagH W0 x0 (0 : Matrix m Empty ℝ) L lagQ)ᵀ *
        lagZ W0 x0 (0 : Matrix m Empty ℝ) ((1 - rho • W0)⁻¹ *ᵥ fun i => a + ∑ j, x0 i j * b j)))ᵀ *
      ((Fintype.card m : ℝ)⁻¹ • ((lagH W0 x0 (0 : Matrix m Empty ℝ) L lagQ)ᵀ * lagH W0 x0 (0 : Matrix m Empty ℝ) L lagQ))⁻¹ *
      ((Fintype.card m : ℝ)⁻¹ • ((lagH W0 x0 (0 : Matrix m Empty ℝ) L lagQ)ᵀ *
        lagZ W0 x0 (0 : Matrix m Empty ℝ) ((1 - rho • W0)⁻¹ *ᵥ fun i => a + ∑ j, x0 i j * b j)))).det ≠ 0) ∧
    (∀ i j, Tendsto (fun t => (∑ o, lagH (repW W0 t) (repX x0 t) (0 : Matrix _ Empty ℝ) L lagQ o i *
      lagH (repW W0 t) (repX x0 t) (0 : Matrix _ Empty ℝ) L lagQ o j) / (Fintype.card (m × Fin (t + 1)) : ℝ)) atTop
      (𝓝 (((Fintype.card m : ℝ)⁻¹ • ((lagH W0 x0 (0 : Matrix m Empty ℝ) L lagQ)ᵀ * lagH W0 x0 (0 : Matrix m Empty ℝ) L lagQ)) i j))) ∧
    (∀ i j, Tendsto (fun t => (∑ o, lagH (repW W0 t) (repX x0 t) (0 : Matrix _ Empty ℝ) L lagQ o i *
      lagZ (repW W0 t) (repX x0 t) (0 : Matrix _ Empty ℝ) ((1 - rho • repW W0 t)⁻¹ *ᵥ fun i => a + ∑ j, repX x0 t i j * b j) o j) /
        (Fintype.card (m × Fin (t + 1)) : ℝ)) atTop
      (𝓝 (((Fintype.card m : ℝ)⁻¹ • ((lagH W0 x0 (0 : Matrix m Empty ℝ) L lagQ)ᵀ *
        lagZ W0 x0 (0 : Matrix m Empty ℝ) ((1 - rho • W0)⁻¹ *ᵥ fun i => a + ∑ j, x0 i j * b j))) i j))) := by
  have hmpos : (0 : ℝ) < Fintype.card m := by exact_mod_cast Fintype.card_pos
  set H0 := lagH W0 x0 (0 : Matrix m Empty ℝ) L lagQ with hH0
  set Z0 := lagZ W0 x0 (0 : Matrix m Empty ℝ) ((1 - rho • W0)⁻¹ *ᵥ fun i => a + ∑ j, x0 i j * b j) with hZ0
  have hBpd : ((Fintype.card m : ℝ)⁻¹ • (H0ᵀ * H0)).PosDef := by
    refine Matrix.PosDef.smul ?_ (inv_pos.2 hmpos)
    have := Matrix.PosDef.conjTranspose_mul_self H0 (fun u v huv => by
      have : H0 *ᵥ (u - v) = 0 := by rw [mulVec_sub, sub_eq_zero]; exact huv
      exact sub_eq_zero.1 (hH _ this))
    rwa [conjTranspose_eq_transpose_of_trivial] at this
  obtain ⟨r1, r2⟩ := rank_ok ((Fintype.card m : ℝ)⁻¹ • (H0ᵀ * H0)) ((Fintype.card m : ℝ)⁻¹ • (H0ᵀ * Z0)) hBpd (fun v hv => by
    rw [smul_mulVec, smul_eq_zero] at hv
    rcases hv with hv | hv
    · exact absurd hv (inv_ne_zero hmpos.ne')
    · rw [← mulVec_mulVec] at hv; exact hZ v hv)
  have hmean : ∀ t, (1 - rho • repW W0 t)⁻¹ *ᵥ (fun i => a + ∑ j, repX x0 t i j * b j) =
      fun i => ((1 - rho • W0)⁻¹ *ᵥ fun i => a + ∑ j, x0 i j * b j) i.1 := by
    intro t
    rw [(rep_inv W0 rho hreg t).2]
    exact repW_mulVec _ t fun i => a + ∑ j, x0 i j * b j
  refine ⟨r1, r2, ?_, ?_⟩
  · intro i j
    refine tendsto_const_nhds.congr fun t => ?_
    rw [repH]
    refine Eq.trans ?_ (rep_avg (fun o => H0 o i * H0 o j) t).symm
    rw [Matrix.smul_apply, mul_apply, div_eq_inv_mul]; rfl
  · intro i j
    refine tendsto_const_nhds.congr fun t => ?_
    rw [repH, hmean t, repZ]
    refine Eq.trans ?_ (rep_avg (fun o => H0 o i * Z0 o j) t).symm
    rw [Matrix.smul_apply, mul_apply, div_eq_inv_mul]; rfl

/-- C182 on a concrete class of experiments: `t + 1` unconnected copies of any map on which the model is identified, with independent standard normal
errors. -/
theorem rep_consistent [Nonempty m] (W0 : Matrix m m ℝ) (x0 : Matrix m kx ℝ) (a : ℝ) (b : kx → ℝ) (rho : ℝ) (hreg : IsUnit (1 - rho • W0).det) (L : ℕ) (lagQ : Bool)
    (hH : ∀ v, lagH W0 x0 (0 : Matrix m Empty ℝ) L lagQ *ᵥ v = 0 → v = 0)
    (hZ : ∀ v, (lagH W0 x0 (0 : Matrix m Empty ℝ) L lagQ)ᵀ *ᵥ
      (lagZ W0 x0 (0 : Matrix m Empty ℝ) ((1 - rho • W0)⁻¹ *ᵥ fun i => a + ∑ j, x0 i j * b j) *ᵥ v) = 0 → v = 0) :
    Consistent (Ω := fun t => m × Fin (t + 1) → ℝ) (fun t => Measure.pi fun _ => DGPRandom.npNormal 0 1)
      (fun t e => (gmLag (repW W0 t) (repX x0 t) (0 : Matrix _ Empty ℝ) (0 : Matrix _ Empty ℝ)
        ((1 - rho • repW W0 t)⁻¹ *ᵥ fun i => a + ∑ j, repX x0 t i j * b j + e i) L lagQ).map fun f => f.betas)
      (lagTruth a b rho) := by
  have hE : ∀ t, Errors (Measure.pi fun _ : m × Fin (t + 1) => DGPRandom.npNormal 0 1) (fun u => u) fun _ => 1 := by
    intro t
    have h := DGPRandom.pi_sample (ι := m × Fin (t + 1)) (fun _ => DGPRandom.normal_moments 0 1)
    exact
    { prob := h.prob
      sq := h.sq
      mean := h.mean
      cov := fun i j => by
        have := h.prob
        have c := h.cov i j
        rw [ProbabilityTheory.covariance_eq_sub (h.sq i) (h.sq j), h.mean i, h.mean j, mul_zero, sub_zero] at c
        simp only [one_pow] at c
        rw [← c]
        rfl }
  have hmpos : (0 : ℝ) < Fintype.card m := by exact_mod_cast Fintype.card_pos
  obtain ⟨r1, r2, l1, l2⟩ := rep_limits W0 x0 a b rho hreg L lagQ hH hZ
  refine C182_lag (n := fun t => m × Fin (t + 1)) zero_le_one hE (fun t i => le_refl _) (repW W0) (repX x0) a b rho _ ?_
    (fun t => (rep_inv W0 rho hreg t).1) (∑ i, ∑ j, |(W0 * (1 - rho • W0)⁻¹) i j|) ?_ ?_ ?_ (fun t => Fintype.card_pos) L lagQ _ _ r1 r2 l1 l2
  · intro t ω i
    have hu := (rep_inv W0 rho hreg t).1
    have h1 : (1 - rho • repW W0 t) *ᵥ ((1 - rho • repW W0 t)⁻¹ *ᵥ fun i => a + ∑ j, repX x0 t i j * b j + ω i) =
        fun i => a + ∑ j, repX x0 t i j * b j + ω i := by
      rw [mulVec_mulVec, mul_nonsing_inv _ hu, one_mulVec]
    have h2 := congrFun h1 i
    rw [sub_mulVec, one_mulVec, smul_mulVec] at h2
    simp only [Pi.sub_apply, Pi.smul_apply, smul_eq_mul] at h2
    have e1 : ∀ v, (repW W0 t *ᵥ v) i = ∑ i', repW W0 t i i' * v i' := fun v => rfl
    rw [← e1]
    linarith
  · intro t
    have : repW W0 t * (1 - rho • repW W0 t)⁻¹ = repW (W0 * (1 - rho • W0)⁻¹) t := by
      rw [(rep_inv W0 rho hreg t).2]
      exact (blockDiagonal_mul _ _).symm
    rw [this]; exact (rep_abs _ t).1
  · intro t
    have : repW W0 t * (1 - rho • repW W0 t)⁻¹ = repW (W0 * (1 - rho • W0)⁻¹) t := by
      rw [(rep_inv W0 rho hreg t).2]
      exact (blockDiagonal_mul _ _).symm
    rw [this]; exact (rep_abs _ t).2
  · have : (fun t : ℕ => ((Fintype.card (m × Fin (t + 1)) : ℕ) : ℝ)) = fun t : ℕ => (Fintype.card m : ℝ) * ((t : ℝ) + 1) := by
      funext t; rw [Fintype.card_prod, Fintype.card_fin]; push_cast; rfl
    rw [this]
    exact (tendsto_atTop_add_const_right _ _ tendsto_natCast_atTop_atTop).const_mul_atTop hmpos
end rep

/-- A path of three regions, row-standardised. -/
noncomputable def path3 : Matrix (Fin 3) (Fin 3) ℝ := !![0, 1, 0; 1 / 2, 0, 1 / 2; 0, 1, 0]
def x3 : Matrix (Fin 3) (Fin 1) ℝ := !![0; 0; 1]
/-- Its expected `y` for `rho = 1/2`, constant 0 and coefficient 1. -/
noncomputable def ybar3 : Fin 3 → ℝ := ![1 / 6, 1 / 3, 7 / 6]

theorem path3_reg : IsUnit (1 - (1 / 2 : ℝ) • path3).det := by
  rw [isUnit_iff_ne_zero, det_fin_three]
  simp [path3, one_apply]
  norm_num

theorem path3_mean : (1 - (1 / 2 : ℝ) • path3)⁻¹ *ᵥ (fun i => 0 + ∑ j, x3 i j * (1 : ℝ)) = ybar3 := by
  have : (1 - (1 / 2 : ℝ) • path3) *ᵥ ybar3 = fun i => 0 + ∑ j, x3 i j * (1 : ℝ) := by
    funext i
    fin_cases i <;> simp [path3, x3, ybar3, mulVec, dotProduct, Fin.sum_univ_three, one_apply] <;> norm_num
  rw [← this, mulVec_mulVec, nonsing_inv_mul _ path3_reg, one_mulVec]

theorem sum_cols {c : Type} [Fintype c] (e : Matrix (Fin 3) ((Unit ⊕ Fin 1) ⊕ (Empty ⊕ c)) ℝ) (v) (i : Fin 3) :
    (e *ᵥ v) i = e i (.inl (.inl ())) * v (.inl (.inl ())) + e i (.inl (.inr 0)) * v (.inl (.inr 0)) + ∑ p, e i (.inr (.inr p)) * v (.inr (.inr p)) := by
  show ∑ j, e i j * v j = _
  simp [Fintype.sum_sum_type]

theorem path3_col (i : Fin 3) : lagH path3 x3 (0 : Matrix (Fin 3) Empty ℝ) 1 false i (.inr (.inr (.inl 0, 0))) = (path3 *ᵥ fun i => x3 i 0) i := by
  show (path3 ^ 1 * lagVars x3 (0 : Matrix (Fin 3) Empty ℝ) false : Matrix (Fin 3) (LagCol (Fin 1) Empty false) ℝ) i (.inl 0) = _
  rw [pow_one]; rfl

theorem path3_H (v : _) (hv : lagH path3 x3 (0 : Matrix (Fin 3) Empty ℝ) 1 false *ᵥ v = 0) : v = 0 := by
  have hp : ∀ f : LagCol (Fin 1) Empty false × Fin 1 → ℝ, ∑ p, f p = f (.inl 0, 0) := by
    intro f; simp [Fintype.sum_prod_type, Fintype.sum_sum_type]
  have hcol := path3_col
  have h0 := congrFun hv 0; have h1 := congrFun hv 1; have h2 := congrFun hv 2
  rw [sum_cols, hp, hcol] at h0 h1 h2
  simp [lagH, path3, x3, mulVec, dotProduct, Fin.sum_univ_three] at h0 h1 h2
  funext j
  rcases j with (j | j) | (j | ⟨j | j, p⟩)
  · exact h0
  · obtain rfl : j = 0 := Subsingleton.elim _ _
    simp; linarith
  · exact j.elim
  · obtain rfl : j = 0 := Subsingleton.elim _ _
    obtain rfl : p = 0 := Subsingleton.elim _ _
    simp; linarith
  · exact j.1.elim

theorem path3_Z (v : _) (hv : (lagH path3 x3 (0 : Matrix (Fin 3) Empty ℝ) 1 false)ᵀ *ᵥ (lagZ path3 x3 (0 : Matrix (Fin 3) Empty ℝ)
    ((1 - (1 / 2 : ℝ) • path3)⁻¹ *ᵥ fun i => 0 + ∑ j, x3 i j * (1 : ℝ)) *ᵥ v) = 0) : v = 0 := by
  have hcol := path3_col
  rw [path3_mean] at hv
  set w := lagZ path3 x3 (0 : Matrix (Fin 3) Empty ℝ) ybar3 *ᵥ v with hw
  have k0 := congrFun hv (.inl (.inl ())); have k1 := congrFun hv (.inl (.inr 0)); have k2 := congrFun hv (.inr (.inr (.inl 0, 0)))
  have hk : ∀ j, ((lagH path3 x3 (0 : Matrix (Fin 3) Empty ℝ) 1 false)ᵀ *ᵥ w) j = ∑ i, lagH path3 x3 (0 : Matrix (Fin 3) Empty ℝ) 1 false i j * w i :=
    fun j => rfl
  rw [hk] at k0 k1 k2
  simp only [hcol] at k2
  simp [lagH, path3, x3, mulVec, dotProduct, Fin.sum_univ_three] at k0 k1 k2
  have w0 : w 0 = 0 := by linarith
  rw [hw, sum_cols] at w0 k1 k2
  simp [lagZ, path3, x3, ybar3, mulVec, dotProduct, Fin.sum_univ_three] at w0 k1 k2
  funext j
  rcases j with (j | j) | (j | j)
  · simp; linarith
  · obtain rfl : j = 0 := Subsingleton.elim _ _
    simp; linarith
  · exact j.elim
  · simp; linarith

/-- The conditions of C182 are met: copies of a path of three regions with `rho = 1/2`; one regressor and its spatial lag as instruments. -/
theorem C182_lag_example :
    Consistent (Ω := fun t => Fin 3 × Fin (t + 1) → ℝ) (fun t => Measure.pi fun _ => DGPRandom.npNormal 0 1)
      (fun t e => (gmLag (repW path3 t) (repX x3 t) (0 : Matrix _ Empty ℝ) (0 : Matrix _ Empty ℝ)
        ((1 - (1 / 2 : ℝ) • repW path3 t)⁻¹ *ᵥ fun i => 0 + ∑ j, repX x3 t i j * (1 : ℝ) + e i) 1 false).map fun f => f.betas)
      (lagTruth 0 (fun _ => 1) (1 / 2)) :=
  rep_consistent path3 x3 0 (fun _ => 1) (1 / 2) path3_reg 1 false path3_H path3_Z

/-- The conditions of C182 for OLS are met: the mean of `t + 1` independent standard normal errors and a constant. -/
theorem C182_ols_example (a : ℝ) :
    Consistent (Ω := fun t => Fin (t + 1) → ℝ) (fun t => Measure.pi fun _ => DGPRandom.npNormal 0 1)
      (fun t e => (ols (Matrix.of fun (_ : Fin (t + 1)) (_ : Unit) => (1 : ℝ)) (((Matrix.of fun (_ : Fin (t + 1)) (_ : Unit) => (1 : ℝ)) *ᵥ fun _ => a) + e)).map fun f => f.betas)
      (fun _ => a) := by
  have hx : ∀ t : ℕ, (Matrix.of fun (_ : Fin (t + 1)) (_ : Unit) => (1 : ℝ))ᵀ * (Matrix.of fun (_ : Fin (t + 1)) (_ : Unit) => (1 : ℝ)) =
      Matrix.of fun _ _ => (t : ℝ) + 1 := by
    intro t; ext i j; simp [mul_apply]
  have hd : ∀ t : ℕ, (Matrix.of fun (_ _ : Unit) => (t : ℝ) + 1)⁻¹ = Matrix.of fun (_ _ : Unit) => ((t : ℝ) + 1)⁻¹ := by
    intro t
    refine inv_eq_right_inv ?_
    have : (t : ℝ) + 1 ≠ 0 := by positivity
    ext i j; simp [mul_apply, this]
  refine C182_ols (s := 1) (fun t => ?_) _ (fun t => ?_) (fun _ => a) fun j => ?_
  · have h := DGPRandom.pi_sample (ι := Fin (t + 1)) (fun _ => DGPRandom.normal_moments 0 1)
    simp only [one_pow] at h
    exact sample_errors h
  · rw [hx, isUnit_iff_ne_zero, det_unique]
    show (t : ℝ) + 1 ≠ 0
    positivity
  · have : (fun t : ℕ => ((Matrix.of fun (_ : Fin (t + 1)) (_ : Unit) => (1 : ℝ))ᵀ * (Matrix.of fun (_ : Fin (t + 1)) (_ : Unit) => (1 : ℝ)))⁻¹ j j) =
        fun t : ℕ => ((t : ℝ) + 1)⁻¹ := by
      funext t; rw [hx, hd]; rfl
    rw [this]
    exact tendsto_inv_atTop_zero.comp (tendsto_atTop_add_const_right _ _ tendsto_natCast_atTop_atTop)
end Spreg.Consist
