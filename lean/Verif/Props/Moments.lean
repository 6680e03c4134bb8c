import Verif.Props.Sampling
import Verif.Props.GM
import Verif.Model.GMIter
/-
The true parameters solve the population moment equations of the GMM estimators (C168).
-/
set_option linter.unusedSectionVars false
namespace Spreg.Sampling
open Matrix MeasureTheory ProbabilityTheory Spreg Spreg.Lin Spreg.GM

variable {Ω n k l : Type} [MeasurableSpace Ω] [Fintype n] [Fintype k] [Fintype l] [DecidableEq n] [DecidableEq k] [DecidableEq l]
  {P : Measure Ω} {e : Ω → n → ℝ}

/-- All coordinates are square integrable. -/
def SqInt (P : Measure Ω) (a : Ω → n → ℝ) : Prop := ∀ i, MemLp (fun ω => a ω i) 2 P

theorem SqInt.mulVec {a : Ω → n → ℝ} (h : SqInt P a) (M : Matrix k n ℝ) : SqInt P fun ω => M *ᵥ a ω := by
  intro i
  simp only [Matrix.mulVec, dotProduct]
  exact memLp_finsetSum _ fun j _ => (h j).const_mul (M i j)

theorem SqInt.vecMul {a : Ω → n → ℝ} (h : SqInt P a) (M : Matrix n k ℝ) : SqInt P fun ω => a ω ᵥ* M := by
  simp only [← mulVec_transpose]
  exact h.mulVec _

theorem SqInt.dot {a b : Ω → n → ℝ} (ha : SqInt P a) (hb : SqInt P b) : Integrable (fun ω => a ω ⬝ᵥ b ω) P := by
  simp only [dotProduct]
  exact integrable_finsetSum _ fun i _ => (ha i).integrable_mul (hb i)

/-- The moment equations hold on average at `par`. -/
def Holds {r c : Type} [Fintype c] (P : Measure Ω) (M : Ω → Moments r c) (par : c → ℝ) : Prop :=
  (∀ i, Integrable (fun ω => (M ω).g i) P) ∧ (∀ i j, Integrable (fun ω => (M ω).G i j) P) ∧
  ∀ i, ∫ ω, (M ω).g i ∂P = ∑ j, (∫ ω, (M ω).G i j ∂P) * par j

theorem holds_of {r c : Type} [Fintype c] {M : Ω → Moments r c} {par : c → ℝ} (hg : ∀ i, Integrable (fun ω => (M ω).g i) P)
    (hG : ∀ i j, Integrable (fun ω => (M ω).G i j) P) (h : ∀ i, ∫ ω, ((M ω).g i - ((M ω).G *ᵥ par) i) ∂P = 0) : Holds P M par := by
  refine ⟨hg, hG, fun i => ?_⟩
  have h1 : Integrable (fun ω => ((M ω).G *ᵥ par) i) P := by
    simp only [Matrix.mulVec, dotProduct]
    exact integrable_finsetSum _ fun j _ => (hG i j).mul_const _
  have := h i
  rw [integral_sub (hg i) h1, sub_eq_zero] at this
  rw [this]
  simp only [Matrix.mulVec, dotProduct]
  rw [integral_finsetSum _ fun j _ => (hG i j).mul_const _]
  simp only [integral_mul_const]

theorem gm_int (W : Matrix n n ℝ) {u : Ω → n → ℝ} (h : SqInt P u) (hP : IsProbabilityMeasure P) :
    (∀ i, Integrable (fun ω => (momentsGM W (u ω)).g i) P) ∧ ∀ i j, Integrable (fun ω => (momentsGM W (u ω)).G i j) P := by
  have h1 := h.mulVec W
  have h2 := h1.mulVec W
  refine ⟨fun i => ?_, fun i j => ?_⟩
  · fin_cases i
    · exact (h.dot h).div_const _
    · exact (h1.dot h1).div_const _
    · exact (h.dot h1).div_const _
  · fin_cases i <;> fin_cases j
    · exact ((h.dot h1).const_mul 2).div_const _
    · exact (h1.dot h1).neg.div_const _
    · exact (integrable_const (N n / N n : ℝ) : Integrable (fun _ => (N n / N n : ℝ)) P)
    · exact ((h1.dot h2).const_mul 2).div_const _
    · exact (h2.dot h2).neg.div_const _
    · exact (integrable_const ((∑ i, (Wᵀ * W) i i) / N n : ℝ) : Integrable (fun _ => ((∑ i, (Wᵀ * W) i i) / N n : ℝ)) P)
    · exact ((h.dot h2).add (h1.dot h1)).div_const _
    · exact (h1.dot h2).neg.div_const _
    · exact (integrable_const (0 / N n : ℝ) : Integrable (fun _ => (0 / N n : ℝ)) P)

theorem two_int (A1 s : Matrix n n ℝ) {u : Ω → n → ℝ} (h : SqInt P u) :
    (∀ i, Integrable (fun ω => (moments2eqs A1 s (u ω)).g i) P) ∧ ∀ i j, Integrable (fun ω => (moments2eqs A1 s (u ω)).G i j) P := by
  have h1 := h.mulVec s
  refine ⟨fun i => ?_, fun i j => ?_⟩
  · fin_cases i
    · exact (h.dot (h.mulVec A1)).div_const _
    · exact (h.dot h1).div_const _
  · fin_cases i <;> fin_cases j
    · exact (h.dot (h1.mulVec (A1 + A1ᵀ))).div_const _
    · exact ((h1.vecMul A1).dot h1).neg.div_const _
    · exact (h.dot (h1.mulVec (s + sᵀ))).div_const _
    · exact (h1.dot (h1.mulVec s)).neg.div_const _

theorem hom_int (W A1 A2 : Matrix n n ℝ) {u : Ω → n → ℝ} (h : SqInt P u) :
    (∀ i, Integrable (fun ω => (momentsHom W A1 A2 (u ω)).g i) P) ∧ ∀ i j, Integrable (fun ω => (momentsHom W A1 A2 (u ω)).G i j) P := by
  have h1 := h.mulVec W
  refine ⟨fun i => ?_, fun i j => ?_⟩
  · fin_cases i
    · exact (h.dot (h.mulVec A1)).div_const _
    · exact (h.dot (h.mulVec A2)).div_const _
  · fin_cases i <;> fin_cases j
    · exact (((h1.vecMul A1).dot h).const_mul 2).div_const _
    · exact ((h1.vecMul A1).dot h1).neg.div_const _
    · exact (((h1.vecMul A2).dot h).const_mul 2).div_const _
    · exact ((h1.vecMul A2).dot h1).neg.div_const _

/-- Disturbances of the spatial autoregressive process. -/
def SAR (W : Matrix n n ℝ) (lam : ℝ) (e u : Ω → n → ℝ) : Prop := ∀ ω i, u ω i - lam * ∑ j, W i j * u ω j = e ω i

theorem sar_sq {s2 : n → ℝ} (h : Errors P e s2) {W : Matrix n n ℝ} {lam : ℝ} {u : Ω → n → ℝ} (hu : SAR W lam e u)
    (hA : IsUnit (1 - lam • W).det) : SqInt P u := by
  have e1 : ∀ ω, u ω = (1 - lam • W)⁻¹ *ᵥ e ω := by
    intro ω
    have : (1 - lam • W) *ᵥ u ω = e ω := by
      rw [sub_mulVec, one_mulVec, smul_mulVec]
      funext i
      exact hu ω i
    rw [← this, mulVec_mulVec, nonsing_inv_mul _ hA, one_mulVec]
  have : SqInt P e := h.sq
  have := this.mulVec (1 - lam • W)⁻¹
  intro i
  simpa only [e1] using this i

theorem quad_mean {s2 : n → ℝ} (h : Errors P e s2) (A : Matrix n n ℝ) : ∫ ω, (∑ i, ∑ j, e ω i * A i j * e ω j) ∂P = ∑ i, s2 i * A i i := by
  rw [← (bilin_mean h A).2]
  refine integral_congr_ae (.of_forall fun ω => ?_)
  show _ = e ω ⬝ᵥ (A *ᵥ e ω)
  simp only [dotProduct, Matrix.mulVec, Finset.mul_sum]
  exact Finset.sum_congr rfl fun i _ => Finset.sum_congr rfl fun j _ => by ring

/-- **C168.** The moments of `GM_Error`, `GM_Endog_Error` and `GM_Combo` (homoskedastic errors): the true parameters solve the
equations on average. -/
theorem C168_gm [Nonempty n] {s : ℝ} (h : Errors P e fun _ => s) (W : Matrix n n ℝ) (hW : ∀ i, W i i = 0) (lam : ℝ)
    (hA : IsUnit (1 - lam • W).det) (u : Ω → n → ℝ) (hu : SAR W lam e u) :
    Holds P (fun ω => momentsGM W (u ω)) ![lam, lam ^ 2, s] := by
  have hP := h.prob
  obtain ⟨h1, h2⟩ := gm_int W (sar_sq h hu hA) hP
  refine holds_of h1 h2 fun i => ?_
  have hm := fun ω => C13_moments W (u ω) lam s
  simp only [hu _ _] at hm
  simp only [hm]
  have hN : (Fintype.card n : ℝ) ≠ 0 := by exact_mod_cast Fintype.card_ne_zero
  have q1 : ∀ ω, ∑ i, e ω i ^ 2 = e ω ⬝ᵥ ((1 : Matrix n n ℝ) *ᵥ e ω) := fun ω => by rw [one_mulVec]; exact utu_eq_dot _
  have q2 : ∀ ω, ∑ i, (∑ j, W i j * e ω j) ^ 2 = e ω ⬝ᵥ ((Wᵀ * W) *ᵥ e ω) := fun ω => by
    rw [← mulVec_mulVec, dotProduct_mulVec, vecMul_transpose]; exact utu_eq_dot _
  have q3 : ∀ ω, ∑ i, e ω i * ∑ j, W i j * e ω j = e ω ⬝ᵥ (W *ᵥ e ω) := fun ω => rfl
  fin_cases i
  · show ∫ ω, (∑ i, e ω i ^ 2) / (Fintype.card n : ℝ) - s ∂P = 0
    simp only [q1]
    rw [integral_sub ((bilin_mean h _).1.div_const _) (integrable_const _), integral_div, (bilin_mean h _).2]
    simp [hN]
  · show ∫ ω, (∑ i, (∑ j, W i j * e ω j) ^ 2) / (Fintype.card n : ℝ) - s * (∑ i, ∑ j, W i j ^ 2) / Fintype.card n ∂P = 0
    simp only [q2]
    rw [integral_sub ((bilin_mean h _).1.div_const _) (integrable_const _), integral_div, (bilin_mean h _).2, integral_const,
      ← Finset.mul_sum]
    have : ∑ i, (Wᵀ * W) i i = ∑ i, ∑ j, W i j ^ 2 := by
      simp only [mul_apply, transpose_apply, ← pow_two]
      exact Finset.sum_comm
    simp [this]
  · show ∫ ω, (∑ i, e ω i * ∑ j, W i j * e ω j) / (Fintype.card n : ℝ) ∂P = 0
    simp only [q3]
    rw [integral_div, (bilin_mean h _).2]
    simp [hW]

/-- **C168.** The moments of the heteroskedastic estimators: the true parameter solves the equations on average, whatever the
variances of the errors. -/
theorem C168_het {s2 : n → ℝ} (h : Errors P e s2) (W : Matrix n n ℝ) (hW : ∀ i, W i i = 0) (lam : ℝ)
    (hA : IsUnit (1 - lam • W).det) (u : Ω → n → ℝ) (hu : SAR W lam e u) :
    Holds P (fun ω => moments2eqs (A1het W) W (u ω)) ![lam, lam ^ 2] := by
  obtain ⟨h1, h2⟩ := two_int (A1het W) W (sar_sq h hu hA)
  refine holds_of h1 h2 fun i => ?_
  have hm := fun ω => C14_moments2eqs (A1het W) W (u ω) lam
  simp only [hu _ _] at hm
  simp only [hm]
  fin_cases i
  · show ∫ ω, (∑ i, ∑ j, e ω i * A1het W i j * e ω j) / (Fintype.card n : ℝ) ∂P = 0
    rw [integral_div, quad_mean h]
    simp [A1het]
  · show ∫ ω, (∑ i, ∑ j, e ω i * W i j * e ω j) / (Fintype.card n : ℝ) ∂P = 0
    rw [integral_div, quad_mean h]
    simp [hW]

/-- **C168.** The moments of the `Hom` estimators, for all three choices of the argument `A1`. -/
theorem C168_hom [Nonempty n] {s : ℝ} (h : Errors P e fun _ => s) (W : Matrix n n ℝ) (hW : ∀ i, W i i = 0) (lam : ℝ)
    (hA : IsUnit (1 - lam • W).det) (u : Ω → n → ℝ) (hu : SAR W lam e u) (a1 : String) (A1 : Matrix n n ℝ) (ha : chooseA1 a1 W = .ok A1) :
    Holds P (fun ω => momentsHom W A1 (A2hom W) (u ω)) ![lam, lam ^ 2] := by
  have hN : (Fintype.card n : ℝ) ≠ 0 := by exact_mod_cast Fintype.card_ne_zero
  have hs : A1ᵀ = A1 ∧ ∑ i, A1 i i = 0 := by
    have t1 : (Wᵀ * W)ᵀ = Wᵀ * W := by rw [transpose_mul, transpose_transpose]
    have c1 : ∀ b, (A1hom W b)ᵀ = A1hom W b ∧ ∑ i, A1hom W b i i = 0 := by
      intro b
      have t2 : (Wᵀ * W - diagonal fun _ => (∑ i, (Wᵀ * W) i i) / N n : Matrix n n ℝ)ᵀ = Wᵀ * W - diagonal fun _ => (∑ i, (Wᵀ * W) i i) / N n := by
        rw [transpose_sub, t1, diagonal_transpose]
      have t3 : ∑ i, (Wᵀ * W - diagonal fun _ => (∑ i, (Wᵀ * W) i i) / N n : Matrix n n ℝ) i i = 0 := by
        simp only [Matrix.sub_apply, diagonal_apply_eq, Finset.sum_sub_distrib, Finset.sum_const, Finset.card_univ, nsmul_eq_mul, N]
        field_simp
        ring
      cases b
      · simp only [A1hom, Bool.false_eq_true, if_false]
        exact ⟨t2, t3⟩
      · simp only [A1hom, if_true]
        refine ⟨by rw [transpose_smul, t2], ?_⟩
        simp only [Matrix.smul_apply, smul_eq_mul, ← Finset.mul_sum, t3, mul_zero]
    unfold chooseA1 at ha
    split at ha
    · cases ha; exact c1 _
    · split at ha
      · cases ha; exact c1 _
      · split at ha
        · cases ha
          refine ⟨by simp only [A1het, transpose_sub, t1, diagonal_transpose], by simp [A1het]⟩
        · cases ha
  have h2s : (A2hom W)ᵀ = A2hom W := by
    simp only [A2hom, transpose_smul, transpose_add, transpose_transpose, add_comm]
  obtain ⟨h1, h2⟩ := hom_int W A1 (A2hom W) (sar_sq h hu hA)
  refine holds_of h1 h2 fun i => ?_
  have hm := fun ω => C14_momentsHom W A1 (A2hom W) hs.1 h2s (u ω) lam
  simp only [hu _ _] at hm
  simp only [hm]
  fin_cases i
  · show ∫ ω, (∑ i, ∑ j, e ω i * A1 i j * e ω j) / (Fintype.card n : ℝ) ∂P = 0
    rw [integral_div, quad_mean h, ← Finset.mul_sum, hs.2]
    simp
  · show ∫ ω, (∑ i, ∑ j, e ω i * A2hom W i j * e ω j) / (Fintype.card n : ℝ) ∂P = 0
    rw [integral_div, quad_mean h]
    simp [A2hom, hW]

/-- The process of `dgp_errproc` is the one of these theorems. -/
theorem C168_generated {m : ℕ} (W : Matrix (Fin m) (Fin m) ℝ) (lam : ℝ) (hA : IsUnit (1 - lam • W).det) (u : (Fin m → ℝ) → Fin m → ℝ)
    (hu : ∀ v, DGP.dgpErrproc v ⟨m, W⟩ lam .sar .trueInv = .ok (some (u v))) : SAR W lam (fun v => v) u := by
  intro v i
  have h := hu v
  have hw : DGP.wcast (⟨m, W⟩ : DGP.Wts) rfl = W := rfl
  simp only [DGP.dgpErrproc, dite_true, hw, DGP.errProc, DGPRandom.invp_true W lam hA v, Except.map] at h
  have h' : (1 - lam • W)⁻¹ *ᵥ v = u v := Option.some.inj (Except.ok.inj h)
  have : (1 - lam • W) *ᵥ u v = v := by rw [← h', mulVec_mulVec, mul_nonsing_inv _ hA, one_mulVec]
  rw [sub_mulVec, one_mulVec, smul_mulVec] at this
  exact congrFun this i

end Spreg.Sampling
