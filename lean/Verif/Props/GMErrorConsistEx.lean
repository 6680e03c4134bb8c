import Verif.Props.GMErrorConsist
import Verif.Props.ConsistVarEx
set_option linter.unusedSectionVars false
set_option linter.unusedSimpArgs false
/-
The conditions of C184 are met by normal errors and copies of a map.
-/
namespace Spreg.Consist
open Spreg Spreg.Lin Spreg.GM Spreg.Sampling Matrix MeasureTheory Filter Topology ProbabilityTheory

section normal
variable {m : Type} [Fintype m] [DecidableEq m]

/-- The sign of one error changed. -/
def flip (a : m) (u : m → ℝ) : m → ℝ := fun i => if i = a then -u i else u i

theorem flip_preserving (a : m) : MeasurePreserving (flip a) (Measure.pi fun _ : m => gaussianReal 0 1) (Measure.pi fun _ : m => gaussianReal 0 1) := by
  have h : ∀ i : m, MeasurePreserving (fun z : ℝ => if i = a then -z else z) (gaussianReal 0 1) (gaussianReal 0 1) := by
    intro i
    by_cases hi : i = a
    · simp only [hi, if_true]
      refine ⟨measurable_neg, ?_⟩
      have := gaussianReal_map_neg (μ := 0) (v := 1)
      rw [neg_zero] at this
      exact this
    · simp only [hi, if_false]
      exact MeasurePreserving.id _
  exact measurePreserving_pi (fun _ : m => gaussianReal 0 1) (fun _ : m => gaussianReal 0 1) h

theorem odd_zero (a : m) (F : (m → ℝ) → ℝ) (hF : ∀ u, F (flip a u) = -F u) (hm : AEStronglyMeasurable F (Measure.pi fun _ : m => gaussianReal 0 1)) :
    ∫ u, F u ∂(Measure.pi fun _ : m => gaussianReal 0 1) = 0 := by
  have h1 : ∫ u, F (flip a u) ∂(Measure.pi fun _ : m => gaussianReal 0 1) = ∫ u, F u ∂(Measure.pi fun _ : m => gaussianReal 0 1) := by
    have h := flip_preserving a
    have := integral_map h.measurable.aemeasurable (f := F) (by rw [h.map_eq]; exact hm)
    rw [h.map_eq] at this
    exact this.symm
  simp only [hF, integral_neg] at h1
  linarith

theorem eval_memLp (p : NNReal) (i : m) : MemLp (fun u : m → ℝ => u i) p (Measure.pi fun _ : m => gaussianReal 0 1) :=
  (gauss_memLp p).comp_measurePreserving (measurePreserving_eval (fun _ : m => gaussianReal 0 1) i)

theorem prod_memLp (i j : m) : MemLp (fun u : m → ℝ => u i * u j) 2 (Measure.pi fun _ : m => gaussianReal 0 1) := by
  have h4 := eval_memLp (m := m) 4
  have e : ((4 : NNReal) : ENNReal)⁻¹ + ((4 : NNReal) : ENNReal)⁻¹ = (2 : ENNReal)⁻¹ := by
    rw [← two_mul, show ((4 : NNReal) : ENNReal) = 2 * 2 by norm_num, ENNReal.mul_inv (by simp) (by simp), ← mul_assoc,
      ENNReal.mul_inv_cancel (by simp) (by simp), one_mul]
  exact MemLp.mul (r := 2) (h4 j) (h4 i) (hpqr := ⟨e⟩)

/-- Independent standard normal errors satisfy the conditions on pairs. -/
theorem gauss_pairs : PairErrors (Measure.pi fun _ : m => gaussianReal 0 1) (fun u : m → ℝ => u) (fun _ => 1) (1 + ∫ z, (z ^ 2 - 1) ^ 2 ∂(gaussianReal 0 1)) where
  sq i j := (prod_memLp i j).sub (memLp_const _)
  var i j := by
    have hn : 0 ≤ ∫ z, (z ^ 2 - 1) ^ 2 ∂(gaussianReal 0 1) := integral_nonneg fun z => sq_nonneg _
    by_cases h : i = j
    · subst h
      have := integral_comp_eval (μ := fun _ : m => gaussianReal 0 1) (i := i) (f := fun z => (z ^ 2 - 1) ^ 2)
        ((gauss_sq_memLp.sub (memLp_const (1 : ℝ))).integrable_sq.aestronglyMeasurable)
      have e : ∫ u : m → ℝ, (u i * u i - covOf (fun _ => 1) i i) ^ 2 ∂(Measure.pi fun _ : m => gaussianReal 0 1) =
          ∫ u : m → ℝ, (u i ^ 2 - 1) ^ 2 ∂(Measure.pi fun _ : m => gaussianReal 0 1) := by
        congr 1; funext u; rw [covOf, if_pos rfl, sq (u i)]
      rw [e, this]
      linarith
    · have hi : iIndepFun (fun i (u : m → ℝ) => u i ^ 2) (Measure.pi fun _ : m => gaussianReal 0 1) :=
        iIndepFun_pi (μ := fun _ : m => gaussianReal 0 1) (X := fun _ z => z ^ 2) fun i => (by fun_prop)
      have hm : ∀ i, ∫ u, u i ^ 2 ∂(Measure.pi fun _ : m => gaussianReal 0 1) = 1 := fun i =>
        (integral_comp_eval (μ := fun _ : m => gaussianReal 0 1) (i := i) (f := fun z => z ^ 2) gauss_sq_memLp.aestronglyMeasurable).trans gauss_sq
      have := (hi.indepFun h).integral_fun_mul_eq_mul_integral ((measurable_pi_apply i).pow_const 2).aestronglyMeasurable
        ((measurable_pi_apply j).pow_const 2).aestronglyMeasurable
      rw [hm, hm] at this
      have e : ∫ u : m → ℝ, (u i * u j - covOf (fun _ => 1) i j) ^ 2 ∂(Measure.pi fun _ : m => gaussianReal 0 1) =
          ∫ u : m → ℝ, u i ^ 2 * u j ^ 2 ∂(Measure.pi fun _ : m => gaussianReal 0 1) := by
        congr 1; funext u; rw [covOf, if_neg h]; ring
      rw [e, this]
      linarith
  cov i j k l hne := by
    have hms : AEStronglyMeasurable (fun u : m → ℝ => (u i * u j - covOf (fun _ => 1) i j) * (u k * u l - covOf (fun _ => 1) k l)) (Measure.pi fun _ : m => gaussianReal 0 1) :=
      (((prod_memLp i j).sub (memLp_const _)).aestronglyMeasurable).mul (((prod_memLp k l).sub (memLp_const _)).aestronglyMeasurable)
    by_cases hij : i = j
    · by_cases hkl : k = l
      · subst hij; subst hkl
        have hik : i ≠ k := fun h => hne (Or.inl ⟨h.symm, h.symm⟩)
        have := (iid_errors (m := m) (fun _ z => z ^ 2 - 1) (fun _ => by fun_prop) (fun _ => gauss_sq_memLp.sub (memLp_const _)) (fun _ => by
          rw [integral_sub (gauss_sq_memLp.integrable (by norm_num)) (integrable_const _), gauss_sq]; simp)).cov i k
        rw [if_neg hik] at this
        refine Eq.trans ?_ this
        congr 1; funext u
        rw [covOf, covOf, if_pos rfl, if_pos rfl, sq, sq]
      · have hc : covOf (fun _ => (1 : ℝ)) k l = 0 := if_neg hkl
        by_cases hk : k = i
        · have hl : l ≠ i := fun h => hkl (hk.trans h.symm)
          refine odd_zero l _ (fun u => ?_) hms
          have e1 : flip l u i = u i := if_neg (Ne.symm hl)
          have e2 : flip l u j = u j := if_neg (hij ▸ Ne.symm hl)
          have e3 : flip l u l = -u l := if_pos rfl
          have e4 : flip l u k = u k := if_neg hkl
          rw [e1, e2, e3, e4, hc]; ring
        · refine odd_zero k _ (fun u => ?_) hms
          have e1 : flip k u i = u i := if_neg (Ne.symm hk)
          have e2 : flip k u j = u j := if_neg (hij ▸ Ne.symm hk)
          have e3 : flip k u l = u l := if_neg (Ne.symm hkl)
          have e4 : flip k u k = -u k := if_pos rfl
          rw [e1, e2, e3, e4, hc]; ring
    · have hc : covOf (fun _ => (1 : ℝ)) i j = 0 := if_neg hij
      by_cases hi : i = k ∨ i = l
      · have hj : j ≠ k ∧ j ≠ l := by
          constructor
          · intro h
            rcases hi with hi | hi
            · exact hij (hi.trans h.symm)
            · exact hne (Or.inr ⟨h.symm, hi.symm⟩)
          · intro h
            rcases hi with hi | hi
            · exact hne (Or.inl ⟨hi.symm, h.symm⟩)
            · exact hij (hi.trans h.symm)
        refine odd_zero j _ (fun u => ?_) hms
        have e1 : flip j u i = u i := if_neg hij
        have e2 : flip j u j = -u j := if_pos rfl
        have e3 : flip j u k = u k := if_neg (Ne.symm hj.1)
        have e4 : flip j u l = u l := if_neg (Ne.symm hj.2)
        rw [e1, e2, e3, e4, hc]; ring
      · rw [not_or] at hi
        refine odd_zero i _ (fun u => ?_) hms
        have e1 : flip i u i = -u i := if_pos rfl
        have e2 : flip i u j = u j := if_neg (Ne.symm hij)
        have e3 : flip i u k = u k := if_neg (Ne.symm hi.1)
        have e4 : flip i u l = u l := if_neg (Ne.symm hi.2)
        rw [e1, e2, e3, e4, hc]; ring
end normal

section rep
variable {m kx : Type} [Fintype m] [DecidableEq m] [Nonempty m] [Fintype kx] [DecidableEq kx]

theorem repW_pow (W0 : Matrix m m ℝ) (t a : ℕ) : repW W0 t ^ a = repW (W0 ^ a) t := by
  show blockDiagonal _ ^ a = _
  rw [← blockDiagonal_pow]; rfl

theorem repW_mul (A B : Matrix m m ℝ) (t : ℕ) : repW A t * repW B t = repW (A * B) t := (blockDiagonal_mul _ _).symm

theorem rep_frob (A B : Matrix m m ℝ) (t : ℕ) :
    (∑ i, ∑ j, repW A t i j * repW B t i j) / Fintype.card (m × Fin (t + 1)) = (∑ i, ∑ j, A i j * B i j) / Fintype.card m := by
  rw [← rep_avg (fun i => ∑ j, A i j * B i j) t]
  congr 1
  refine Finset.sum_congr rfl fun i _ => ?_
  rw [Fintype.sum_prod_type]
  refine Finset.sum_congr rfl fun j _ => ?_
  rw [Finset.sum_eq_single i.2]
  · simp only [repW, blockDiagonal_apply, if_true]
  · intro b _ hb
    simp only [repW, blockDiagonal_apply, if_neg (Ne.symm hb), zero_mul]
  · intro h; exact absurd (Finset.mem_univ _) h

/-- Copies of a map with independent standard normal innovations. -/
theorem rep_model (W0 : Matrix m m ℝ) (x0 : Matrix m kx ℝ) (beta : kx → ℝ) (lam : ℝ) (hlam : |lam| ≤ 0.99) (hreg : IsUnit (1 - lam • W0).det)
    (hd : ∀ i, W0 i i = 0) :
    ErrorModel (Ω := fun t => m × Fin (t + 1) → ℝ) (fun t => Measure.pi fun _ => gaussianReal 0 1) (fun t => m × Fin (t + 1)) (repW W0) (repX x0)
      (fun t e => repX x0 t *ᵥ beta + (1 - lam • repW W0 t)⁻¹ *ᵥ e) (fun t e => (1 - lam • repW W0 t)⁻¹ *ᵥ e) (fun _ e => e) beta lam (fun _ _ => 1) where
  y_eq t ω i := rfl
  v_eq t ω i := by
    have hu := (rep_inv W0 lam hreg t).1
    have h1 : (1 - lam • repW W0 t) *ᵥ ((1 - lam • repW W0 t)⁻¹ *ᵥ ω) = ω := by
      rw [mulVec_mulVec, mul_nonsing_inv _ hu, one_mulVec]
    have h2 := congrFun h1 i
    rw [sub_mulVec, one_mulVec, smul_mulVec] at h2
    simp only [Pi.sub_apply, Pi.smul_apply, smul_eq_mul] at h2
    have e1 : ∀ v, (repW W0 t *ᵥ v) i = ∑ i', repW W0 t i i' * v i' := fun v => rfl
    rw [← e1]
    linarith
  err t := by
    have := iid_errors (m := m × Fin (t + 1)) (fun _ z => z) (fun _ => measurable_id) (fun _ => gauss_memLp 2) (fun _ => by simp)
    simp only [gauss_sq] at this
    exact this
  var := ⟨1, fun _ _ => le_rfl⟩
  pairs := ⟨_, fun _ => gauss_pairs⟩
  size := by
    have hmpos : (0 : ℝ) < Fintype.card m := by exact_mod_cast Fintype.card_pos
    have : (fun t : ℕ => ((Fintype.card (m × Fin (t + 1)) : ℕ) : ℝ)) = fun t : ℕ => (Fintype.card m : ℝ) * ((t : ℝ) + 1) := by
      funext t; rw [Fintype.card_prod, Fintype.card_fin]; push_cast; rfl
    rw [this]
    exact (tendsto_atTop_add_const_right _ _ tendsto_natCast_atTop_atTop).const_mul_atTop hmpos
  pos _ := Fintype.card_pos
  reg t := (rep_inv W0 lam hreg t).1
  diag t i := by rw [repW, blockDiagonal_apply, if_pos rfl]; exact hd _
  sumsW := ⟨_, fun t => ⟨(rep_abs W0 t).1, (rep_abs W0 t).2⟩⟩
  sumsR := ⟨∑ i, ∑ j, |(1 - lam • W0)⁻¹ i j|, fun t => by
    rw [(rep_inv W0 lam hreg t).2]
    exact ⟨(rep_abs _ t).1, (rep_abs _ t).2⟩⟩
  bdd := ⟨∑ i, ∑ l, |x0 i l|, fun t i l => by
    refine le_trans ?_ (Finset.single_le_sum (f := fun i => ∑ l, |x0 i l|) (fun i _ => Finset.sum_nonneg fun l _ => abs_nonneg _) (Finset.mem_univ i.1))
    exact Finset.single_le_sum (f := fun l => |x0 i.1 l|) (fun l _ => abs_nonneg _) (Finset.mem_univ l)⟩
  box := hlam

theorem rep_reg (W0 : Matrix m m ℝ) (x0 : Matrix m kx ℝ) :
    RegLimits (fun t => m × Fin (t + 1)) (repW W0) (repX x0) fun a b => (Fintype.card m : ℝ)⁻¹ • ((W0 ^ a.1 * x0)ᵀ * (W0 ^ b.1 * x0)) := by
  intro a b i j
  refine tendsto_const_nhds.congr fun t => ?_
  rw [repW_pow_mul, repW_pow_mul]
  refine Eq.trans ?_ (rep_avg (fun o => (W0 ^ a.1 * x0 : Matrix m kx ℝ) o i * (W0 ^ b.1 * x0 : Matrix m kx ℝ) o j) t).symm
  show ((Fintype.card m : ℝ)⁻¹ • ((W0 ^ a.1 * x0)ᵀ * (W0 ^ b.1 * x0)) : Matrix kx kx ℝ) i j = _
  rw [Matrix.smul_apply, mul_apply, div_eq_inv_mul]; rfl

theorem rep_err (W0 : Matrix m m ℝ) (lam : ℝ) (hreg : IsUnit (1 - lam • W0).det) :
    ErrLimits (Ω := fun t => m × Fin (t + 1) → ℝ) (fun t => Measure.pi fun _ => gaussianReal 0 1) (fun t => m × Fin (t + 1)) (repW W0)
      (fun t e => (1 - lam • repW W0 t)⁻¹ *ᵥ e)
      (fun a b => (∑ i, ∑ j, (W0 ^ a.1 * (1 - lam • W0)⁻¹) i j * (W0 ^ b.1 * (1 - lam • W0)⁻¹) i j) / Fintype.card m)
      ((∑ i, ∑ j, W0 i j ^ 2) / Fintype.card m) := by
  constructor
  · intro a b
    refine tendsto_const_nhds.congr fun t => ?_
    have he := iid_errors (m := m × Fin (t + 1)) (fun _ z => z) (fun _ => measurable_id) (fun _ => gauss_memLp 2) (fun _ => by simp)
    simp only [gauss_sq] at he
    have h2 : ∫ ω : m × Fin (t + 1) → ℝ, ∑ o, ((repW W0 t ^ a.1) *ᵥ ((1 - lam • repW W0 t)⁻¹ *ᵥ ω)) o * ((repW W0 t ^ b.1) *ᵥ ((1 - lam • repW W0 t)⁻¹ *ᵥ ω)) o
        ∂(Measure.pi fun _ => gaussianReal 0 1) = ∑ i, ∑ j, repW (W0 ^ a.1 * (1 - lam • W0)⁻¹) t i j * repW (W0 ^ b.1 * (1 - lam • W0)⁻¹) t i j := by
      have hb := (bilin_mean he ((repW (W0 ^ a.1 * (1 - lam • W0)⁻¹) t)ᵀ * repW (W0 ^ b.1 * (1 - lam • W0)⁻¹) t)).2
      simp only [one_mul] at hb
      rw [Finset.sum_comm]
      refine Eq.trans ?_ (hb.trans (Finset.sum_congr rfl fun i _ => by rw [mul_apply]; rfl))
      congr 1
      funext ω
      rw [(rep_inv W0 lam hreg t).2, repW_pow, repW_pow, mulVec_mulVec ω, mulVec_mulVec ω, repW_mul, repW_mul, ← mulVec_mulVec ω, dotProduct_mulVec ω, vecMul_transpose]
      rfl
    rw [h2]
    exact (rep_frob _ _ t).symm
  · refine tendsto_const_nhds.congr fun t => ?_
    have := rep_frob W0 W0 t
    simp only [← sq] at this
    exact this.symm
end rep

/-- A constant and a dummy. -/
def x32 : Matrix (Fin 3) (Fin 2) ℝ := !![1, 0; 1, 0; 1, 1]

theorem path3_R : (1 - (1 / 2 : ℝ) • path3)⁻¹ = !![7 / 6, 2 / 3, 1 / 6; 1 / 3, 4 / 3, 1 / 3; 1 / 6, 2 / 3, 7 / 6] := by
  refine inv_eq_right_inv ?_
  ext i j
  fin_cases i <;> fin_cases j <;> simp [path3, mul_apply, Fin.sum_univ_three, one_apply] <;> norm_num

/-- The conditions of C184 are met: copies of a path of three regions with lambda 1/2, a constant and a dummy, normal errors and any optimiser that minimises; there is one. -/
theorem C184_example (beta : Fin 2 → ℝ) : (∃ opt, Minimises opt) ∧ ∀ opt, Minimises opt →
    Consistent (Ω := fun t => Fin 3 × Fin (t + 1) → ℝ) (fun t => Measure.pi fun _ => gaussianReal 0 1)
      (fun t e => (gmError opt (repW path3 t) (repX x32 t) (repX x32 t *ᵥ beta + (1 - (1 / 2 : ℝ) • repW path3 t)⁻¹ *ᵥ e)).map fun f => f.betas) beta ∧
    Consistent (Ω := fun t => Fin 3 × Fin (t + 1) → ℝ) (fun t => Measure.pi fun _ => gaussianReal 0 1)
      (fun t e => (gmError opt (repW path3 t) (repX x32 t) (repX x32 t *ᵥ beta + (1 - (1 / 2 : ℝ) • repW path3 t)⁻¹ *ᵥ e)).map fun f (_ : Unit) => f.lam)
      (fun _ => 1 / 2) := by
  refine ⟨minimises_exists, fun opt hopt => ?_⟩
  have hpow : path3 ^ 2 = !![1 / 2, 0, 1 / 2; 0, 1, 0; 1 / 2, 0, 1 / 2] := by
    rw [sq]
    ext i j
    fin_cases i <;> fin_cases j <;> simp [path3, mul_apply, Fin.sum_univ_three] <;> norm_num
  have hd : ∀ i, path3 i i = 0 := by intro i; fin_cases i <;> simp [path3]
  have := C184_gmError (rep_model path3 x32 beta (1 / 2) (by rw [abs_of_pos] <;> norm_num) path3_reg hd) (rep_reg path3 x32) ?_ ?_
    (rep_err path3 (1 / 2) path3_reg) ?_ ?_ zero_le_one opt hopt
  · exact ⟨this.1, this.2.1⟩
  · rw [det_fin_two]
    simp [x32, mul_apply, Fin.sum_univ_three]
    norm_num
  · rw [det_fin_two]
    simp [x32, path3, mul_apply, Fin.sum_univ_three]
    norm_num
  · have r0 : path3 ^ ((0 : Fin 3) : ℕ) * (1 - (1 / 2 : ℝ) • path3)⁻¹ = !![7 / 6, 2 / 3, 1 / 6; 1 / 3, 4 / 3, 1 / 3; 1 / 6, 2 / 3, 7 / 6] := by
      rw [path3_R]
      exact Matrix.one_mul _
    have r1 : path3 ^ ((1 : Fin 3) : ℕ) * (1 - (1 / 2 : ℝ) • path3)⁻¹ = !![1 / 3, 4 / 3, 1 / 3; 2 / 3, 2 / 3, 2 / 3; 1 / 3, 4 / 3, 1 / 3] := by
      rw [path3_R]
      refine (congrArg (· * _) (pow_one path3)).trans ?_
      ext i j
      fin_cases i <;> fin_cases j <;> simp [path3, mul_apply, Fin.sum_univ_three] <;> norm_num
    have r2 : path3 ^ ((2 : Fin 3) : ℕ) * (1 - (1 / 2 : ℝ) • path3)⁻¹ = !![2 / 3, 2 / 3, 2 / 3; 1 / 3, 4 / 3, 1 / 3; 2 / 3, 2 / 3, 2 / 3] := by
      rw [path3_R]
      refine (congrArg (· * _) hpow).trans ?_
      ext i j
      fin_cases i <;> fin_cases j <;> simp [mul_apply, Fin.sum_univ_three] <;> norm_num
    have rt : (∑ i, ∑ j, path3 i j ^ 2) = 5 / 2 := by
      simp [path3, Fin.sum_univ_three]
      norm_num
    rw [det_fin_three, rt]
    simp only [r0, r1, r2]
    simp [Fin.sum_univ_three]
    norm_num
  · rw [path3_R]
    simp [path3, mul_apply, Fin.sum_univ_three]
    norm_num
end Spreg.Consist
