import Verif.Props.GMHetConsist
import Verif.Props.TSLSVarEx
set_option linter.unusedSectionVars false
/-
The conditions of C187 are met by normal errors whose variances differ, on copies of a map.
-/
namespace Spreg.Consist
open Spreg Spreg.Lin Spreg.GM Spreg.Sampling Matrix MeasureTheory Filter Topology ProbabilityTheory

section normal
variable {m : Type} [Fintype m] [DecidableEq m]

/-- A factor of mean zero that depends on one coordinate, the other on the others. -/
theorem indep_zero (a : m) (f : ℝ → ℝ) (hf : Measurable f) (h0 : ∫ z, f z ∂(gaussianReal 0 1) = 0) (F : (m → ℝ) → ℝ) (hF : Measurable F)
    (hd : ∀ u v : m → ℝ, (∀ i, i ≠ a → u i = v i) → F u = F v) : ∫ u, f (u a) * F u ∂(Measure.pi fun _ : m => gaussianReal 0 1) = 0 := by
  have hi : iIndepFun (fun i (u : m → ℝ) => u i) (Measure.pi fun _ : m => gaussianReal 0 1) :=
    iIndepFun_pi (μ := fun _ : m => gaussianReal 0 1) (X := fun _ z => z) fun i => (by fun_prop)
  have h1 := hi.indepFun_finset {a} (Finset.univ.erase a) (by simp) (fun i => measurable_pi_apply i)
  have hg : Measurable fun (w : ↥(Finset.univ.erase a) → ℝ) => F (fun i => if h : i ∈ Finset.univ.erase a then w ⟨i, h⟩ else 0) := by
    refine hF.comp (measurable_pi_lambda _ fun i => ?_)
    by_cases h : i ∈ Finset.univ.erase a
    · simp only [h, dif_pos]; exact measurable_pi_apply _
    · simp only [h, dif_neg, not_false_eq_true]; exact measurable_const
  have h2 := h1.comp (φ := fun w : ↥({a} : Finset m) → ℝ => f (w ⟨a, Finset.mem_singleton_self a⟩)) (hf.comp (measurable_pi_apply _)) hg
  have h3 := h2.integral_fun_mul_eq_mul_integral (hf.comp (measurable_pi_apply a)).aestronglyMeasurable
    (hg.comp (measurable_pi_lambda _ fun i => measurable_pi_apply i.1)).aestronglyMeasurable
  have e1 : ∫ u : m → ℝ, f (u a) ∂(Measure.pi fun _ : m => gaussianReal 0 1) = 0 :=
    (integral_comp_eval (μ := fun _ : m => gaussianReal 0 1) (i := a) (f := f) hf.aestronglyMeasurable).trans h0
  refine Eq.trans ?_ (h3.trans ?_)
  · congr 1
    funext u
    show f (u a) * F u = f (u a) * F _
    congr 1
    exact hd _ _ fun i hi => by simp [hi]
  · show (∫ u : m → ℝ, f (u a) ∂(Measure.pi fun _ : m => gaussianReal 0 1)) * _ = 0
    rw [e1, zero_mul]

/-- Functions of independent normal errors with mean zero and fourth moments satisfy the conditions on pairs. -/
theorem fun_pairs (f : ℝ → ℝ) (hf : Measurable f) (h4 : MemLp f 4 (gaussianReal 0 1)) (h0 : ∫ z, f z ∂(gaussianReal 0 1) = 0) (κ : ℝ)
    (hκ : ∫ z, f z ^ 2 ∂(gaussianReal 0 1) = κ) :
    PairErrors (Measure.pi fun _ : m => gaussianReal 0 1) (fun u i => f (u i)) (fun _ => κ) (κ ^ 2 + ∫ z, (f z ^ 2 - κ) ^ 2 ∂(gaussianReal 0 1)) := by
  have me : ∀ i, Measurable fun u : m → ℝ => f (u i) := fun i => hf.comp (measurable_pi_apply i)
  have ev : ∀ i, MemLp (fun u : m → ℝ => f (u i)) 4 (Measure.pi fun _ : m => gaussianReal 0 1) := fun i =>
    h4.comp_measurePreserving (measurePreserving_eval (fun _ : m => gaussianReal 0 1) i)
  have e : (4 : ENNReal)⁻¹ + (4 : ENNReal)⁻¹ = (2 : ENNReal)⁻¹ := by
    rw [← two_mul, show (4 : ENNReal) = 2 * 2 by norm_num, ENNReal.mul_inv (by simp) (by simp), ← mul_assoc,
      ENNReal.mul_inv_cancel (by simp) (by simp), one_mul]
  have pr : ∀ i j, MemLp (fun u : m → ℝ => f (u i) * f (u j)) 2 (Measure.pi fun _ : m => gaussianReal 0 1) := fun i j =>
    MemLp.mul (r := 2) (ev j) (ev i) (hpqr := ⟨e⟩)
  have mp : ∀ i j, Measurable fun u : m → ℝ => f (u i) * f (u j) - covOf (fun _ => κ) i j := fun i j => ((me i).mul (me j)).sub_const _
  have hc : ∀ i j : m, i ≠ j → covOf (fun _ => κ) i j = 0 := fun i j h => if_neg h
  have hs : MemLp (fun z => f z ^ 2) 2 (gaussianReal 0 1) := by
    simp only [sq]
    exact MemLp.mul (r := 2) h4 h4 (hpqr := ⟨e⟩)
  refine ⟨fun i j => (pr i j).sub (memLp_const _), fun i j => ?_, fun i j k l hne => ?_⟩
  · have hn : 0 ≤ ∫ z, (f z ^ 2 - κ) ^ 2 ∂(gaussianReal 0 1) := integral_nonneg fun z => sq_nonneg _
    by_cases h : i = j
    · subst h
      have := integral_comp_eval (μ := fun _ : m => gaussianReal 0 1) (i := i) (f := fun z => (f z ^ 2 - κ) ^ 2)
        (((hf.pow_const 2).sub_const κ).pow_const 2).aestronglyMeasurable
      have e2 : ∫ u : m → ℝ, (f (u i) * f (u i) - covOf (fun _ => κ) i i) ^ 2 ∂(Measure.pi fun _ : m => gaussianReal 0 1) =
          ∫ u : m → ℝ, (f (u i) ^ 2 - κ) ^ 2 ∂(Measure.pi fun _ : m => gaussianReal 0 1) := by
        congr 1; funext u; rw [covOf, if_pos rfl, sq (f (u i))]
      rw [e2, this]
      nlinarith [sq_nonneg κ]
    · have hi : iIndepFun (fun i (u : m → ℝ) => f (u i) ^ 2) (Measure.pi fun _ : m => gaussianReal 0 1) :=
        iIndepFun_pi (μ := fun _ : m => gaussianReal 0 1) (X := fun _ z => f z ^ 2) fun i => (hf.pow_const 2).aemeasurable
      have hm : ∀ i, ∫ u, f (u i) ^ 2 ∂(Measure.pi fun _ : m => gaussianReal 0 1) = κ := fun i =>
        (integral_comp_eval (μ := fun _ : m => gaussianReal 0 1) (i := i) (f := fun z => f z ^ 2) (hf.pow_const 2).aestronglyMeasurable).trans hκ
      have := (hi.indepFun h).integral_fun_mul_eq_mul_integral ((me i).pow_const 2).aestronglyMeasurable ((me j).pow_const 2).aestronglyMeasurable
      rw [hm, hm] at this
      have e2 : ∫ u : m → ℝ, (f (u i) * f (u j) - covOf (fun _ => κ) i j) ^ 2 ∂(Measure.pi fun _ : m => gaussianReal 0 1) =
          ∫ u : m → ℝ, f (u i) ^ 2 * f (u j) ^ 2 ∂(Measure.pi fun _ : m => gaussianReal 0 1) := by
        congr 1; funext u; rw [hc i j h]; ring
      rw [e2, this]
      nlinarith
  · by_cases hij : i = j
    · subst hij
      by_cases hkl : k = l
      · subst hkl
        have hik : k ≠ i := fun h => hne (Or.inl ⟨h, h⟩)
        refine Eq.trans ?_ (indep_zero i (fun z => f z ^ 2 - κ) ((hf.pow_const 2).sub_const κ) ?_ (fun u => f (u k) * f (u k) - covOf (fun _ => κ) k k) (mp k k) ?_)
        · congr 1; funext u
          rw [covOf, if_pos rfl, sq]
        · rw [integral_sub (hs.integrable (by norm_num)) (integrable_const _), hκ]; simp
        · intro u v h; simp only [h k hik]
      · by_cases hk : k = i
        · have hl : l ≠ i := fun h => hkl (hk.trans h.symm)
          refine Eq.trans ?_ (indep_zero l f hf h0 (fun u => (f (u i) * f (u i) - covOf (fun _ => κ) i i) * f (u k)) ((mp i i).mul (me k)) ?_)
          · congr 1; funext u
            rw [hc k l hkl]; ring
          · intro u v h; simp only [h k hkl, h i (Ne.symm hl)]
        · refine Eq.trans ?_ (indep_zero k f hf h0 (fun u => (f (u i) * f (u i) - covOf (fun _ => κ) i i) * f (u l)) ((mp i i).mul (me l)) ?_)
          · congr 1; funext u
            rw [hc k l hkl]; ring
          · intro u v h; simp only [h l (Ne.symm hkl), h i (Ne.symm hk)]
    · by_cases hi : i = k ∨ i = l
      · have hj : k ≠ j ∧ l ≠ j := by
          constructor
          · intro h
            rcases hi with hi | hi
            · exact hij (hi.trans h)
            · exact hne (Or.inr ⟨h, hi.symm⟩)
          · intro h
            rcases hi with hi | hi
            · exact hne (Or.inl ⟨hi.symm, h⟩)
            · exact hij (hi.trans h)
        refine Eq.trans ?_ (indep_zero j f hf h0 (fun u => f (u i) * (f (u k) * f (u l) - covOf (fun _ => κ) k l)) ((me i).mul (mp k l)) ?_)
        · congr 1; funext u
          rw [hc i j hij]; ring
        · intro u v h; simp only [h k hj.1, h l hj.2, h i hij]
      · rw [not_or] at hi
        refine Eq.trans ?_ (indep_zero i f hf h0 (fun u => f (u j) * (f (u k) * f (u l) - covOf (fun _ => κ) k l)) ((me j).mul (mp k l)) ?_)
        · congr 1; funext u
          rw [hc i j hij]; ring
        · intro u v h; simp only [h k (Ne.symm hi.1), h l (Ne.symm hi.2), h j (Ne.symm hij)]

theorem gauss_center4 : MemLp (fun z : ℝ => z ^ 2 - 1) 4 (gaussianReal 0 1) := by
  refine MemLp.sub ?_ (memLp_const _)
  have e : (8 : ENNReal)⁻¹ + (8 : ENNReal)⁻¹ = (4 : ENNReal)⁻¹ := by
    rw [← two_mul, show (8 : ENNReal) = 2 * 4 by norm_num, ENNReal.mul_inv (by simp) (by simp), ← mul_assoc,
      ENNReal.mul_inv_cancel (by simp) (by simp), one_mul]
  simp only [sq]
  have h8 := gauss_memLp 8
  exact MemLp.mul (r := 4) h8 h8 (hpqr := ⟨e⟩)

/-- Normal errors with standard deviations `d`, bounded by `D`: their squares satisfy the conditions. -/
theorem gauss_squared {Ix : ℕ → Type} [∀ t, Fintype (Ix t)] [∀ t, DecidableEq (Ix t)] (d : ∀ t, Ix t → ℝ) (D : ℝ) (hd : ∀ t i, |d t i| ≤ D) :
    SquaredErrors (Ω := fun t => Ix t → ℝ) (fun t => Measure.pi fun _ => gaussianReal 0 1) Ix (fun t (u : Ix t → ℝ) (i : Ix t) => d t i * u i) (fun t i => d t i ^ 2 * 1) := by
  have h0 : ∫ z, (z ^ 2 - 1) ∂(gaussianReal 0 1) = 0 := by
    rw [integral_sub (gauss_sq_memLp.integrable (by norm_num)) (integrable_const _), gauss_sq]; simp
  have hk0 : 0 ≤ ∫ z, (z ^ 2 - 1) ^ 2 ∂(gaussianReal 0 1) := integral_nonneg fun z => sq_nonneg _
  have hdd : ∀ t i, |d t i ^ 2| ≤ D ^ 2 := fun t i => by
    rw [abs_pow]; exact pow_le_pow_left₀ (abs_nonneg _) (hd t i) 2
  have key : ∀ t, (fun (u : Ix t → ℝ) i => (d t i * u i) ^ 2 - d t i ^ 2 * 1) = fun u i => d t i ^ 2 * (u i ^ 2 - 1) := by
    intro t; funext u i; ring
  refine ⟨fun t i => (d t i ^ 2) ^ 2 * ∫ z, (z ^ 2 - 1) ^ 2 ∂(gaussianReal 0 1), (D ^ 2) ^ 2 * ∫ z, (z ^ 2 - 1) ^ 2 ∂(gaussianReal 0 1),
    (D ^ 2) ^ 4 * ((∫ z, (z ^ 2 - 1) ^ 2 ∂(gaussianReal 0 1)) ^ 2 + ∫ z, ((z ^ 2 - 1) ^ 2 - ∫ z, (z ^ 2 - 1) ^ 2 ∂(gaussianReal 0 1)) ^ 2 ∂(gaussianReal 0 1)), fun t i => ⟨by positivity, ?_⟩, fun t => ?_, fun t => ?_⟩
  · refine mul_le_mul_of_nonneg_right ?_ hk0
    rw [← sq_abs (d t i ^ 2)]
    exact pow_le_pow_left₀ (abs_nonneg _) (hdd t i) 2
  · rw [key t]
    exact scale_errors (iid_errors (m := Ix t) (fun _ z => z ^ 2 - 1) (fun _ => by fun_prop) (fun _ => gauss_sq_memLp.sub (memLp_const _)) (fun _ => h0)) fun i => d t i ^ 2
  · rw [key t]
    exact scale_pairs (fun_pairs (m := Ix t) (fun z => z ^ 2 - 1) (by fun_prop) gauss_center4 h0 _ rfl) (fun i => d t i ^ 2) (D ^ 2) (hdd t)
end normal

section rep
variable {m kx : Type} [Fintype m] [DecidableEq m] [Nonempty m] [Fintype kx] [DecidableEq kx]

/-- Copies of a map, with normal innovations whose standard deviations `d0` differ between regions. -/
theorem rep_model_het (W0 : Matrix m m ℝ) (x0 : Matrix m kx ℝ) (beta : kx → ℝ) (lam : ℝ) (d0 : m → ℝ) (hlam : |lam| ≤ 0.99) (hreg : IsUnit (1 - lam • W0).det)
    (hd : ∀ i, W0 i i = 0) :
    ErrorModel (Ω := fun t => m × Fin (t + 1) → ℝ) (fun t => Measure.pi fun _ => gaussianReal 0 1) (fun t => m × Fin (t + 1)) (repW W0) (repX x0)
      (fun t e => repX x0 t *ᵥ beta + (1 - lam • repW W0 t)⁻¹ *ᵥ fun i => d0 i.1 * e i) (fun t e => (1 - lam • repW W0 t)⁻¹ *ᵥ fun i => d0 i.1 * e i)
      (fun _ e i => d0 i.1 * e i) beta lam (fun _ i => d0 i.1 ^ 2 * 1) where
  y_eq t ω i := rfl
  v_eq t ω i := by
    have hu := (rep_inv W0 lam hreg t).1
    have h1 : (1 - lam • repW W0 t) *ᵥ ((1 - lam • repW W0 t)⁻¹ *ᵥ fun i => d0 i.1 * ω i) = fun i => d0 i.1 * ω i := by
      rw [mulVec_mulVec, mul_nonsing_inv _ hu, one_mulVec]
    have h2 := congrFun h1 i
    rw [sub_mulVec, one_mulVec, smul_mulVec] at h2
    simp only [Pi.sub_apply, Pi.smul_apply, smul_eq_mul] at h2
    have e1 : ∀ v, (repW W0 t *ᵥ v) i = ∑ i', repW W0 t i i' * v i' := fun v => rfl
    rw [← e1]
    linarith
  err := (rep_lagmodel W0 x0 0 (fun _ => 0) lam d0 hreg).err
  var := (rep_lagmodel W0 x0 0 (fun _ => 0) lam d0 hreg).var
  pairs := (rep_lagmodel W0 x0 0 (fun _ => 0) lam d0 hreg).pairs
  size := (rep_lagmodel W0 x0 0 (fun _ => 0) lam d0 hreg).size
  pos _ := Fintype.card_pos
  reg t := (rep_inv W0 lam hreg t).1
  diag t i := by rw [repW, blockDiagonal_apply, if_pos rfl]; exact hd _
  sumsW := ⟨_, fun t => ⟨(rep_abs W0 t).1, (rep_abs W0 t).2⟩⟩
  sumsR := ⟨∑ i, ∑ j, |(1 - lam • W0)⁻¹ i j|, fun t => by
    rw [(rep_inv W0 lam hreg t).2]
    exact ⟨(rep_abs _ t).1, (rep_abs _ t).2⟩⟩
  bdd := (rep_lagmodel W0 x0 0 (fun _ => 0) lam d0 hreg).bdd
  box := hlam

theorem repW_tr (A : Matrix m m ℝ) (t : ℕ) : (repW A t)ᵀ = repW Aᵀ t := blockDiagonal_transpose _

theorem repW_add (A B : Matrix m m ℝ) (t : ℕ) : repW A t + repW B t = repW (A + B) t := (blockDiagonal_add _ _).symm

theorem repW_hetA (W0 : Matrix m m ℝ) (t : ℕ) (a : Fin 2) : hetA (repW W0 t) a = repW (hetA W0 a) t := by
  by_cases ha : a = 0
  · have e1 : ∀ {o : Type} [Fintype o] [DecidableEq o] (W : Matrix o o ℝ) (i j : o), hetA W a i j = if i = j then 0 else (Wᵀ * W) i j := fun W i j => by
      rw [hetA, if_pos ha]; rfl
    ext i j
    rw [e1, repW_tr, repW_mul, repW, repW, blockDiagonal_apply, blockDiagonal_apply, e1]
    by_cases h : i = j
    · rw [if_pos h, if_pos (congrArg Prod.snd h), if_pos (congrArg Prod.fst h)]
    · rw [if_neg h]
      by_cases h2 : i.2 = j.2
      · rw [if_pos h2, if_pos h2, if_neg fun h1 => h (Prod.ext h1 h2)]
      · rw [if_neg h2, if_neg h2]
  · have e1 : ∀ {o : Type} [Fintype o] [DecidableEq o] (W : Matrix o o ℝ), hetA W a = W := fun W => if_neg ha
    rw [e1, e1]

theorem repW_diag (A : Matrix m m ℝ) (t : ℕ) (i : m × Fin (t + 1)) : repW A t i i = A i.1 i.1 := by
  rw [repW, blockDiagonal_apply, if_pos rfl]

/-- Limits for copies of a map. -/
theorem rep_het (W0 : Matrix m m ℝ) (x0 : Matrix m kx ℝ) (beta : kx → ℝ) (lam : ℝ) (d0 : m → ℝ) (hlam : |lam| ≤ 0.99) (hreg : IsUnit (1 - lam • W0).det)
    (hd : ∀ i, W0 i i = 0) :
    HetLimits (Ω := fun t => m × Fin (t + 1) → ℝ) (fun t => Measure.pi fun _ => gaussianReal 0 1) (fun t => m × Fin (t + 1)) (repW W0) (repX x0)
      (fun t e => (1 - lam • repW W0 t)⁻¹ *ᵥ fun i => d0 i.1 * e i) (fun _ i => d0 i.1 ^ 2 * 1)
      (Matrix.of fun a b => if b = 0 then
          (∑ i, d0 i ^ 2 * ((1 - lam • W0)⁻¹ᵀ * (((hetA W0 a + (hetA W0 a)ᵀ) * W0) * (1 - lam • W0)⁻¹) : Matrix m m ℝ) i i) / Fintype.card m
        else -(∑ i, d0 i ^ 2 * ((W0 * (1 - lam • W0)⁻¹)ᵀ * (hetA W0 a * W0 * (1 - lam • W0)⁻¹) : Matrix m m ℝ) i i) / Fintype.card m)
      (Matrix.of fun a b => (∑ i, ∑ j, (hetA W0 a i j + hetA W0 a j i) * (hetA W0 b i j + hetA W0 b j i) * (d0 i ^ 2 * d0 j ^ 2)) / (2 * Fintype.card m))
      (fun a b => Matrix.of fun i j => (∑ o, d0 o ^ 2 * ((W0 ^ a.1 * x0 : Matrix m kx ℝ) o i * (W0 ^ b.1 * x0 : Matrix m kx ℝ) o j)) / Fintype.card m) where
  lin a := by
    refine tendsto_const_nhds.congr fun t => ?_
    have hm := em_mean (rep_model_het W0 x0 beta lam d0 hlam hreg hd) t 1 ((hetA (repW W0 t) a + (hetA (repW W0 t) a)ᵀ) * repW W0 t)
    simp only [one_mulVec, Matrix.one_mul, ← mulVec_mulVec] at hm
    refine Eq.trans ?_ (congrArg (· / (Fintype.card (m × Fin (t + 1)) : ℝ)) hm.symm)
    rw [(rep_inv W0 lam hreg t).2, repW_hetA, repW_tr, repW_tr, repW_add, repW_mul, repW_mul, repW_mul]
    simp only [repW_diag]
    rw [of_apply, if_pos rfl]
    simp only [mul_one]
    exact (rep_avg (fun i => d0 i ^ 2 * ((1 - lam • W0)⁻¹ᵀ * (((hetA W0 a + (hetA W0 a)ᵀ) * W0) * (1 - lam • W0)⁻¹) : Matrix m m ℝ) i i) t).symm
  quad a := by
    refine tendsto_const_nhds.congr fun t => ?_
    have hm := em_mean (rep_model_het W0 x0 beta lam d0 hlam hreg hd) t (repW W0 t) (hetA (repW W0 t) a * repW W0 t)
    rw [(rep_inv W0 lam hreg t).2, repW_hetA, repW_mul, repW_mul, repW_mul, repW_tr, repW_mul] at hm
    simp only [repW_diag, mul_one] at hm
    rw [of_apply, if_neg (by decide), neg_div, neg_div]
    congr 1
    refine (rep_avg (fun i => d0 i ^ 2 * ((W0 * (1 - lam • W0)⁻¹)ᵀ * (hetA W0 a * W0 * (1 - lam • W0)⁻¹) : Matrix m m ℝ) i i) t).symm.trans ?_
    refine congrArg (· / (Fintype.card (m × Fin (t + 1)) : ℝ)) (hm.symm.trans ?_)
    congr 1
    funext ω
    rw [(rep_inv W0 lam hreg t).2, repW_hetA, mulVec_mulVec _ (repW (hetA W0 a) t), repW_mul]
    rfl
  psi a b := by
    refine tendsto_const_nhds.congr fun t => ?_
    rw [repW_hetA, repW_hetA, of_apply, mul_comm (2 : ℝ), mul_comm (2 : ℝ), ← div_div, ← div_div]
    congr 1
    have := rep_frob (Matrix.of fun i j => (hetA W0 a i j + hetA W0 a j i) * (d0 i ^ 2 * d0 j ^ 2)) (hetA W0 b + (hetA W0 b)ᵀ) t
    refine Eq.trans ?_ (this.symm.trans ?_)
    · congr 1
      refine Finset.sum_congr rfl fun i _ => Finset.sum_congr rfl fun j _ => ?_
      rw [of_apply, Matrix.add_apply, transpose_apply]; ring
    · congr 1
      refine Finset.sum_congr rfl fun i _ => Finset.sum_congr rfl fun j _ => ?_
      simp only [repW, blockDiagonal_apply, of_apply, Matrix.add_apply, transpose_apply, mul_one]
      by_cases h : i.2 = j.2
      · simp only [h, if_true]; ring
      · simp only [h, Ne.symm h, if_false]; ring
  reg a b i j := by
    refine tendsto_const_nhds.congr fun t => ?_
    rw [repW_pow_mul, repW_pow_mul]
    simp only [mul_one]
    exact (rep_avg (fun o => d0 o ^ 2 * ((W0 ^ a.1 * x0 : Matrix m kx ℝ) o i * (W0 ^ b.1 * x0 : Matrix m kx ℝ) o j)) t).symm
end rep

theorem minimises2_exists : ∃ opt, Minimises2 opt := by
  have hmin : ∀ f : ℝ → ℝ, Continuous f → ∃ l, |l| ≤ 0.99 ∧ ∀ l', |l'| ≤ 0.99 → f l ≤ f l' := by
    intro f hf
    obtain ⟨l, hl, hm⟩ := (isCompact_Icc (a := (-0.99 : ℝ)) (b := 0.99)).exists_isMinOn ⟨0, by norm_num, by norm_num⟩ hf.continuousOn
    exact ⟨l, abs_le.2 hl, fun l' h' => hm (abs_le.1 h')⟩
  have hc : ∀ (M : Moments (Fin 2) (Fin 2)) (i : Fin 2), Continuous fun l => dev M l i := by
    intro M i
    unfold dev
    fun_prop
  have h1 : ∀ (M : Moments (Fin 2) (Fin 2)), ∃ l, |l| ≤ 0.99 ∧ ∀ l', |l'| ≤ 0.99 → ∑ i, dev M l i ^ 2 ≤ ∑ i, dev M l' i ^ 2 := fun M =>
    hmin _ (continuous_finsetSum _ fun i _ => (hc M i).pow 2)
  have h2 : ∀ (M : Moments (Fin 2) (Fin 2)) (V : Matrix (Fin 2) (Fin 2) ℝ), ∃ l, |l| ≤ 0.99 ∧ ∀ l', |l'| ≤ 0.99 →
      dev M l ⬝ᵥ (V⁻¹ *ᵥ dev M l) ≤ dev M l' ⬝ᵥ (V⁻¹ *ᵥ dev M l') := fun M V =>
    hmin _ (continuous_finsetSum _ fun i _ => (hc M i).mul (show Continuous fun l => ∑ j, V⁻¹ i j * dev M l j from continuous_finsetSum _ fun j _ => continuous_const.mul (hc M j)))
  choose f1 g1 using h1
  choose f2 g2 using h2
  exact ⟨fun M V => match V with | none => .ok (f1 M) | some V => .ok (f2 M V), fun M _ => ⟨⟨_, rfl, g1 M⟩, fun V _ => ⟨_, rfl, g2 M V⟩⟩⟩

/-- The conditions of C187 are met: copies of a path of three regions with lambda 1/2, a constant and a dummy, normal errors with four times the variance in the
second region of each copy, and any optimiser that minimises; there is one. -/
theorem C187_example (beta : Fin 2 → ℝ) : (∃ opt, Minimises2 opt) ∧ ∀ opt, Minimises2 opt → ∀ step1c hardBound : Bool,
    Consistent (Ω := fun t => Fin 3 × Fin (t + 1) → ℝ) (fun t => Measure.pi fun _ => gaussianReal 0 1)
      (fun t e => (gmErrorHet opt (repW path3 t) (repX x32 t) (repX x32 t *ᵥ beta + (1 - (1 / 2 : ℝ) • repW path3 t)⁻¹ *ᵥ fun i => (![1, 2, 1] : Fin 3 → ℝ) i.1 * e i)
        1 0.00001 step1c hardBound).toOption.map fun f => f.betas) beta ∧
    Consistent (Ω := fun t => Fin 3 × Fin (t + 1) → ℝ) (fun t => Measure.pi fun _ => gaussianReal 0 1)
      (fun t e => (gmErrorHet opt (repW path3 t) (repX x32 t) (repX x32 t *ᵥ beta + (1 - (1 / 2 : ℝ) • repW path3 t)⁻¹ *ᵥ fun i => (![1, 2, 1] : Fin 3 → ℝ) i.1 * e i)
        1 0.00001 step1c hardBound).toOption.map fun f (_ : Unit) => f.lam) (fun _ => 1 / 2) := by
  refine ⟨minimises2_exists, fun opt hopt step1c hardBound => ?_⟩
  have hd : ∀ i, path3 i i = 0 := by intro i; fin_cases i <;> simp [path3]
  have hl : |(1 / 2 : ℝ)| ≤ 0.99 := by rw [abs_of_pos] <;> norm_num
  have a0 : hetA path3 0 = !![0, 0, 1 / 4; 0, 0, 0; 1 / 4, 0, 0] := by
    rw [hetA, if_pos rfl]
    ext i j
    fin_cases i <;> fin_cases j <;> simp [path3, Fin.sum_univ_three] <;> norm_num
  have a1 : hetA path3 1 = path3 := if_neg (by decide)
  have hm := rep_het path3 x32 beta (1 / 2) ![1, 2, 1] hl path3_reg hd
  have hG : ∀ A : Fin 2 → Matrix (Fin 3) (Fin 3) ℝ, A 0 = !![0, 0, 1 / 4; 0, 0, 0; 1 / 4, 0, 0] → A 1 = path3 → (Matrix.of fun a b : Fin 2 => if b = 0 then
          (∑ i, (![1, 2, 1] : Fin 3 → ℝ) i ^ 2 * ((1 - (1 / 2 : ℝ) • path3)⁻¹ᵀ * (((A a + (A a)ᵀ) * path3) * (1 - (1 / 2 : ℝ) • path3)⁻¹) : Matrix (Fin 3) (Fin 3) ℝ) i i) / Fintype.card (Fin 3)
        else -(∑ i, (![1, 2, 1] : Fin 3 → ℝ) i ^ 2 * ((path3 * (1 - (1 / 2 : ℝ) • path3)⁻¹)ᵀ * (A a * path3 * (1 - (1 / 2 : ℝ) • path3)⁻¹) : Matrix (Fin 3) (Fin 3) ℝ) i i) / Fintype.card (Fin 3)) =
        (!![4 / 3, -11 / 9; 10, -4] : Matrix (Fin 2) (Fin 2) ℝ) := by
    intro A a0 a1
    rw [path3_R]
    ext i j
    fin_cases i <;> fin_cases j <;> simp [a0, a1, path3, mul_apply, Fin.sum_univ_three, -mul_eq_mul_left_iff, -mul_eq_mul_right_iff] <;> norm_num
  have hP : ∀ A : Fin 2 → Matrix (Fin 3) (Fin 3) ℝ, A 0 = !![0, 0, 1 / 4; 0, 0, 0; 1 / 4, 0, 0] → A 1 = path3 → (Matrix.of fun a b : Fin 2 => (∑ i, ∑ j, (A a i j + A a j i) * (A b i j + A b j i) *
      ((![1, 2, 1] : Fin 3 → ℝ) i ^ 2 * (![1, 2, 1] : Fin 3 → ℝ) j ^ 2)) / (2 * Fintype.card (Fin 3))) = (!![1 / 12, 0; 0, 6] : Matrix (Fin 2) (Fin 2) ℝ) := by
    intro A a0 a1
    ext i j
    fin_cases i <;> fin_cases j <;> simp [a0, a1, path3, Fin.sum_univ_three, -mul_eq_mul_left_iff, -mul_eq_mul_right_iff] <;> norm_num
  rw [hG _ a0 a1, hP _ a0 a1] at hm
  have := C187_gmErrorHet (rep_model_het path3 x32 beta (1 / 2) ![1, 2, 1] hl path3_reg hd) (gauss_squared (Ix := fun t => Fin 3 × Fin (t + 1)) (fun _ i => (![1, 2, 1] : Fin 3 → ℝ) i.1) 2 fun t i => ?_)
    hm ?_ (Or.inr ?_) (posdef2 _ ?_ ?_ ?_) (rep_reg path3 x32) ?_ ?_ hopt 1 zero_lt_one 0.00001 (by norm_num) step1c hardBound (fun _ => by rw [abs_of_pos] <;> norm_num)
  · exact ⟨this.1, this.2.1⟩
  · generalize i.1 = j
    fin_cases j <;> simp
  · rw [det_fin_two]; simp; norm_num
  · simp
  · simp
  · simp
  · rw [det_fin_two]; simp
  · rw [det_fin_two]
    simp [x32, mul_apply, Fin.sum_univ_three]
    norm_num
  · rw [det_fin_two]
    simp [x32, path3, mul_apply, Fin.sum_univ_three]
    norm_num
end Spreg.Consist
