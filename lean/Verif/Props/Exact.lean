import Verif.Spec.Student
import Verif.Props.Moran
import Verif.Props.Diagnostics
/-
Under normal errors the t and F statistics of OLS have exactly the distributions from which their p-values are taken (C174).
-/
set_option linter.unusedSectionVars false
namespace Spreg.Exact
open Matrix MeasureTheory ProbabilityTheory Spreg Spreg.Lin Spreg.LM Spreg.Sampling

variable {n k : Type} [Fintype n] [Fintype k] [DecidableEq n] [DecidableEq k]

/-- Two orthogonal projections onto orthogonal subspaces are diagonal in a common orthonormal basis. -/
theorem two_proj (A B : Matrix n n ℝ) (hA : Aᵀ = A) (hB : Bᵀ = B) (hAA : A * A = A) (hBB : B * B = B) (hAB : A * B = 0) :
    ∃ (U : Matrix n n ℝ) (S T : Finset n), Uᵀ * U = 1 ∧ Disjoint S T ∧
      A = U * diagonal (fun i => if i ∈ S then 1 else 0) * Uᵀ ∧ B = U * diagonal (fun i => if i ∈ T then 1 else 0) * Uᵀ ∧
      (S.card : ℝ) = trace A ∧ (T.card : ℝ) = trace B := by
  have hBA : B * A = 0 := by
    have := congrArg transpose hAB
    rwa [transpose_mul, hA, hB, transpose_zero] at this
  obtain ⟨U, l, hU, hC⟩ := real_spectral (A + (2 : ℝ) • B) (by rw [transpose_add, transpose_smul, hA, hB])
  have hU' : U * Uᵀ = 1 := mul_eq_one_comm.1 hU
  have conj_mul : ∀ a b : n → ℝ, U * diagonal a * Uᵀ * (U * diagonal b * Uᵀ) = U * diagonal (fun i => a i * b i) * Uᵀ := by
    intro a b
    rw [← diagonal_mul_diagonal]
    calc _ = U * diagonal a * (Uᵀ * U) * diagonal b * Uᵀ := by simp only [Matrix.mul_assoc]
      _ = _ := by rw [hU, Matrix.mul_one]; simp only [Matrix.mul_assoc]
  have conj_inj : ∀ a b : n → ℝ, U * diagonal a * Uᵀ = U * diagonal b * Uᵀ → a = b := by
    intro a b h
    have := congrArg (fun X => Uᵀ * X * U) h
    have e : ∀ a : n → ℝ, Uᵀ * (U * diagonal a * Uᵀ) * U = diagonal a := by
      intro a
      calc _ = (Uᵀ * U) * diagonal a * (Uᵀ * U) := by simp only [Matrix.mul_assoc]
        _ = _ := by rw [hU, Matrix.one_mul, Matrix.mul_one]
    simp only [e] at this
    exact diagonal_injective this
  have hCC : (A + (2 : ℝ) • B) * (A + (2 : ℝ) • B) = A + (4 : ℝ) • B := by
    rw [Matrix.add_mul, Matrix.mul_add, Matrix.mul_add, hAA, Matrix.mul_smul, hAB, Matrix.smul_mul, hBA, Matrix.smul_mul, Matrix.mul_smul,
      hBB, smul_zero, add_zero, zero_add, smul_smul]
    norm_num
  have hC2 : A + (4 : ℝ) • B = U * diagonal (fun i => l i * l i) * Uᵀ := by rw [← hCC, hC, conj_mul]
  have hAe : A = U * diagonal (fun i => 2 * l i - l i * l i) * Uᵀ := by
    have e1 : A = (2 : ℝ) • (A + (2 : ℝ) • B) - (A + (4 : ℝ) • B) := by
      rw [smul_add, smul_smul]; norm_num; rw [two_smul]; abel
    have e2 : diagonal (fun i => 2 * l i - l i * l i) = (2 : ℝ) • diagonal l - diagonal (fun i => l i * l i) := by
      rw [← diagonal_smul, diagonal_sub]; rfl
    rw [e2, Matrix.mul_sub, Matrix.sub_mul, Matrix.mul_smul, Matrix.smul_mul, ← hC, ← hC2, ← e1]
  have hBe : B = U * diagonal (fun i => (1 / 2) * (l i * l i) - (1 / 2) * l i) * Uᵀ := by
    have e1 : B = (1 / 2 : ℝ) • (A + (4 : ℝ) • B) - (1 / 2 : ℝ) • (A + (2 : ℝ) • B) := by
      rw [smul_add, smul_add, smul_smul, smul_smul, add_sub_add_left_eq_sub, ← sub_smul]; norm_num
    have e2 : diagonal (fun i => (1 / 2) * (l i * l i) - (1 / 2) * l i) = (1 / 2 : ℝ) • diagonal (fun i => l i * l i) - (1 / 2 : ℝ) • diagonal l := by
      rw [← diagonal_smul, ← diagonal_smul, diagonal_sub]; rfl
    rw [e2, Matrix.mul_sub, Matrix.sub_mul, Matrix.mul_smul, Matrix.smul_mul, Matrix.mul_smul, Matrix.smul_mul, ← hC, ← hC2, ← e1]
  set a : n → ℝ := fun i => 2 * l i - l i * l i with ha
  set b : n → ℝ := fun i => (1 / 2) * (l i * l i) - (1 / 2) * l i with hb
  have ha1 : ∀ i, a i = 0 ∨ a i = 1 := by
    intro i
    have := congrFun (conj_inj _ _ (by rw [← conj_mul, ← hAe, hAA] : U * diagonal (fun i => a i * a i) * Uᵀ = U * diagonal a * Uᵀ)) i
    rcases eq_or_ne (a i) 0 with h | h
    · exact .inl h
    · exact .inr (mul_right_cancel₀ h (by rw [this, one_mul]))
  have hb1 : ∀ i, b i = 0 ∨ b i = 1 := by
    intro i
    have := congrFun (conj_inj _ _ (by rw [← conj_mul, ← hBe, hBB] : U * diagonal (fun i => b i * b i) * Uᵀ = U * diagonal b * Uᵀ)) i
    rcases eq_or_ne (b i) 0 with h | h
    · exact .inl h
    · exact .inr (mul_right_cancel₀ h (by rw [this, one_mul]))
  have hab : ∀ i, a i * b i = 0 := by
    intro i
    have h0 : U * diagonal (fun i => a i * b i) * Uᵀ = U * diagonal (fun _ => 0) * Uᵀ := by
      rw [← conj_mul, ← hAe, ← hBe, hAB]; simp
    exact congrFun (conj_inj _ _ h0) i
  have ind : ∀ c : n → ℝ, (∀ i, c i = 0 ∨ c i = 1) → (fun i => if i ∈ Finset.univ.filter (fun i => c i = 1) then (1 : ℝ) else 0) = c := by
    intro c hc
    funext i
    rcases hc i with h | h <;> simp [h]
  have htr : ∀ c : n → ℝ, (∀ i, c i = 0 ∨ c i = 1) → ((Finset.univ.filter (fun i => c i = 1)).card : ℝ) = trace (U * diagonal c * Uᵀ) := by
    intro c hc
    rw [Matrix.mul_assoc, trace_mul_comm, Matrix.mul_assoc, hU, Matrix.mul_one, trace_diagonal, ← ind c hc, Finset.card_filter]
    push_cast
    refine Finset.sum_congr rfl fun i _ => ?_
    simp
  refine ⟨U, Finset.univ.filter (fun i => a i = 1), Finset.univ.filter (fun i => b i = 1), hU, ?_, ?_, ?_, ?_, ?_⟩
  · rw [Finset.disjoint_filter]
    intro i _ h1 h2
    have := hab i
    rw [h1, h2] at this
    norm_num at this
  · rw [ind a ha1]; exact hAe
  · rw [ind b hb1]; exact hBe
  · rw [htr a ha1, ← hAe]
  · rw [htr b hb1, ← hBe]

theorem quad_conj (U : Matrix n n ℝ) (S : Finset n) (v : n → ℝ) :
    v ⬝ᵥ ((U * diagonal (fun i => if i ∈ S then 1 else 0) * Uᵀ) *ᵥ v) = ∑ i ∈ S, (Uᵀ *ᵥ v) i ^ 2 := by
  rw [← mulVec_mulVec, ← mulVec_mulVec, dotProduct_mulVec, ← mulVec_transpose]
  simp only [dotProduct, mulVec_diagonal]
  rw [← Finset.sum_filter_add_sum_filter_not Finset.univ (· ∈ S)]
  rw [Finset.sum_eq_zero (s := Finset.univ.filter (fun i => ¬ i ∈ S)), add_zero, Finset.filter_mem_eq_inter, Finset.univ_inter]
  · refine Finset.sum_congr rfl fun i hi => ?_
    rw [if_pos hi]; ring
  · intro i hi
    rw [if_neg (Finset.mem_filter.1 hi).2]; ring

/-- Some of the coordinates of independent normals, scaled, are independent standard normals. -/
theorem coords_law {κ : Type} [Fintype κ] (s : ℝ) (hs : 0 < s) (f : κ → n) (hf : Function.Injective f) :
    (Measure.pi fun _ : n => gaussianReal 0 s.toNNReal).map (fun z (o : κ) => z (f o) / Real.sqrt s) = stdNormals κ := by
  set P := Measure.pi fun _ : n => gaussianReal 0 s.toNNReal with hP
  have hm : ∀ o, Measurable fun z : n → ℝ => z (f o) / Real.sqrt s := fun o => (measurable_pi_apply _).div_const _
  have hi : iIndepFun (fun (o : κ) (z : n → ℝ) => z (f o) / Real.sqrt s) P := by
    have h0 : iIndepFun (fun (i : n) (z : n → ℝ) => z i / Real.sqrt s) P :=
      iIndepFun_pi (X := fun _ x => x / Real.sqrt s) fun i => (measurable_id.div_const _).aemeasurable
    exact h0.precomp hf
  rw [(iIndepFun_iff_map_fun_eq_pi_map fun o => (hm o).aemeasurable).1 hi]
  unfold stdNormals
  congr 1
  funext o
  have e : (fun z : n → ℝ => z (f o) / Real.sqrt s) = (fun x => x / Real.sqrt s) ∘ Function.eval (f o) := rfl
  have hd : Measurable fun x : ℝ => x / Real.sqrt s := measurable_id.div_const _
  rw [e, ← Measure.map_map hd (measurable_pi_apply (f o) : Measurable (Function.eval (f o))), (measurePreserving_eval _ (f o)).map_eq,
    gaussianReal_map_div_const, zero_div]
  congr 1
  apply NNReal.eq
  simp [Real.sq_sqrt hs.le, Real.coe_toNNReal _ hs.le, hs.ne']

theorem fisher_meas (d1 d2 : ℕ) : Measurable fun z : Fin d1 ⊕ Fin d2 → ℝ => ((∑ i, z (.inl i) ^ 2) / d1) / ((∑ i, z (.inr i) ^ 2) / d2) := by
  fun_prop

theorem student_meas (d : ℕ) : Measurable fun z : Option (Fin d) → ℝ => z none / Real.sqrt ((∑ i, z (some i) ^ 2) / d) := by
  fun_prop

/-- The positions in a finite set as a numbering. -/
theorem sum_fin (S : Finset n) (d : ℕ) (h : S.card = d) (g : n → ℝ) :
    ∑ i : Fin d, g ((S.equivFinOfCardEq h).symm i : n) = ∑ i ∈ S, g i := by
  rw [← Finset.sum_coe_sort S g]
  exact Fintype.sum_equiv (S.equivFinOfCardEq h).symm _ _ fun i => rfl

/-- Ratio of quadratic forms in normal errors. -/
theorem ratio_law (s : ℝ) (hs : 0 < s) (A B : Matrix n n ℝ) (hA : Aᵀ = A) (hB : Bᵀ = B) (hAA : A * A = A) (hBB : B * B = B)
    (hAB : A * B = 0) (d1 d2 : ℕ) (h1 : trace A = d1) (h2 : trace B = d2) :
    (Measure.pi fun _ : n => gaussianReal 0 s.toNNReal).map (fun e => ((e ⬝ᵥ (A *ᵥ e)) / d1) / ((e ⬝ᵥ (B *ᵥ e)) / d2)) =
      fisherLaw d1 d2 := by
  obtain ⟨U, S, T, hU, hd, rfl, rfl, hS, hT⟩ := two_proj A B hA hB hAA hBB hAB
  have hS' : S.card = d1 := by rw [h1] at hS; exact_mod_cast hS
  have hT' : T.card = d2 := by rw [h2] at hT; exact_mod_cast hT
  have hsp := normal_spherical (n := n) s hs
  set P := Measure.pi fun _ : n => gaussianReal 0 s.toNNReal with hP
  let G : (n → ℝ) → ℝ := fun z => ((∑ i ∈ S, z i ^ 2) / d1) / ((∑ i ∈ T, z i ^ 2) / d2)
  have hG : Measurable G := by fun_prop
  have hUm : Measurable fun e : n → ℝ => Uᵀ *ᵥ e := by
    refine measurable_pi_lambda _ fun i => ?_
    simp only [mulVec, dotProduct]; fun_prop
  have e1 : (fun e : n → ℝ => ((e ⬝ᵥ ((U * diagonal (fun i => if i ∈ S then 1 else 0) * Uᵀ) *ᵥ e)) / d1) /
      ((e ⬝ᵥ ((U * diagonal (fun i => if i ∈ T then 1 else 0) * Uᵀ) *ᵥ e)) / d2)) = G ∘ fun e => Uᵀ *ᵥ e := by
    funext e; simp only [quad_conj]; rfl
  have hr := hsp.rot Uᵀ (by rw [transpose_transpose]; exact mul_eq_one_comm.1 hU)
  rw [e1, ← Measure.map_map hG hUm, hr, Measure.map_id']
  let f : Fin d1 ⊕ Fin d2 → n := Sum.elim (fun i => (S.equivFinOfCardEq hS').symm i) (fun i => (T.equivFinOfCardEq hT').symm i)
  have hf : Function.Injective f := by
    refine Function.Injective.sumElim ?_ ?_ ?_
    · exact Subtype.val_injective.comp (Equiv.injective _)
    · exact Subtype.val_injective.comp (Equiv.injective _)
    · intro i j h
      exact Finset.disjoint_left.1 hd ((S.equivFinOfCardEq hS').symm i).2 (h ▸ ((T.equivFinOfCardEq hT').symm j).2)
  unfold fisherLaw
  rw [← coords_law s hs f hf, Measure.map_map (fisher_meas d1 d2)]
  · congr 1
    funext z
    simp only [Function.comp, f, Sum.elim_inl, Sum.elim_inr, div_pow, Real.sq_sqrt hs.le]
    rw [← Finset.sum_div, ← Finset.sum_div, sum_fin S d1 hS' fun i => z i ^ 2, sum_fin T d2 hT' fun i => z i ^ 2]
    simp only [G]
    rw [div_right_comm (∑ i ∈ S, z i ^ 2) s, div_right_comm (∑ i ∈ T, z i ^ 2) s, div_div_div_cancel_right₀ hs.ne']
  · exact measurable_pi_lambda _ fun o => (measurable_pi_apply _).div_const _

/-- A linear form over the root of an orthogonal quadratic form in normal errors. -/
theorem student_law (s : ℝ) (hs : 0 < s) (c : n → ℝ) (hc : c ⬝ᵥ c = 1) (B : Matrix n n ℝ) (hB : Bᵀ = B) (hBB : B * B = B)
    (hcB : B *ᵥ c = 0) (d : ℕ) (hd : trace B = d) :
    (Measure.pi fun _ : n => gaussianReal 0 s.toNNReal).map (fun e => (c ⬝ᵥ e) / Real.sqrt ((e ⬝ᵥ (B *ᵥ e)) / d)) = studentLaw d := by
  have hcc : vecMulVec c c * vecMulVec c c = vecMulVec c c := by
    rw [vecMulVec_mul_vecMulVec, hc, one_smul]
  have hcB' : vecMulVec c c * B = 0 := by
    rw [vecMulVec_mul, ← mulVec_transpose, hB, hcB]; ext; simp [vecMulVec_apply]
  have htc : trace (vecMulVec c c) = 1 := by rw [trace_vecMulVec, hc]
  obtain ⟨U, S, T, hU, hST, hA, rfl, hS, hT⟩ := two_proj (vecMulVec c c) B (by ext; simp [vecMulVec_apply, mul_comm]) hB hcc hBB hcB'
  have hS1 : S.card = 1 := by rw [htc] at hS; exact_mod_cast hS
  have hT' : T.card = d := by rw [hd] at hT; exact_mod_cast hT
  obtain ⟨i0, rfl⟩ := Finset.card_eq_one.1 hS1
  -- the first direction is `c` up to its sign
  set sg : ℝ := (Uᵀ *ᵥ c) i0 with hsg
  have hsq : ∀ v : n → ℝ, (c ⬝ᵥ v) ^ 2 = (Uᵀ *ᵥ v) i0 ^ 2 := by
    intro v
    have := quad_conj U {i0} v
    rw [← hA, Finset.sum_singleton, vecMulVec_mulVec] at this
    rw [← this]
    simp [dotProduct_smul, dotProduct_comm v c, pow_two]
  have hsg2 : sg * sg = 1 := by
    have := hsq c
    rw [hc] at this
    rw [hsg]; nlinarith
  have hlin : ∀ v : n → ℝ, c ⬝ᵥ v = sg * (Uᵀ *ᵥ v) i0 := by
    intro v
    have h1 := hsq (v + c)
    have h2 := hsq v
    rw [dotProduct_add, hc, mulVec_add, Pi.add_apply, ← hsg] at h1
    nlinarith
  have hsp := normal_spherical (n := n) s hs
  set P := Measure.pi fun _ : n => gaussianReal 0 s.toNNReal with hP
  let D : n → ℝ := fun i => if i = i0 then sg else 1
  have hDD : ∀ i, D i * D i = 1 := by intro i; simp only [D]; split_ifs <;> simp [hsg2]
  let O : Matrix n n ℝ := diagonal D * Uᵀ
  have hO : Oᵀ * O = 1 := by
    simp only [O]
    rw [transpose_mul, transpose_transpose, diagonal_transpose, Matrix.mul_assoc, ← Matrix.mul_assoc (diagonal D), diagonal_mul_diagonal]
    rw [show (fun i => D i * D i) = fun _ => 1 from funext hDD, diagonal_one, Matrix.one_mul]
    exact mul_eq_one_comm.1 hU
  let G : (n → ℝ) → ℝ := fun z => z i0 / Real.sqrt ((∑ i ∈ T, z i ^ 2) / d)
  have hG : Measurable G := by fun_prop
  have hOm : Measurable fun e : n → ℝ => O *ᵥ e := by
    refine measurable_pi_lambda _ fun i => ?_
    simp only [mulVec, dotProduct]; fun_prop
  have hi0 : i0 ∉ T := Finset.disjoint_singleton_left.1 hST
  have e1 : (fun e : n → ℝ => (c ⬝ᵥ e) / Real.sqrt ((e ⬝ᵥ ((U * diagonal (fun i => if i ∈ T then 1 else 0) * Uᵀ) *ᵥ e)) / d)) =
      G ∘ fun e => O *ᵥ e := by
    funext e
    rw [quad_conj, hlin]
    simp only [Function.comp, G, O]
    rw [← mulVec_mulVec]
    simp only [mulVec_diagonal, D, if_true]
    congr 3
    refine Finset.sum_congr rfl fun i hi => ?_
    have : i ≠ i0 := fun h => hi0 (by rw [← h]; exact hi)
    rw [if_neg this, one_mul]
  have hr := hsp.rot O hO
  rw [e1, ← Measure.map_map hG hOm, hr, Measure.map_id']
  let f : Option (Fin d) → n := fun o => o.elim i0 fun i => (T.equivFinOfCardEq hT').symm i
  have hf : Function.Injective f := by
    intro a b h
    cases a with
    | none =>
      cases b with
      | none => rfl
      | some j => exact absurd (by have h' : i0 = _ := h; rw [h']; exact ((T.equivFinOfCardEq hT').symm j).2 : i0 ∈ T) hi0
    | some i =>
      cases b with
      | none => exact absurd (by have h' : _ = i0 := h; rw [← h']; exact ((T.equivFinOfCardEq hT').symm i).2 : i0 ∈ T) hi0
      | some j => exact congrArg some ((Equiv.injective _) (Subtype.val_injective h))
  unfold studentLaw
  rw [← coords_law s hs f hf, Measure.map_map (student_meas d)]
  · congr 1
    funext z
    simp only [Function.comp, f, Option.elim, div_pow, Real.sq_sqrt hs.le]
    rw [← Finset.sum_div, sum_fin T d hT' fun i => z i ^ 2]
    simp only [G]
    rw [div_right_comm _ s, Real.sqrt_div' _ hs.le, div_div_div_cancel_right₀ (Real.sqrt_pos.2 hs).ne']
  · exact measurable_pi_lambda _ fun o => (measurable_pi_apply _).div_const _

theorem utu_ann (x : Matrix n k ℝ) (hu : IsUnit (xᵀ * x).det) (e : n → ℝ) :
    utu ((1 - x * (xᵀ * x)⁻¹ * xᵀ) *ᵥ e) = e ⬝ᵥ ((1 - x * (xᵀ * x)⁻¹ * xᵀ) *ᵥ e) := by
  rw [utu_eq_dot, dotProduct_mulVec, ← mulVec_transpose, mulVec_mulVec, (annihilator x hu).1, dotProduct_comm]

theorem ann_symm (x : Matrix n k ℝ) : (1 - x * (xᵀ * x)⁻¹ * xᵀ)ᵀ = 1 - x * (xᵀ * x)⁻¹ * xᵀ := by
  simp only [transpose_sub, transpose_one, transpose_mul, transpose_transpose, transpose_nonsing_inv, Matrix.mul_assoc]

theorem ann_idem (x : Matrix n k ℝ) (hu : IsUnit (xᵀ * x).det) :
    (1 - x * (xᵀ * x)⁻¹ * xᵀ) * (1 - x * (xᵀ * x)⁻¹ * xᵀ) = 1 - x * (xᵀ * x)⁻¹ * xᵀ := by
  have := (annihilator x hu).1
  simp only [ann_symm] at this
  exact this

theorem ann_x (x : Matrix n k ℝ) (hu : IsUnit (xᵀ * x).det) : (1 - x * (xᵀ * x)⁻¹ * xᵀ) * x = 0 := by
  rw [Matrix.sub_mul, Matrix.one_mul, Matrix.mul_assoc, Matrix.mul_assoc, nonsing_inv_mul _ hu, Matrix.mul_one, sub_self]

/-- `C174`, t statistics. With independent normal errors of equal variance, an estimate minus the true value over its reported standard
error (with `n - k`) has Student's distribution with `n - k` degrees of freedom. -/
theorem C174_t (s : ℝ) (hs : 0 < s) (x : Matrix n k ℝ) (hk : Fintype.card k < Fintype.card n) (beta : k → ℝ) (f : (n → ℝ) → OLSFit n k)
    (hf : ∀ e, ols x (x *ᵥ beta + e) = some (f e)) (j : k) :
    (Measure.pi fun _ : n => gaussianReal 0 s.toNNReal).map (fun e => ((f e).betas j - beta j) /
      Diag.seBetas (vmClassic (sig2nk (f e).u (Fintype.card k)) (f e).xtxi) j) = studentLaw (Fintype.card n - Fintype.card k) := by
  have hu : IsUnit (xᵀ * x).det := (ols_eq_some (hf 0)).1
  have hl := fun e => ols_linear x beta e (f e) (hf e)
  set G := (xᵀ * x)⁻¹ * xᵀ with hG
  set M := 1 - x * (xᵀ * x)⁻¹ * xᵀ with hM
  have hGG : G * Gᵀ = (xᵀ * x)⁻¹ := by
    rw [hG, transpose_mul, transpose_transpose, transpose_nonsing_inv, transpose_mul, transpose_transpose, Matrix.mul_assoc,
      ← Matrix.mul_assoc xᵀ, mul_nonsing_inv _ hu, Matrix.mul_one]
  have hGx : G * x = 1 := by rw [hG, Matrix.mul_assoc, nonsing_inv_mul _ hu]
  set q := (xᵀ * x)⁻¹ j j with hq
  have hqq : G j ⬝ᵥ G j = q := by rw [hq, ← hGG]; rfl
  have hq0 : 0 < q := by
    rcases lt_or_eq_of_le (show 0 ≤ q by rw [← hqq]; exact Finset.sum_nonneg fun i _ => mul_self_nonneg _) with h | h
    · exact h
    · exfalso
      have h0 : G j = 0 := dotProduct_self_eq_zero.1 (hqq.trans h.symm)
      have h1 : (G * x) j j = 1 := by rw [hGx, one_apply_eq]
      have h2 : (G * x) j j = G j ⬝ᵥ (fun i => x i j) := rfl
      rw [h2, h0, zero_dotProduct] at h1
      exact zero_ne_one h1
  set c : n → ℝ := (Real.sqrt q)⁻¹ • G j with hc
  have hsq : 0 < Real.sqrt q := Real.sqrt_pos.2 hq0
  have hcc : c ⬝ᵥ c = 1 := by
    rw [hc, smul_dotProduct, dotProduct_smul, hqq, smul_eq_mul, smul_eq_mul]
    have := Real.mul_self_sqrt hq0.le
    field_simp
    rw [pow_two, this]
  have hMc : M *ᵥ c = 0 := by
    rw [hc, mulVec_smul]
    have h1 : M * Gᵀ = 0 := by
      rw [hG, transpose_mul, transpose_transpose, ← Matrix.mul_assoc, ann_x x hu, Matrix.zero_mul]
    have h2 : M *ᵥ G j = fun i => (M * Gᵀ) i j := rfl
    rw [h2, h1]
    ext; simp
  have htr : trace M = ((Fintype.card n - Fintype.card k : ℕ) : ℝ) := by
    rw [(annihilator x hu).2, Nat.cast_sub hk.le]
  rw [← student_law s hs c hcc M (ann_symm x) (ann_idem x hu) hMc _ htr]
  congr 1
  funext e
  obtain ⟨h1, h2, h3⟩ := hl e
  have e1 : (f e).betas j - beta j = Real.sqrt q * (c ⬝ᵥ e) := by
    rw [h2, Pi.add_apply, add_sub_cancel_left, hc, smul_dotProduct, smul_eq_mul, ← mul_assoc, mul_inv_cancel₀ hsq.ne', one_mul]
    rfl
  have e2 : Diag.seBetas (vmClassic (sig2nk (f e).u (Fintype.card k)) (f e).xtxi) j =
      Real.sqrt q * Real.sqrt ((e ⬝ᵥ (M *ᵥ e)) / ((Fintype.card n - Fintype.card k : ℕ) : ℝ)) := by
    unfold Diag.seBetas vmClassic sig2nk
    rw [h1, h3, utu_ann x hu, Nat.cast_sub hk.le, ← Real.sqrt_mul hq0.le, Matrix.smul_apply, smul_eq_mul, mul_comm]
  rw [e1, e2, mul_div_mul_left _ _ hsq.ne']

/-- The residual projections of nested regressions. -/
theorem nested {l : Type} [Fintype l] [DecidableEq l] (x : Matrix n k ℝ) (hu : IsUnit (xᵀ * x).det) (x0 : Matrix n l ℝ)
    (hu0 : IsUnit (x0ᵀ * x0).det) (D : Matrix k l ℝ) (hD : x0 = x * D) :
    let M := 1 - x * (xᵀ * x)⁻¹ * xᵀ
    let M0 := 1 - x0 * (x0ᵀ * x0)⁻¹ * x0ᵀ
    (M0 - M)ᵀ = M0 - M ∧ (M0 - M) * (M0 - M) = M0 - M ∧ (M0 - M) * M = 0 ∧ trace (M0 - M) = (Fintype.card k : ℝ) - Fintype.card l := by
  intro M M0
  have hM : M * M = M := ann_idem x hu
  have hM0 : M0 * M0 = M0 := ann_idem x0 hu0
  have h1 : M0 * M = M := by
    have e : x0ᵀ * M = 0 := by
      have := congrArg transpose (ann_x x hu)
      rw [transpose_mul, ann_symm, transpose_zero] at this
      rw [hD, transpose_mul, Matrix.mul_assoc, this, Matrix.mul_zero]
    simp only [M0]
    rw [Matrix.sub_mul, Matrix.one_mul, Matrix.mul_assoc, e, Matrix.mul_zero, sub_zero]
  have sM : Mᵀ = M := ann_symm x
  have sM0 : M0ᵀ = M0 := ann_symm x0
  have h2 : M * M0 = M := by
    have := congrArg transpose h1
    rwa [transpose_mul, sM, sM0] at this
  refine ⟨by rw [transpose_sub, ann_symm, ann_symm], ?_, ?_, ?_⟩
  · rw [Matrix.sub_mul M0 M (M0 - M), Matrix.mul_sub M0 M0 M, Matrix.mul_sub M M0 M, hM, hM0, h1, h2]; abel
  · rw [Matrix.sub_mul M0 M M, h1, hM, sub_self]
  · rw [trace_sub, (annihilator x hu).2, (annihilator x0 hu0).2]; ring

/-- `C174`, the overall F statistic. If the mean of the data is constant and the regressors contain a constant, `f_stat` has Fisher's
distribution, with the degrees of freedom that it uses for its p-value. -/
theorem C174_f {K : ℕ} (s : ℝ) (hs : 0 < s) (x : Matrix n (Fin K) ℝ) (hK : 1 < K) (hk : K < Fintype.card n) (hc : Diag.SpansConst x) (m : ℝ)
    (r : (n → ℝ) → Reg n (Fin K)) (hr : ∀ e, reg x ((fun _ => m) + e) = some (r e)) :
    ∃ (F : (n → ℝ) → ℝ) (d1 d2 : ℕ), (∀ e, Diag.fTest (r e) 0 = some (F e, (d1 : ℤ), (d2 : ℤ))) ∧ d1 = K - 1 ∧ d2 = Fintype.card n - K ∧
      (Measure.pi fun _ : n => gaussianReal 0 s.toNNReal).map F = fisherLaw d1 d2 := by
  refine ⟨fun e => Diag.fStat (r e), K - 1, Fintype.card n - K, fun e => ?_, rfl, rfl, ?_⟩
  · simp only [Diag.fTest, if_true]
    rw [Nat.cast_sub hk.le, Nat.cast_sub (by omega), Nat.cast_one]
  obtain ⟨w, hw⟩ := hc
  have hfit := fun e => (Diag.reg_eq_some (hr e)).2.2
  have hu : IsUnit (xᵀ * x).det := (ols_eq_some (hfit 0)).1
  set x0 : Matrix n Unit ℝ := Matrix.of fun _ _ => 1 with hx0
  have hn0 : (0 : ℝ) < Fintype.card n := by exact_mod_cast (by omega : 0 < Fintype.card n)
  have hx00 : x0ᵀ * x0 = diagonal fun _ => (Fintype.card n : ℝ) := by
    ext i j; simp [hx0, mul_apply]
  have hu0 : IsUnit (x0ᵀ * x0).det := by
    rw [hx00, det_diagonal]; simp [hn0.ne']
  have hD : x0 = x * (Matrix.of fun j _ => w j) := by
    ext i j; rw [hx0, of_apply, ← hw i]; rfl
  obtain ⟨a1, a2, a3, a4⟩ := nested x hu x0 hu0 _ hD
  set M := 1 - x * (xᵀ * x)⁻¹ * xᵀ with hM
  set M0 := 1 - x0 * (x0ᵀ * x0)⁻¹ * x0ᵀ with hM0
  have hM0e : ∀ (e : n → ℝ) i, (M0 *ᵥ e) i = e i - (∑ j, e j) / Fintype.card n := by
    intro e i
    have hi : (x0ᵀ * x0)⁻¹ = diagonal fun _ => (Fintype.card n : ℝ)⁻¹ := by
      apply Matrix.inv_eq_right_inv
      rw [hx00, diagonal_mul_diagonal, ← diagonal_one]
      congr 1; funext _; exact mul_inv_cancel₀ hn0.ne'
    rw [hM0, sub_mulVec, one_mulVec, Pi.sub_apply, hi]
    congr 1
    simp [mulVec, dotProduct, mul_apply, hx0, Finset.mul_sum, div_eq_inv_mul]
  have htr1 : trace (M0 - M) = ((K - 1 : ℕ) : ℝ) := by
    rw [a4, Nat.cast_sub (by omega)]; simp
  have htr2 : trace M = ((Fintype.card n - K : ℕ) : ℝ) := by
    rw [hM, (annihilator x hu).2, Nat.cast_sub hk.le]; simp
  rw [← ratio_law s hs (M0 - M) M a1 (ann_symm x) a2 (ann_idem x hu) a3 _ _ htr1 htr2]
  congr 1
  funext e
  obtain ⟨hrx, hry, hrf⟩ := Diag.reg_eq_some (hr e)
  have hm : (fun _ : n => m) = x *ᵥ (m • w) := by
    funext i; rw [mulVec_smul, Pi.smul_apply, hw i, smul_eq_mul, mul_one]
  rw [hm] at hrf hry
  obtain ⟨-, -, h3⟩ := ols_linear x (m • w) e (r e).fit hrf
  have hp : ∀ i, (r e).fit.predy i - Diag.meanY (r e).y = ((M0 - M) *ᵥ e) i := by
    intro i
    have hd : (r e).fit.predy i = (x *ᵥ (m • w) + e) i - (r e).fit.u i := by
      obtain ⟨-, hh⟩ := ols_eq_some hrf
      rw [hh]; simp [olsWith]
    rw [hd, h3, ← hM, hry, sub_mulVec M0 M, Pi.sub_apply, hM0e, ← hm]
    simp only [Diag.meanY, Pi.add_apply, Finset.sum_add_distrib, Finset.sum_const, Finset.card_univ, nsmul_eq_mul, add_div]
    rw [mul_div_cancel_left₀ _ hn0.ne']
    ring
  unfold Diag.fStat
  simp only [hp, h3, utu_ann x hu]
  have hq : ∑ i, ((M0 - M) *ᵥ e) i ^ 2 = e ⬝ᵥ ((M0 - M) *ᵥ e) := by
    have : ∑ i, ((M0 - M) *ᵥ e) i ^ 2 = ((M0 - M) *ᵥ e) ⬝ᵥ ((M0 - M) *ᵥ e) := by simp [dotProduct, pow_two]
    rw [this, dotProduct_mulVec, ← mulVec_transpose, a1, mulVec_mulVec, a2, dotProduct_comm]
  rw [hq, Fintype.card_fin, Nat.cast_sub (by omega), Nat.cast_sub hk.le, Nat.cast_one]

/-- `C174`, F test of the last `df` coefficients: Fisher's distribution if they are zero. -/
theorem C174_last {K : ℕ} (s : ℝ) (hs : 0 < s) (x : Matrix n (Fin K) ℝ) (hk : K < Fintype.card n) (df : ℕ) (hdf : 0 < df) (hdK : df ≤ K)
    (beta : Fin K → ℝ) (hb : ∀ j : Fin K, K - df ≤ j.1 → beta j = 0)
    (r : (n → ℝ) → Reg n (Fin K)) (hr : ∀ e, reg x (x *ᵥ beta + e) = some (r e)) :
    ∃ (F : (n → ℝ) → ℝ) (d2 : ℕ), (∀ e, Diag.fTest (r e) df = some (F e, (df : ℤ), (d2 : ℤ))) ∧ d2 = Fintype.card n - K ∧
      (Measure.pi fun _ : n => gaussianReal 0 s.toNNReal).map F = fisherLaw df d2 := by
  have hfit := fun e => (Diag.reg_eq_some (hr e)).2.2
  have hu : IsUnit (xᵀ * x).det := (ols_eq_some (hfit 0)).1
  set x0 := Diag.dropLast x df with hx0
  have hu0 : IsUnit (x0ᵀ * x0).det :=
    Diag.sub_isUnit (e := Fin.castLE (Nat.sub_le K df)) (fun _ _ => rfl) (Fin.castLE_injective _) hu
  have hD : x0 = x * (Matrix.of fun (j : Fin K) (l : Fin (K - df)) => if j = Fin.castLE (Nat.sub_le K df) l then (1 : ℝ) else 0) := by
    ext i l
    simp [hx0, Diag.dropLast, mul_apply]
  have hx0b : x *ᵥ beta = x0 *ᵥ fun l => beta (Fin.castLE (Nat.sub_le K df) l) := by
    have : beta = (Matrix.of fun (j : Fin K) (l : Fin (K - df)) => if j = Fin.castLE (Nat.sub_le K df) l then (1 : ℝ) else 0) *ᵥ
        fun l => beta (Fin.castLE (Nat.sub_le K df) l) := by
      funext j
      simp only [mulVec, dotProduct, of_apply, ite_mul, one_mul, zero_mul]
      by_cases h : j.1 < K - df
      · rw [Finset.sum_eq_single ⟨j.1, h⟩]
        · simp
        · intro b _ hne
          rw [if_neg]
          intro he; apply hne; ext; simp [he]
        · simp
      · rw [hb j (by omega), Finset.sum_eq_zero]
        intro l _
        rw [if_neg]
        intro he; apply h; rw [he]; exact l.2
    conv_lhs => rw [this, mulVec_mulVec, ← hD]
  obtain ⟨a1, a2, a3, a4⟩ := nested x hu x0 hu0 _ hD
  set M := 1 - x * (xᵀ * x)⁻¹ * xᵀ with hM
  set M0 := 1 - x0 * (x0ᵀ * x0)⁻¹ * x0ᵀ with hM0
  have htr1 : trace (M0 - M) = (df : ℝ) := by
    rw [a4]
    simp only [Fintype.card_fin]
    rw [Nat.cast_sub hdK]; ring
  have htr2 : trace M = ((Fintype.card n - K : ℕ) : ℝ) := by
    rw [hM, (annihilator x hu).2, Nat.cast_sub hk.le]; simp
  refine ⟨fun e => ((e ⬝ᵥ ((M0 - M) *ᵥ e)) / df) / ((e ⬝ᵥ (M *ᵥ e)) / ((Fintype.card n - K : ℕ) : ℝ)), Fintype.card n - K, fun e => ?_, rfl,
    ratio_law s hs (M0 - M) M a1 (ann_symm x) a2 (ann_idem x hu) a3 _ _ htr1 htr2⟩
  obtain ⟨hrx, hry, hrf⟩ := Diag.reg_eq_some (hr e)
  obtain ⟨-, -, h3⟩ := ols_linear x beta e (r e).fit hrf
  have h0 := ols_of_isUnit x0 (x0 *ᵥ (fun l => beta (Fin.castLE (Nat.sub_le K df) l)) + e) hu0
  obtain ⟨-, -, h4⟩ := ols_linear x0 _ e _ h0
  unfold Diag.fTest Diag.fStatLast
  rw [if_neg hdf.ne', hrx, hry, hx0b, ← hx0, h0]
  simp only [Option.map_some]
  rw [h3, h4, utu_ann x hu, utu_ann x0 hu0, ← hM, ← hM0, sub_mulVec M0 M, dotProduct_sub, Nat.cast_sub hk.le, Nat.cast_sub hk.le]

end Spreg.Exact
