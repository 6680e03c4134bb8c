import Verif.Props.Diagnostics
import Mathlib.Data.List.Sort
import Mathlib.Data.List.Dedup
import Mathlib.Data.List.GetD
/-
Properties C74 (heteroskedasticity tests), C75 (user supplied regressors of these tests), C76 (Jarque-Bera),
C78 (Durbin-Wu-Hausman), C79 (pseudo R-squared).
-/
namespace Spreg.Diag
open Matrix Spreg.Lin Spreg.LM

variable {n k l : Type} [Fintype n] [Fintype k] [Fintype l]

/-! ### Removal of duplicate columns -/

open Classical in
/-- Specification: the list without the entries that occur earlier; first occurrences in their order. -/
noncomputable def firstOcc {α : Type} : List α → List α
  | [] => []
  | a :: t => a :: (firstOcc t).filter fun b => decide (b ≠ a)

theorem sameCol_iff (a b : n → ℝ) : sameCol a b ↔ a = b := by
  unfold sameCol
  rw [Finset.sum_eq_zero_iff_of_nonneg (fun _ _ => abs_nonneg _)]
  constructor
  · intro h; ext i
    have := abs_eq_zero.mp (h i (Finset.mem_univ _)); linarith
  · rintro rfl i _; simp

/-- keep the entries of `z` whose position is not in `om` -/
def keepIdx {α : Type} (z : List α) (om : ℕ → Bool) : List α :=
  (z.zipIdx.filter fun p => !om p.2).map Prod.fst

theorem keepIdx_append {α : Type} (z w : List α) (om : ℕ → Bool) :
    keepIdx (z ++ w) om = keepIdx z om ++ keepIdx w (fun i => om (i + z.length)) := by
  unfold keepIdx
  rw [List.zipIdx_append, List.filter_append, List.map_append]
  congr 1
  have : (w.zipIdx (0 + z.length)) = w.zipIdx.map (fun p => (p.1, p.2 + z.length)) := by
    rw [List.zipIdx_eq_map_add]; simp [add_comm]
  rw [this, List.filter_map, List.map_map]
  rfl

theorem keepIdx_none {α : Type} (z : List α) (om : ℕ → Bool) (h : ∀ i < z.length, om i = false) :
    keepIdx z om = z := by
  unfold keepIdx
  rw [List.filter_eq_self.mpr]
  · exact List.zipIdx_map_fst 0 z
  · intro p hp
    have := List.snd_lt_add_of_mem_zipIdx hp
    simp [h p.2 (by omega)]

theorem keepIdx_congr {α : Type} (z : List α) (om om' : ℕ → Bool) (h : ∀ i < z.length, om i = om' i) :
    keepIdx z om = keepIdx z om' := by
  unfold keepIdx
  congr 1
  apply List.filter_congr
  intro p hp
  have := List.snd_lt_add_of_mem_zipIdx hp
  rw [h p.2 (by omega)]

theorem foldl_eraseIdx_append {α : Type} (ds : List ℕ) (z w : List α)
    (h : ds.Pairwise (· > ·)) (hlt : ∀ d ∈ ds, d < z.length) :
    ds.foldl List.eraseIdx (z ++ w) = ds.foldl List.eraseIdx z ++ w := by
  induction ds generalizing z with
  | nil => rfl
  | cons d t ih =>
    simp only [List.foldl_cons]
    rw [List.eraseIdx_append_of_lt_length (hlt d (by simp))]
    apply ih _ (List.pairwise_cons.mp h).2
    intro e he
    have h1 := (List.pairwise_cons.mp h).1 e he
    have h2 := hlt d (by simp)
    rw [List.length_eraseIdx]
    split <;> omega

/-- Deleting positions from the largest to the smallest keeps exactly the other positions. -/
theorem foldl_eraseIdx_desc {α : Type} (ds : List ℕ) (z : List α)
    (h : ds.Pairwise (· > ·)) (hlt : ∀ d ∈ ds, d < z.length) :
    ds.foldl List.eraseIdx z = keepIdx z (fun i => decide (i ∈ ds)) := by
  induction ds generalizing z with
  | nil => rw [keepIdx_none]; rfl; intro i _; simp
  | cons d t ih =>
    have hd := hlt d (by simp)
    have hp := List.pairwise_cons.mp h
    simp only [List.foldl_cons]
    rw [List.eraseIdx_eq_take_drop_succ]
    have hl : (z.take d).length = d := by rw [List.length_take]; omega
    rw [foldl_eraseIdx_append _ _ _ hp.2 (fun e he => by rw [hl]; exact hp.1 e he),
      ih _ hp.2 (fun e he => by rw [hl]; exact hp.1 e he)]
    have hz : z = z.take d ++ (z[d] :: z.drop (d + 1)) := by simp
    conv_rhs => rw [hz]
    rw [keepIdx_append, hl]
    have e1 : keepIdx (z.take d) (fun i => decide (i ∈ t))
        = keepIdx (z.take d) (fun i => decide (i ∈ d :: t)) := by
      apply keepIdx_congr
      intro i hi
      have : i ≠ d := by omega
      simp [this]
    have e2 : keepIdx (z[d] :: z.drop (d + 1)) (fun i => decide (i + d ∈ d :: t)) = z.drop (d + 1) := by
      have : z[d] :: z.drop (d + 1) = [z[d]] ++ z.drop (d + 1) := rfl
      rw [this, keepIdx_append]
      have a1 : keepIdx [z[d]] (fun i => decide (i + d ∈ d :: t)) = [] := by simp [keepIdx]
      rw [a1, List.nil_append]
      apply keepIdx_none
      intro i _
      simp only [decide_eq_false_iff_not, List.length_singleton]
      intro hm
      rcases List.mem_cons.mp hm with h1 | h1
      · omega
      · have := hp.1 _ h1; omega
    rw [e1, e2]

theorem mem_omitDup (z : List (n → ℝ)) (j : ℕ) :
    j ∈ omitDup z ↔ j < z.length ∧ ∃ i < j, z.getD i 0 = z.getD j 0 := by
  unfold omitDup
  simp only [List.mem_flatMap, List.mem_range, List.mem_filter, Bool.and_eq_true, decide_eq_true_eq,
    sameCol_iff]
  constructor
  · rintro ⟨i, hi, hj, hij, he⟩; exact ⟨hj, i, hij, he⟩
  · rintro ⟨hj, i, hij, he⟩; exact ⟨i, by omega, hj, hij, he⟩

/-- `firstOcc` keeps the positions that have no equal entry before them. -/
theorem firstOcc_eq_keepIdx {α : Type} (d : α) (z : List α) (om : ℕ → Bool)
    (h : ∀ j < z.length, om j = true ↔ ∃ i < j, z.getD i d = z.getD j d) :
    keepIdx z om = firstOcc z := by
  induction z using List.reverseRecOn generalizing om with
  | nil => rfl
  | append_singleton z a ih =>
    rw [keepIdx_append]
    have h1 : keepIdx z om = firstOcc z := by
      apply ih
      intro j hj
      rw [h j (by simp; omega)]
      constructor
      · rintro ⟨i, hi, he⟩
        refine ⟨i, hi, ?_⟩
        rwa [List.getD_append _ _ _ _ (by omega), List.getD_append _ _ _ _ hj] at he
      · rintro ⟨i, hi, he⟩
        refine ⟨i, hi, ?_⟩
        rwa [List.getD_append _ _ _ _ (by omega), List.getD_append _ _ _ _ hj]
    have hfa : ∀ w : List α, ∀ b, firstOcc (w ++ [b]) = firstOcc w ++ (open Classical in if b ∈ w then [] else [b]) := by
      intro w b
      induction w with
      | nil => simp [firstOcc]
      | cons c t iht =>
        simp only [List.cons_append, firstOcc, iht, List.filter_append]
        congr 2
        by_cases hb : b ∈ t
        · simp [hb]
        · by_cases hc : b = c
          · simp [hc]
          · simp [hb, hc]
    rw [h1, hfa]
    congr 1
    have h2 := h z.length (by simp)
    have h3 : (∃ i < z.length, (z ++ [a]).getD i d = (z ++ [a]).getD z.length d) ↔ a ∈ z := by
      have ha : (z ++ [a]).getD z.length d = a := by
        rw [List.getD_append_right _ _ _ _ (le_refl _)]; simp
      constructor
      · rintro ⟨i, hi, he⟩
        rw [ha, List.getD_append _ _ _ _ hi, List.getD_eq_getElem _ _ hi] at he
        exact he ▸ List.getElem_mem hi
      · intro hm
        obtain ⟨i, hi, he⟩ := List.getElem_of_mem hm
        exact ⟨i, hi, by rw [ha, List.getD_append _ _ _ _ hi, List.getD_eq_getElem _ _ hi, he]⟩
    rw [h3] at h2
    by_cases hm : a ∈ z
    · have := h2.mpr hm
      simp [keepIdx, this, hm]
    · have : om z.length = false := by
        cases ho : om z.length
        · rfl
        · exact absurd (h2.mp ho) hm
      simp [keepIdx, this, hm]

/-- C74: the repeated deletion of columns in the heteroskedasticity tests removes exactly the columns that
duplicate an earlier one: what remains are the first occurrences, in order. -/
theorem C74_duplicates (z : List (n → ℝ)) : dropDup z = firstOcc z := by
  unfold dropDup
  set s := ((omitDup z).dedup.mergeSort (fun a b => decide (a ≤ b))) with hs
  have hmem : ∀ j, j ∈ s.reverse ↔ j ∈ omitDup z := fun j => by
    rw [List.mem_reverse, hs, List.mem_mergeSort, List.mem_dedup]
  have hsorted : s.reverse.Pairwise (· > ·) := by
    rw [List.pairwise_reverse]
    have h1 : s.Pairwise (fun a b => decide (a ≤ b) = true) := by
      rw [hs]
      apply List.pairwise_mergeSort
      · intro a b c hab hbc; simp at *; omega
      · intro a b; simp; omega
    have h2 : s.Nodup := by
      rw [hs]
      exact (List.mergeSort_perm _ _).nodup_iff.mpr (List.nodup_dedup _)
    have h3 := h1.and (List.nodup_iff_pairwise_ne.mp h2)
    refine h3.imp ?_
    rintro a b ⟨h4, h5⟩
    simp at h4
    show a < b
    omega
  rw [foldl_eraseIdx_desc _ _ hsorted (fun d hd => ((mem_omitDup z d).mp ((hmem d).mp hd)).1)]
  apply firstOcc_eq_keepIdx 0
  intro j hj
  rw [decide_eq_true_eq, hmem, mem_omitDup]
  simp [hj]

/-- The first occurrences have no repetition and the same members. -/
theorem firstOcc_spec {α : Type} (z : List α) :
    (firstOcc z).Nodup ∧ (∀ a, a ∈ firstOcc z ↔ a ∈ z) ∧ (firstOcc z).Sublist z := by
  induction z with
  | nil => simp [firstOcc]
  | cons a t ih =>
    obtain ⟨h1, h2, h3⟩ := ih
    refine ⟨?_, ?_, ?_⟩
    · simp only [firstOcc, List.nodup_cons, List.mem_filter]
      refine ⟨by simp, h1.filter _⟩
    · intro b
      simp only [firstOcc, List.mem_cons, List.mem_filter, h2]
      by_cases hb : b = a <;> simp [hb]
    · simp only [firstOcc]
      exact (List.filter_sublist.trans h3).cons_cons a

/-! ### The quadratic form -/

/-- `g'z(z'z)^-1 z'g` is the explained (uncentred) sum of squares of a regression of `g` on `z`. -/
theorem auxQuad_ols (z : List (n → ℝ)) (g : n → ℝ) (q : ℝ) (h : auxQuad z g = some q) :
    ∃ f, ols (ofCols z) g = some f ∧ q = utu g - utu f.u ∧ q = utu f.predy := by
  unfold auxQuad at h
  rw [Option.map_eq_some_iff] at h
  obtain ⟨B, hB, hq⟩ := h
  obtain ⟨hu, hBi, -⟩ := inv?_eq_some hB
  have hf := ols_of_isUnit (ofCols z) g hu
  refine ⟨_, hf, ?_⟩
  set f := olsWith (ofCols z) g ((ofCols z)ᵀ * ofCols z)⁻¹ with hfd
  obtain ⟨hp, huu⟩ := pred_eq hf
  have h1 := resid_pred hf f.betas
  rw [← hp] at h1
  have hg : g = f.predy + f.u := by rw [huu]; abel
  have hsum : utu g = utu f.predy + utu f.u := by
    rw [utu_eq_dot, utu_eq_dot, utu_eq_dot]
    nth_rw 1 [hg]; nth_rw 1 [hg]
    rw [add_dotProduct, dotProduct_add, dotProduct_add, h1, dotProduct_comm f.u, h1]; ring
  have hqp : q = g ⬝ᵥ f.predy := by
    rw [← hq, hp]
    simp only
    have : f.betas = B *ᵥ ((ofCols z)ᵀ *ᵥ g) := by rw [hBi]; rfl
    rw [← this, dotProduct_comm ((ofCols z)ᵀ *ᵥ g), dotProduct_mulVec, ← mulVec_transpose,
      transpose_transpose, dotProduct_comm]
  have hqq : q = utu f.predy := by
    rw [hqp, utu_eq_dot]
    nth_rw 1 [hg]
    rw [add_dotProduct, dotProduct_comm f.u, h1, add_zero]
  exact ⟨by linarith, hqq⟩

theorem auxQuad_range (z : List (n → ℝ)) (g : n → ℝ) (q : ℝ) (h : auxQuad z g = some q) :
    0 ≤ q ∧ q ≤ utu g := by
  obtain ⟨f, -, h1, h2⟩ := auxQuad_ols z g q h
  exact ⟨by rw [h2]; exact utu_nonneg _, by have := utu_nonneg f.u; linarith⟩

theorem auxQuad_smul (z : List (n → ℝ)) (g : n → ℝ) (c q : ℝ) (h : auxQuad z g = some q) :
    auxQuad z (c • g) = some (c ^ 2 * q) := by
  unfold auxQuad at h ⊢
  rw [Option.map_eq_some_iff] at h ⊢
  obtain ⟨B, hB, hq⟩ := h
  refine ⟨B, hB, ?_⟩
  simp only
  rw [← hq, mulVec_smul, mulVec_smul, smul_dotProduct, dotProduct_smul, smul_eq_mul, smul_eq_mul]
  ring

/-- The regressors of the test that are used when none are supplied: squares of the columns of `x`, without
duplicates. -/
noncomputable def testDesign (x : List (n → ℝ)) : List (n → ℝ) :=
  firstOcc (x.map fun c i => c i * c i)

theorem bp_eq (x : List (n → ℝ)) (u : n → ℝ) :
    breuschPagan x u .none =
      match auxQuad (testDesign x) (fun i => u i ^ 2 / sig2n u - 1) with
      | some q => .ok (0.5 * q, (testDesign x).length - 1)
      | none => .error .linAlgError := by
  unfold breuschPagan chooseZ
  simp only [bind, Except.bind]
  rw [C74_duplicates]
  rfl

theorem kb_eq (x : List (n → ℝ)) (u : n → ℝ) :
    koenkerBassett x u .none =
      match auxQuad (testDesign x) (fun i => u i ^ 2 - sig2n u) with
      | some q => .ok ((1 / ((1 / (Fintype.card n : ℝ)) * ∑ i, (u i ^ 2 - sig2n u) ^ 2)) * q,
          (testDesign x).length - 1)
      | none => .error .linAlgError := by
  unfold koenkerBassett chooseZ
  simp only [bind, Except.bind]
  rw [C74_duplicates]
  rfl

/-- C74: Breusch-Pagan reports half the explained sum of squares of a regression of `u^2 / sigma^2 - 1` on
the distinct squared regressors; it is not negative, and its degrees of freedom are one less than their
number. -/
theorem C74_breusch_pagan (x : List (n → ℝ)) (u : n → ℝ) (bp : ℝ) (df : ℤ)
    (h : breuschPagan x u .none = .ok (bp, df)) :
    0 ≤ bp ∧ df = (testDesign x).length - 1 ∧
    ∃ f, ols (ofCols (testDesign x)) (fun i => u i ^ 2 / ((∑ j, u j ^ 2) / Fintype.card n) - 1) = some f ∧
      bp = 1 / 2 * ∑ i, f.predy i ^ 2 := by
  rw [bp_eq] at h
  split at h
  · next q hq =>
    obtain ⟨f, hf, -, h2⟩ := auxQuad_ols _ _ _ hq
    simp only [Except.ok.injEq, Prod.mk.injEq] at h
    obtain ⟨h3, h4⟩ := h
    refine ⟨?_, h4.symm, f, hf, ?_⟩
    · rw [← h3]; have := (auxQuad_range _ _ _ hq).1; norm_num; linarith
    · rw [← h3, h2]; norm_num [utu]
  · cases h

/-- C74: Koenker-Bassett lies between 0 and the number of observations whenever squared residuals vary. -/
theorem C74_koenker_bassett (x : List (n → ℝ)) (u : n → ℝ) (kb : ℝ) (df : ℤ)
    (h : koenkerBassett x u .none = .ok (kb, df)) (hv : NotConst fun i => u i ^ 2) :
    0 ≤ kb ∧ kb ≤ Fintype.card n ∧ df = (testDesign x).length - 1 := by
  rw [kb_eq] at h
  split at h
  · next q hq =>
    simp only [Except.ok.injEq, Prod.mk.injEq] at h
    obtain ⟨h3, h4⟩ := h
    obtain ⟨h0, h1⟩ := auxQuad_range _ _ _ hq
    have hs : utu (fun i => u i ^ 2 - sig2n u) = ssTot fun i => u i ^ 2 := rfl
    have hpos := ssTot_pos hv
    have hN : (0 : ℝ) < Fintype.card n := by
      have := card_ne hv
      have h5 : (0 : ℝ) ≤ Fintype.card n := Nat.cast_nonneg _
      exact lt_of_le_of_ne h5 (Ne.symm this)
    rw [hs] at h1
    change 1 / ((1 / (Fintype.card n : ℝ)) * ssTot fun i => u i ^ 2) * q = kb at h3
    have e : kb = Fintype.card n * (q / ssTot fun i => u i ^ 2) := by rw [← h3]; field_simp
    refine ⟨?_, ?_, h4.symm⟩
    · rw [e]; exact mul_nonneg hN.le (div_nonneg h0 hpos.le)
    · rw [e]
      have : q / (ssTot fun i => u i ^ 2) ≤ 1 := by rw [div_le_one hpos]; exact h1
      nlinarith
  · cases h

theorem testDesign_spans (x : List (n → ℝ)) (h : (fun _ => 1) ∈ x) :
    SpansConst (ofCols (testDesign x)) := by
  have hm : (fun _ => 1) ∈ testDesign x := by
    unfold testDesign
    rw [(firstOcc_spec _).2.1, List.mem_map]
    exact ⟨_, h, by ext i; norm_num⟩
  obtain ⟨j, hj⟩ := List.get_of_mem hm
  exact spansConst_of_col _ j fun i => by
    change (testDesign x).get j i = 1
    rw [hj]

/-- C74: when the design contains the constant, Koenker-Bassett is `n` times the R-squared of a
regression of the squared residuals on them. -/
theorem C74_koenker_r2 (x : List (n → ℝ)) (u : n → ℝ) (kb : ℝ) (df : ℤ)
    (h : koenkerBassett x u .none = .ok (kb, df)) (hv : NotConst fun i => u i ^ 2)
    (hone : (fun _ => 1) ∈ x) :
    ∃ r, reg (ofCols (testDesign x)) (fun i => u i ^ 2) = some r ∧ kb = Fintype.card n * r2 r := by
  rw [kb_eq] at h
  split at h
  · next q hq =>
    simp only [Except.ok.injEq, Prod.mk.injEq] at h
    obtain ⟨h3, h4⟩ := h
    obtain ⟨f, hf, h1, h2⟩ := auxQuad_ols _ _ _ hq
    obtain ⟨v, hv1⟩ := testDesign_spans x hone
    obtain ⟨g, hg, -, hgu⟩ := C08_affine _ _ 1 (sig2n u • v) f hf
    have e : ((1 : ℝ) • (fun i => u i ^ 2 - sig2n u) + ofCols (testDesign x) *ᵥ (sig2n u • v))
        = fun i => u i ^ 2 := by
      ext i; rw [mulVec_smul]; simp [hv1 i]
    rw [e] at hg
    rw [one_smul] at hgu
    refine ⟨{ x := ofCols (testDesign x), y := fun i => u i ^ 2, fit := g }, by unfold reg; rw [hg]; rfl, ?_⟩
    have hs : utu (fun i => u i ^ 2 - sig2n u) = ssTot fun i => u i ^ 2 := rfl
    have hpos := (ssTot_pos hv).ne'
    have hN := card_ne hv
    unfold r2
    simp only
    rw [hgu]
    change 1 / ((1 / (Fintype.card n : ℝ)) * ssTot fun i => u i ^ 2) * q = kb at h3
    rw [← h3, h1, hs]
    field_simp
  · cases h

/-- C74: both tests are unit free: multiplying all residuals by `c ≠ 0` changes neither. -/
theorem C74_units (x : List (n → ℝ)) (u : n → ℝ) (c : ℝ) (hc : c ≠ 0) :
    breuschPagan x (fun i => c * u i) .none = breuschPagan x u .none ∧
    (∀ kb df, koenkerBassett x u .none = .ok (kb, df) →
      koenkerBassett x (fun i => c * u i) .none = .ok (kb, df)) := by
  have hs : sig2n (fun i => c * u i) = c ^ 2 * sig2n u := by
    unfold sig2n utu
    rw [mul_div_assoc', Finset.mul_sum]
    congr 1
    exact Finset.sum_congr rfl fun i _ => by ring
  have hc2 : c ^ 2 ≠ 0 := pow_ne_zero 2 hc
  constructor
  · rw [bp_eq, bp_eq]
    have : (fun i => (c * u i) ^ 2 / sig2n (fun i => c * u i) - 1) = fun i => u i ^ 2 / sig2n u - 1 := by
      ext i; rw [hs, mul_pow, mul_div_mul_left _ _ hc2]
    rw [this]
  · intro kb df h
    rw [kb_eq] at h ⊢
    have e : (fun i => (c * u i) ^ 2 - sig2n (fun i => c * u i)) = c ^ 2 • fun i => u i ^ 2 - sig2n u := by
      ext i; rw [hs]; simp only [Pi.smul_apply, smul_eq_mul]; ring
    rw [e]
    split at h
    · next q hq =>
      rw [auxQuad_smul _ _ (c ^ 2) _ hq]
      simp only [Except.ok.injEq, Prod.mk.injEq] at h ⊢
      refine ⟨?_, h.2⟩
      rw [← h.1]
      have e2 : ∑ i, ((c * u i) ^ 2 - sig2n fun i => c * u i) ^ 2 = (c ^ 2) ^ 2 * ∑ i, (u i ^ 2 - sig2n u) ^ 2 := by
        rw [Finset.mul_sum]
        exact Finset.sum_congr rfl fun i _ => by rw [hs]; ring
      rw [e2]
      rw [show (1 / (Fintype.card n : ℝ)) * ((c ^ 2) ^ 2 * ∑ i, (u i ^ 2 - sig2n u) ^ 2)
        = (c ^ 2) ^ 2 * ((1 / (Fintype.card n : ℝ)) * ∑ i, (u i ^ 2 - sig2n u) ^ 2) by ring]
      rw [one_div, mul_inv, one_div]
      field_simp
    · cases h

/-! ### White -/

open Classical in
/-- The columns of the White regression: a constant, then every regressor, square and cross product that
varies, without duplicates. -/
noncomputable def whiteSpec (x : List (n → ℝ)) : List (n → ℝ) :=
  (fun _ => 1) :: (firstOcc (x ++ crossProducts x)).filter fun c => decide (NotConst c)

theorem keepIdx_cons {α : Type} (a : α) (z : List α) (om : ℕ → Bool) :
    keepIdx (a :: z) om = (if om 0 then [] else [a]) ++ keepIdx z (fun i => om (i + 1)) := by
  have := keepIdx_append [a] z om
  rw [List.singleton_append] at this
  rw [this]
  congr 1
  cases h : om 0 <;> simp [keepIdx, h]

open Classical in
theorem keepIdx_or {α : Type} (d : α) (z : List α) (om om' : ℕ → Bool) (P : α → Prop)
    (h : ∀ j < z.length, om' j = true ↔ om j = true ∨ P (z.getD j d)) :
    keepIdx z om' = (keepIdx z om).filter fun c => decide (¬ P c) := by
  induction z generalizing om om' with
  | nil => rfl
  | cons a t ih =>
    rw [keepIdx_cons, keepIdx_cons, List.filter_append]
    have h0 := h 0 (by simp)
    rw [ih (fun i => om (i + 1)) (fun i => om' (i + 1)) (fun j hj => by
      have := h (j + 1) (by simp; omega)
      simpa using this)]
    congr 1
    rw [List.getD_cons_zero] at h0
    by_cases ho : om 0 = true
    · have : om' 0 = true := h0.mpr (Or.inl ho)
      simp [ho, this]
    · by_cases hP : P a
      · have : om' 0 = true := h0.mpr (Or.inr hP)
        simp [ho, this, hP]
      · have : om' 0 = false := by
          cases hh : om' 0
          · rfl
          · rcases h0.mp hh with h1 | h1
            · exact absurd h1 ho
            · exact absurd h1 hP
        simp [ho, this, hP]

theorem mem_firstOcc {α : Type} (a : α) (z : List α) : a ∈ firstOcc z ↔ a ∈ z := by
  induction z with
  | nil => simp [firstOcc]
  | cons b t ih =>
    by_cases h : a = b
    · simp [firstOcc, h]
    · simp [firstOcc, ih, h]

theorem nodup_firstOcc {α : Type} (z : List α) : (firstOcc z).Nodup := by
  induction z with
  | nil => simp [firstOcc]
  | cons b t ih =>
    simp only [firstOcc, List.nodup_cons]
    exact ⟨by simp, ih.filter _⟩

/-- C74: a column is in the White design exactly if it is the constant or a varying regressor, square of a regressor or
product of two regressors; and no column appears twice. -/
theorem C74_white_columns (x : List (n → ℝ)) (c : n → ℝ) :
    (c ∈ whiteSpec x ↔ (c = fun _ => 1) ∨ (NotConst c ∧ (c ∈ x ∨ ∃ a ∈ x, ∃ b ∈ x, ∀ i, c i = a i * b i))) ∧
    (whiteSpec x).Nodup := by
  have key : c ∈ crossProducts x ↔ ∃ a ∈ x, ∃ b ∈ x, ∀ i, c i = a i * b i := by
    unfold crossProducts
    simp only [List.mem_flatMap, List.mem_map, List.mem_filter, List.mem_range, decide_eq_true_eq]
    constructor
    · rintro ⟨i, hi, j, ⟨hj, hij⟩, rfl⟩
      exact ⟨x.getD i 0, by rw [List.getD_eq_getElem _ _ hi]; exact List.getElem_mem _,
        x.getD j 0, by rw [List.getD_eq_getElem _ _ hj]; exact List.getElem_mem _, fun _ => rfl⟩
    · rintro ⟨a, ha, b, hb, hc⟩
      obtain ⟨i, hi, rfl⟩ := List.getElem_of_mem ha
      obtain ⟨j, hj, rfl⟩ := List.getElem_of_mem hb
      rcases le_total i j with hij | hij
      · refine ⟨i, hi, j, ⟨hj, hij⟩, ?_⟩
        funext r; rw [hc, List.getD_eq_getElem _ _ hi, List.getD_eq_getElem _ _ hj]
      · refine ⟨j, hj, i, ⟨hi, hij⟩, ?_⟩
        funext r; rw [hc, List.getD_eq_getElem _ _ hi, List.getD_eq_getElem _ _ hj, mul_comm]
  constructor
  · unfold whiteSpec
    rw [List.mem_cons, List.mem_filter, mem_firstOcc, List.mem_append, key]
    simp only [decide_eq_true_eq]
    tauto
  · unfold whiteSpec
    rw [List.nodup_cons]
    refine ⟨?_, (nodup_firstOcc _).filter _⟩
    rw [List.mem_filter]
    rintro ⟨-, h⟩
    simp [NotConst] at h

/-- C74: the design of the White test is the specified one. -/
theorem C74_white_design (x : List (n → ℝ)) : whiteDesign x = whiteSpec x := by
  unfold whiteDesign whiteSpec
  simp only
  congr 1
  set A := x ++ crossProducts x with hA
  have hk : npDelete A (omitWhite A) = keepIdx A (fun i => decide (i ∈ omitWhite A)) := by
    unfold npDelete keepIdx
    congr 1
    apply List.filter_congr
    intro p _
    by_cases h : p.2 ∈ omitWhite A <;> simp [h]
  have hmem : ∀ j, j ∈ omitWhite A ↔ j ∈ omitDup A ∨ (j < A.length ∧ isConst (A.getD j 0)) := by
    intro j
    unfold omitWhite omitDup
    simp only [List.mem_flatMap, List.mem_range, List.mem_append, List.mem_filter]
    constructor
    · rintro ⟨i, hi, h | h⟩
      · right
        split at h
        · next hc => rw [List.mem_singleton] at h; subst h; exact ⟨hi, hc⟩
        · simp at h
      · left; exact ⟨i, hi, h⟩
    · rintro (⟨i, hi, h⟩ | ⟨hj, hc⟩)
      · exact ⟨i, hi, Or.inr h⟩
      · exact ⟨j, hj, Or.inl (by rw [if_pos hc]; simp)⟩
  rw [hk, keepIdx_or (0 : n → ℝ) A (fun i => decide (i ∈ omitDup A)) _ isConst]
  · rw [firstOcc_eq_keepIdx 0 A]
    · apply List.filter_congr
      intro c _
      unfold isConst NotConst
      congr 1
      push Not
      rfl
    · intro j hj
      rw [decide_eq_true_eq, mem_omitDup]; simp [hj]
  · intro j hj
    rw [decide_eq_true_eq, decide_eq_true_eq, hmem]
    simp [hj]

theorem ofCols_cons_const (l : List (n → ℝ)) : SpansConst (ofCols ((fun _ => 1) :: l)) :=
  spansConst_of_col _ ⟨0, by simp⟩ fun _ => rfl

/-- C74: the White statistic is `n` times the R-squared of the squared residuals on the specified design; it
lies between 0 and `n` when the squared residuals vary, and its degrees of freedom are the number of columns
besides the constant. The test is skipped exactly when the condition index exceeds 30. -/
theorem C74_white (ci : ℝ) (x : List (n → ℝ)) (u : n → ℝ) (wh : ℝ) (df : ℤ)
    (h : white ci x u = some (.test wh df)) (hv : NotConst fun i => u i ^ 2) :
    ci ≤ 30 ∧ 0 ≤ wh ∧ wh ≤ Fintype.card n ∧ df = (whiteSpec x).length - 1 ∧
    ∃ r, reg (ofCols (whiteSpec x)) (fun i => u i ^ 2) = some r ∧ wh = Fintype.card n * r2 r := by
  unfold white at h
  split at h
  · simp at h
  · next hci =>
    rw [C74_white_design] at h
    simp only [Option.map_eq_some_iff] at h
    obtain ⟨f, hf, he⟩ := h
    simp only [WhiteRes.test.injEq] at he
    have hr : reg (ofCols (whiteSpec x)) (fun i => u i ^ 2)
        = some { x := ofCols (whiteSpec x), y := fun i => u i ^ 2, fit := f } := by
      unfold reg; rw [hf]; rfl
    obtain ⟨h0, h1⟩ := C42_r2_range _ _ _ hr (ofCols_cons_const _) hv
    have hN : (0 : ℝ) ≤ Fintype.card n := Nat.cast_nonneg _
    refine ⟨not_lt.mp hci, ?_, ?_, he.2.symm, _, hr, ?_⟩
    · rw [← he.1]; exact mul_nonneg h0 hN
    · rw [← he.1]; nlinarith
    · rw [← he.1]; ring

theorem C74_white_skipped (ci : ℝ) (x : List (n → ℝ)) (u : n → ℝ) :
    white ci x u = some .notComputed ↔ ci > 30 := by
  unfold white
  split
  · next h => simp [h]
  · next h =>
    simp only [h, iff_false]
    rw [Option.map_eq_some_iff]
    rintro ⟨f, -, h1⟩
    cases h1

/-! ### User supplied regressors -/

/-- C75 fails: `breusch_pagan` and `koenker_bassett` document an optional array `z`, but passing any array
with at least two entries raises `ValueError`, because it is compared with `None` by `==`. -/
theorem C75_z_violated (x z : List (n → ℝ)) (u : n → ℝ) (hz : 2 ≤ z.length * Fintype.card n) :
    breuschPagan x u (.arr z) = .error .valueError ∧ koenkerBassett x u (.arr z) = .error .valueError := by
  unfold breuschPagan koenkerBassett chooseZ
  have : z.length * Fintype.card n ≠ 1 := by omega
  simp [this, bind, Except.bind]

/-- C75 (good domain): without `z` neither test raises `ValueError`, and the only failure is a singular
auxiliary design. -/
theorem C75_default_partial (x : List (n → ℝ)) (u : n → ℝ) :
    ((∃ r, breuschPagan x u .none = .ok r) ↔
      IsUnit ((ofCols (testDesign x))ᵀ * ofCols (testDesign x)).det) ∧
    ((∃ r, koenkerBassett x u .none = .ok r) ↔
      IsUnit ((ofCols (testDesign x))ᵀ * ofCols (testDesign x)).det) := by
  have haux : ∀ g, (∃ q, auxQuad (testDesign x) g = some q) ↔
      IsUnit ((ofCols (testDesign x))ᵀ * ofCols (testDesign x)).det := by
    intro g
    unfold auxQuad
    constructor
    · rintro ⟨q, hq⟩
      rw [Option.map_eq_some_iff] at hq
      obtain ⟨B, hB, -⟩ := hq
      exact (inv?_eq_some hB).1
    · intro hu
      rw [inv?_of_isUnit hu]; exact ⟨_, rfl⟩
  constructor
  · rw [bp_eq, ← haux (fun i => u i ^ 2 / sig2n u - 1)]
    cases auxQuad (testDesign x) (fun i => u i ^ 2 / sig2n u - 1) <;> simp
  · rw [kb_eq, ← haux (fun i => u i ^ 2 - sig2n u)]
    cases auxQuad (testDesign x) (fun i => u i ^ 2 - sig2n u) <;> simp

/-! ### Jarque-Bera -/

/-- C76: the statistic is not negative. -/
theorem C76_nonneg (u : n → ℝ) : 0 ≤ jarqueBera u := by
  unfold jarqueBera
  simp only
  have hN : (0 : ℝ) ≤ Fintype.card n := Nat.cast_nonneg _
  exact mul_nonneg hN (by positivity)

/-- C76: it does not depend on the unit or the sign of the residuals. -/
theorem C76_units (u : n → ℝ) (c : ℝ) (hc : c ≠ 0) : jarqueBera (fun i => c * u i) = jarqueBera u := by
  have hm : ∀ p, moment (fun i => c * u i) p = c ^ p * moment u p := fun p => by
    unfold moment
    rw [mul_div_assoc', Finset.mul_sum]
    congr 1
    exact Finset.sum_congr rfl fun i _ => by rw [mul_pow]
  have hm2 : 0 ≤ moment u 2 := by
    unfold moment
    exact div_nonneg (Finset.sum_nonneg fun i _ => sq_nonneg _) (Nat.cast_nonneg _)
  have key : ∀ m : ℝ, 0 ≤ m → (m ^ (1.5 : ℝ)) ^ 2 = m ^ 3 := fun m hmm => by
    rw [← Real.rpow_natCast, ← Real.rpow_mul hmm]
    norm_num
  unfold jarqueBera
  simp only [hm]
  congr 2
  · congr 1
    rw [div_pow, div_pow, key _ (by positivity), key _ hm2, mul_pow]
    rw [show (c ^ 2 * moment u 2) ^ 3 = (c ^ 3) ^ 2 * moment u 2 ^ 3 by ring]
    rw [mul_div_mul_left _ _ (by positivity)]
  · congr 3
    rw [show (c ^ 2 * moment u 2) ^ 2 = c ^ 4 * moment u 2 ^ 2 by ring]
    rw [mul_div_mul_left _ _ (by positivity)]

/-- C76: it is zero exactly when the third moment vanishes and the fourth moment is three times the squared
variance, as for a normal distribution. -/
theorem C76_zero_iff (u : n → ℝ) (hu : u ≠ 0) :
    jarqueBera u = 0 ↔ ∑ i, u i ^ 3 = 0 ∧
      (∑ i, u i ^ 4) / Fintype.card n = 3 * ((∑ i, u i ^ 2) / Fintype.card n) ^ 2 := by
  have hne : Nonempty n := by
    by_contra h
    rw [not_nonempty_iff] at h
    exact hu (Subsingleton.elim _ _)
  have hN : (0 : ℝ) < Fintype.card n := by exact_mod_cast Fintype.card_pos
  have hs : 0 < utu u := lt_of_le_of_ne (utu_nonneg u) fun h => hu ((utu_eq_zero u).mp h.symm)
  have hm2 : 0 < moment u 2 := div_pos hs hN
  have h15 : 0 < moment u 2 ^ (1.5 : ℝ) := Real.rpow_pos_of_pos hm2 _
  unfold jarqueBera
  simp only
  rw [mul_eq_zero, or_iff_right hN.ne']
  constructor
  · intro h
    have a1 : 0 ≤ (moment u 3 / moment u 2 ^ (1.5 : ℝ)) ^ 2 / 6 := by positivity
    have a2 : 0 ≤ (moment u 4 / moment u 2 ^ 2 - 3) ^ 2 / 24 := by positivity
    have b1 : (moment u 3 / moment u 2 ^ (1.5 : ℝ)) ^ 2 = 0 := by linarith
    have b2 : (moment u 4 / moment u 2 ^ 2 - 3) ^ 2 = 0 := by linarith
    rw [pow_eq_zero_iff two_ne_zero] at b1 b2
    constructor
    · rcases div_eq_zero_iff.mp b1 with h1 | h1
      · rcases div_eq_zero_iff.mp h1 with h2 | h2
        · exact h2
        · exact absurd h2 hN.ne'
      · exact absurd h1 h15.ne'
    · have : moment u 4 / moment u 2 ^ 2 = 3 := by linarith
      rw [div_eq_iff (by positivity)] at this
      exact this
  · rintro ⟨h1, h2⟩
    have c1 : moment u 3 = 0 := by unfold moment; rw [h1, zero_div]
    have c2 : moment u 4 = 3 * moment u 2 ^ 2 := h2
    rw [c1, c2]
    have : 3 * moment u 2 ^ 2 / moment u 2 ^ 2 = 3 := by field_simp
    rw [this]; norm_num

/-! ### Durbin-Wu-Hausman -/

/-- C78: the test is the F test that the fitted values of the endogenous variables add nothing to the
regression of `y` on the regressors; its value is not negative and its degrees of freedom are the number of
endogenous variables and the residual degrees of freedom. -/
theorem C78_dwh {K E : ℕ} {q : Type} [Fintype q] [DecidableEq q] (h : Matrix n q ℝ)
    (z : Matrix n (Fin K) ℝ) (yend : Matrix n (Fin E) ℝ) (y : n → ℝ) (F : ℝ) (d1 d2 : ℤ)
    (hd : dwh h z yend y = some (F, d1, d2)) (hE : 0 < E) (hn : K + E < Fintype.card n) :
    0 ≤ F ∧ d1 = E ∧ d2 = (Fintype.card n : ℤ) - (K + E) ∧
    ∃ py f f0, dwhFit h yend = some py ∧ ols (hstack z py) y = some f ∧ ols z y = some f0 ∧
      F = ((utu f0.u - utu f.u) / E) / (utu f.u / ((Fintype.card n : ℝ) - (K + E))) := by
  unfold dwh at hd
  simp only [bind, Option.bind_eq_some_iff] at hd
  obtain ⟨py, hpy, r, hr, hF⟩ := hd
  obtain ⟨f0, F', hf0, hFt, hFv, hF0⟩ := C73_last _ _ r hr E hE hn
  rw [hFt] at hF
  simp only [Option.some.injEq, Prod.mk.injEq] at hF
  obtain ⟨rfl, h1, h2⟩ := hF
  refine ⟨hF0, h1.symm, by rw [← h2]; push_cast; ring, ?_⟩
  -- the first K columns of the augmented design are z
  have hdu : IsUnit (zᵀ * z).det := by
    obtain ⟨-, -, hf⟩ := reg_eq_some hr
    refine sub_isUnit (x := hstack z py) (e := Fin.castAdd E) (fun i c => ?_) (Fin.castAdd_injective _ _)
      (ols_eq_some hf).1
    simp [hstack]
  have hz := ols_of_isUnit z y hdu
  refine ⟨py, r.fit, _, hpy, (reg_eq_some hr).2.2, hz, ?_⟩
  have hut : utu f0.u = utu (olsWith z y (zᵀ * z)⁻¹).u := by
    have hK : K + E - E = K := by omega
    -- same columns, up to the index type
    let σ : Fin (K + E - E) → Fin K := Fin.cast hK
    have hval : ∀ i c, (Matrix.of fun i (j : Fin (K + E - E)) =>
        hstack z py i ⟨j.1, lt_of_lt_of_le j.2 (Nat.sub_le (K + E) E)⟩) i c = z i (σ c) := by
      intro i c
      have : (⟨c.1, lt_of_lt_of_le c.2 (Nat.sub_le (K + E) E)⟩ : Fin (K + E)) = Fin.castAdd E (σ c) := by
        ext; simp [σ]
      simp only [Matrix.of_apply, this]
      simp [hstack]
    obtain ⟨p0, u0⟩ := pred_eq hf0
    obtain ⟨p1, u1⟩ := pred_eq hz
    have hle : ∀ (a b : n → ℝ), a ⬝ᵥ b = 0 → utu a ≤ utu (a + b) := by
      intro a b hab
      rw [utu_eq_dot, utu_eq_dot, add_dotProduct, dotProduct_add, dotProduct_add, hab, dotProduct_comm b a,
        hab]
      have : 0 ≤ b ⬝ᵥ b := by rw [← utu_eq_dot]; exact utu_nonneg _
      linarith
    apply le_antisymm
    · have hinv : ∀ i c, z i c = (Matrix.of fun i (j : Fin (K + E - E)) =>
        hstack z py i ⟨j.1, lt_of_lt_of_le j.2 (Nat.sub_le (K + E) E)⟩) i (Fin.cast hK.symm c) := by
        intro i c; rw [hval]; congr 1
      have h3 := resid_pred hf0 (f0.betas - ext (Fin.cast hK.symm) (olsWith z y (zᵀ * z)⁻¹).betas)
      have := hle _ _ (by rw [dotProduct_comm]; exact h3)
      refine this.trans_eq ?_
      congr 1
      rw [mulVec_sub, mulVec_ext hinv, u0, u1, p0, p1]; abel
    · have h3 := resid_pred hz ((olsWith z y (zᵀ * z)⁻¹).betas - ext σ f0.betas)
      have := hle _ _ (by rw [dotProduct_comm]; exact h3)
      refine this.trans_eq ?_
      congr 1
      rw [mulVec_sub, mulVec_ext hval, u0, u1, p0, p1]; abel
  rw [hFv, hut]
  push_cast
  rfl

/-- C78: when an endogenous variable is an exact combination of the instruments (it is exogenous), the test
is not available: the augmented design is singular and the call raises. -/
theorem C78_exogenous_raises {K E : ℕ} {q : Type} [Fintype q] [DecidableEq q] (h : Matrix n q ℝ)
    (z : Matrix n (Fin K) ℝ) (yend : Matrix n (Fin E) ℝ) (y : n → ℝ) (c : Fin K) (e : Fin E)
    (hz : ∀ i, z i c = yend i e) (w : q → ℝ) (hw : ∀ i, yend i e = (h *ᵥ w) i) :
    dwh h z yend y = none := by
  unfold dwh
  simp only [bind]
  cases hpy : dwhFit h yend with
  | none => rfl
  | some py =>
    rw [Option.bind_some]
    have hpe : ∀ i, py i e = yend i e := by
      unfold dwhFit at hpy
      rw [Option.map_eq_some_iff] at hpy
      obtain ⟨B, hB, rfl⟩ := hpy
      obtain ⟨hu, rfl, -⟩ := inv?_eq_some hB
      intro i
      have hy : (fun r => yend r e) = h *ᵥ w := funext hw
      simp only [Matrix.of_apply, olsWith]
      rw [hy, mulVec_mulVec w hᵀ h, mulVec_mulVec w, nonsing_inv_mul _ hu, one_mulVec, hw i]
    have hr : reg (hstack z py) y = none := by
      cases hc : reg (hstack z py) y with
      | none => rfl
      | some r =>
        obtain ⟨-, -, hf⟩ := reg_eq_some hc
        have hu := (ols_eq_some hf).1
        have h0 := (xtx_isUnit_iff _).mp hu (Pi.single (Fin.castAdd E c) 1 - Pi.single (Fin.natAdd K e) 1)
          (by ext i; rw [mulVec_sub]; simp [hstack, hz i, hpe i])
        have := congrFun h0 (Fin.castAdd E c)
        have hne : Fin.castAdd E c ≠ Fin.natAdd K e := by
          intro hh; have := congrArg Fin.val hh; simp at this; omega
        simp [Pi.single_apply, hne] at this
    rw [hr]; rfl

/-! ### Pseudo R-squared -/

/-- C79: the pseudo R-squared lies in [0, 1] for every prediction. -/
theorem C79_range (y p : n → ℝ) : 0 ≤ pr2 y p ∧ pr2 y p ≤ 1 := by
  refine ⟨sq_nonneg _, ?_⟩
  unfold pr2 pearson
  rw [div_pow, mul_pow, Real.sq_sqrt (ssTot_nonneg _), Real.sq_sqrt (ssTot_nonneg _)]
  have hcs := Finset.sum_mul_sq_le_sq_mul_sq Finset.univ (fun i => y i - meanY y) (fun i => p i - meanY p)
  have h1 : 0 ≤ ssTot y * ssTot p := mul_nonneg (ssTot_nonneg _) (ssTot_nonneg _)
  exact div_le_one_of_le₀ hcs h1

/-- C79: for an OLS fit with a constant it coincides with R-squared. -/
theorem C79_ols [DecidableEq k] (x : Matrix n k ℝ) (y : n → ℝ) (r : Reg n k) (h : reg x y = some r)
    (hc : SpansConst x) (hy : NotConst y) : pr2 y r.fit.predy = r2 r := by
  obtain ⟨hx, hyy, hf⟩ := reg_eq_some h
  have ha := anova hf hc
  have hsum := resid_const hf hc
  have hres := resid_pred hf r.fit.betas
  obtain ⟨hp, hu⟩ := pred_eq hf
  rw [← hp] at hres
  have hN := card_ne hy
  have hpos := ssTot_pos hy
  have hm : meanY r.fit.predy = meanY y := by
    have : ∑ i, y i = ∑ i, r.fit.predy i := by
      have h1 : ∀ i, y i = r.fit.predy i + r.fit.u i := fun i => by rw [hu]; simp
      rw [Finset.sum_congr rfl fun i _ => h1 i, Finset.sum_add_distrib, hsum, add_zero]
    unfold meanY; rw [this]
  have hcov : ∑ i, (y i - meanY y) * (r.fit.predy i - meanY r.fit.predy) = ssTot r.fit.predy := by
    rw [hm]
    have e1 : ∀ i, (y i - meanY y) * (r.fit.predy i - meanY y)
        = (r.fit.predy i - meanY y) ^ 2 + r.fit.predy i * r.fit.u i - meanY y * r.fit.u i := fun i => by
      have : y i = r.fit.predy i + r.fit.u i := by rw [hu]; simp
      rw [this]; ring
    simp only [e1, Finset.sum_sub_distrib, Finset.sum_add_distrib, ← Finset.mul_sum]
    have h2' : ∑ i, r.fit.predy i * r.fit.u i = 0 := hres
    rw [hsum, h2', mul_zero, add_zero, sub_zero]
    unfold ssTot; rw [hm]
  have hS : ∑ i, (r.fit.predy i - meanY y) ^ 2 = ssTot r.fit.predy := by unfold ssTot; rw [hm]
  rw [hS] at ha
  unfold pr2 pearson
  rw [hcov, div_pow, mul_pow, Real.sq_sqrt (ssTot_nonneg _), Real.sq_sqrt (ssTot_nonneg _)]
  unfold r2
  rw [hyy]
  have hr : 1 - utu r.fit.u / ssTot y = ssTot r.fit.predy / ssTot y := by field_simp; linarith
  rw [hr]
  rcases eq_or_ne (ssTot r.fit.predy) 0 with h0 | h0
  · rw [h0]; simp
  · field_simp

/-! ### Concrete cases -/

/-- a constant, a trend and a copy of the constant -/
def exCols : List (Fin 4 → ℝ) := [fun _ => 1, ![0, 1, 2, 3], fun _ => 1]

theorem exDesign : testDesign exCols = [fun _ => 1, ![0, 1, 4, 9]] := by
  have h1 : (fun i => ((fun _ => 1 : Fin 4 → ℝ) i) * ((fun _ => 1 : Fin 4 → ℝ) i)) = fun _ => 1 := by
    ext i; norm_num
  have h2 : (fun i => (![0, 1, 2, 3] : Fin 4 → ℝ) i * (![0, 1, 2, 3] : Fin 4 → ℝ) i) = ![0, 1, 4, 9] := by
    ext i; fin_cases i <;> simp <;> norm_num
  have h3 : (![0, 1, 4, 9] : Fin 4 → ℝ) ≠ fun _ => 1 := fun h => by
    have := congrFun h 0; simp at this
  unfold testDesign exCols
  simp only [List.map_cons, List.map_nil, h1, h2, firstOcc]
  simp [h3]

/-- Both tests succeed on it, with one degree of freedom, for every residual vector; the White design has
the same three columns as it has distinct varying terms. -/
example (u : Fin 4 → ℝ) : (∃ r, breuschPagan exCols u .none = .ok r) ∧
    (∃ r, koenkerBassett exCols u .none = .ok r) ∧ (testDesign exCols).length - 1 = 1 := by
  have hu : IsUnit ((ofCols (testDesign exCols))ᵀ * ofCols (testDesign exCols)).det := by
    rw [exDesign]
    have : (ofCols [fun _ => 1, (![0, 1, 4, 9] : Fin 4 → ℝ)])ᵀ * ofCols [fun _ => 1, ![0, 1, 4, 9]]
        = !![4, 14; 14, 98] := by
      ext i j
      change Fin 2 at i; change Fin 2 at j
      fin_cases i <;> fin_cases j <;>
        simp [ofCols, Matrix.mul_apply, Fin.sum_univ_four] <;> norm_num
    rw [this]
    have h2 : ((!![4, 14; 14, 98] : Matrix (Fin 2) (Fin 2) ℝ)).det = 196 := by
      rw [Matrix.det_fin_two_of]; norm_num
    exact (isUnit_iff_ne_zero.mpr (by rw [show (Matrix.det (n := Fin [fun _ => 1, (![0, 1, 4, 9] : Fin 4 → ℝ)].length) !![4, 14; 14, 98]) = (196 : ℝ) from h2]; norm_num))
  exact ⟨(C75_default_partial exCols u).1.mpr hu, (C75_default_partial exCols u).2.mpr hu, by rw [exDesign]; rfl⟩

end Spreg.Diag
