import Verif.Props.Endog
import Verif.Props.OLS
/-
C156: the fitted endogenous regimes models.
-/
namespace Spreg.Endog
open Spreg Spreg.Skater Spreg.Lin Finset

variable {n : ℕ} {k : Type} [Fintype k] [DecidableEq k]

/-! ### OLS -/

/-- The score of a set of observations is the sum of squared residuals of the regression of `y` on `x` over its members,
whenever that regression exists. -/
def SSRScore (x : Matrix (Fin n) k ℝ) (y : Fin n → ℝ) (ρ : Finset (Fin n) → Option ℝ) : Prop :=
  ∀ S : Finset (Fin n), ∀ f : OLSFit {i // i ∈ S} k,
    ols (Matrix.of fun (i : {i // i ∈ S}) j => x i.1 j) (fun i => y i.1) = some f → ρ S = some (∑ i, f.u i ^ 2)

theorem ssr_region {x : Matrix (Fin n) k ℝ} {y : Fin n → ℝ} {ρ : Finset (Fin n) → Option ℝ} (h : SSRScore x y ρ)
    (g : Labels n) (r : ℕ) (f : OLSFit {i // g i = r} k)
    (hf : ols (RegimesMat.sub x g r) (RegimesMat.subv y g r) = some f) :
    ρ (univ.filter fun i => g i = r) = some (∑ i, f.u i ^ 2) := by
  obtain ⟨hu, rfl⟩ := ols_eq_some hf
  let e : {i // i ∈ univ.filter fun i => g i = r} ≃ {i // g i = r} :=
    Equiv.subtypeEquivRight fun i => by simp
  have hx : (Matrix.of fun (i : {i // i ∈ univ.filter fun i => g i = r}) j => x i.1 j)
      = (RegimesMat.sub x g r).submatrix e id := rfl
  have hy : (fun i : {i // i ∈ univ.filter fun i => g i = r} => y i.1) = RegimesMat.subv y g r ∘ e := rfl
  have hg : ((RegimesMat.sub x g r).submatrix e id).transpose * (RegimesMat.sub x g r).submatrix e id
      = (RegimesMat.sub x g r).transpose * RegimesMat.sub x g r := by
    rw [Matrix.transpose_submatrix, Matrix.submatrix_mul_equiv, Matrix.submatrix_id_id]
  have := h (univ.filter fun i => g i = r) _ (by rw [hx, hy]; exact ols_of_isUnit _ _ (by rw [hg]; exact hu))
  rw [this, hg]
  congr 1
  refine Fintype.sum_equiv e _ _ fun i => ?_
  congr 1
  have hty : ((RegimesMat.sub x g r).submatrix e id).transpose.mulVec (RegimesMat.subv y g r ∘ e)
      = (RegimesMat.sub x g r).transpose.mulVec (RegimesMat.subv y g r) := by
    rw [Matrix.transpose_submatrix, Matrix.submatrix_mulVec_equiv]
    simp [Function.comp_assoc]
  simp only [olsWith]
  rw [hty]
  rfl

theorem sum_regimes {K : ℕ} {g : Labels n} (hg : univ.image g = range K) (f : Fin n → ℝ) :
    ∑ r ∈ range K, ∑ i : {i // g i = r}, f i.1 = ∑ i, f i := by
  have h : ∀ r, ∑ i : {i // g i = r}, f i.1 = ∑ i ∈ univ.filter (fun i => g i = r), f i := fun r => by
    rw [← Finset.sum_subtype_eq_sum_filter]
    refine Finset.sum_congr ?_ fun _ _ => rfl
    ext i; simp
  simp only [h]
  rw [← hg]
  exact Finset.sum_fiberwise_of_maps_to (fun i _ => mem_image_of_mem g (mem_univ i)) f

theorem olsEndog_ok {cc : List (Edge n) → ℕ × Labels n} {ρ : Finset (Fin n) → Option ℝ} {E : List (Edge n)}
    {x : Matrix (Fin n) k ℝ} {y : Fin n → ℝ} {cols : ℕ} {nc : Option ℕ} {quorum : ℤ} {trace : Bool} {F : Fitted n k}
    (h : olsEndog cc ρ E x y cols nc quorum trace = .ok F) :
    ∃ S, search cc ρ E cols nc quorum trace = .ok S ∧ accept cols S.clusters = .ok F.clusters ∧ F.score = S.score ∧
      F.ssr = ssrOf S.trace ∧
      ∀ i, ∃ f, ols (RegimesMat.sub x F.clusters (F.clusters i)) (RegimesMat.subv y F.clusters (F.clusters i)) = some f ∧
        F.betas (F.clusters i) = f.betas ∧ ∀ j (hj : F.clusters j = F.clusters i), F.u j = f.u ⟨j, hj⟩ := by
  unfold olsEndog at h
  cases hS : search cc ρ E cols nc quorum trace with
  | error e => rw [hS] at h; cases h
  | ok S =>
    rw [hS] at h
    cases hg : accept cols S.clusters with
    | error e => simp only [bind, Except.bind, hg] at h; cases h
    | ok g =>
      simp only [bind, Except.bind, hg] at h
      split_ifs at h with ha
      obtain rfl := Except.ok.inj h
      refine ⟨S, rfl, hg, rfl, rfl, fun i => ?_⟩
      obtain ⟨f, hf⟩ := Option.isSome_iff_exists.1 (ha i)
      refine ⟨f, hf, ?_, fun j hj => ?_⟩
      · simp only [hf]
      · obtain ⟨f', hf'⟩ := Option.isSome_iff_exists.1 (ha j)
        have : ∀ r (hr : r = g i) (hjr : g j = r) f', ols (RegimesMat.sub x g r) (RegimesMat.subv y g r) = some f' →
            f'.u ⟨j, hjr⟩ = f.u ⟨j, hj⟩ := by
          rintro r rfl hjr f' hf'
          rw [hf] at hf'
          obtain rfl := Option.some.inj hf'
          rfl
        simp only [hf']
        exact this _ hj rfl f' hf'

/-- The score of the clusters is the sum of squares of the reported residuals. -/
theorem score_utu {cc : List (Edge n) → ℕ × Labels n} {ρ : Finset (Fin n) → Option ℝ} {E : List (Edge n)}
    {x : Matrix (Fin n) k ℝ} {y : Fin n → ℝ} (hρ : SSRScore x y ρ) {cols : ℕ} {nc : Option ℕ} {quorum : ℤ} {trace : Bool}
    {F : Fitted n k} (h : olsEndog cc ρ E x y cols nc quorum trace = .ok F) {K : ℕ}
    (hK : univ.image F.clusters = range K) {s : ℝ} (hs : IsScore ρ K F.clusters s) : s = ∑ i, F.u i ^ 2 := by
  obtain ⟨S, -, -, -, -, hall⟩ := olsEndog_ok h
  obtain ⟨v, hv, rfl⟩ := hs
  rw [← sum_regimes hK]
  refine Finset.sum_congr rfl fun r hr => ?_
  have hr' := hr
  rw [← hK] at hr'
  obtain ⟨i, -, rfl⟩ := mem_image.1 hr'
  obtain ⟨f, hf, -, hu⟩ := hall i
  have h1 := ssr_region hρ _ _ f hf
  rw [hv _ (mem_range.1 hr)] at h1
  rw [Option.some.inj h1]
  exact Finset.sum_congr rfl fun j _ => by rw [hu j.1 j.2]

/-- The score of `score_spreg` for OLS, on the sets of observations for which the regression exists. -/
noncomputable def olsScore (x : Matrix (Fin n) k ℝ) (y : Fin n → ℝ) (S : Finset (Fin n)) : Option ℝ :=
  (ols (Matrix.of fun (i : {i // i ∈ S}) j => x i.1 j) (fun i => y i.1)).map fun f => ∑ i, f.u i ^ 2

theorem olsScore_spec (x : Matrix (Fin n) k ℝ) (y : Fin n → ℝ) : SSRScore x y (olsScore x y) := by
  intro S f hf
  rw [olsScore, hf]
  rfl

/-- C156: sums of squared residuals of OLS never increase when a region is split, for every data set; so the search does
not fail on a connected graph (`C46_no_errors`). -/
theorem C156_ols_splits (x : Matrix (Fin n) k ℝ) (y : Fin n → ℝ) : Splits (olsScore x y) := by
  intro A B a b c hd ha hb hc
  obtain ⟨fa, hfa, rfl⟩ := Option.map_eq_some_iff.1 ha
  obtain ⟨fb, hfb, rfl⟩ := Option.map_eq_some_iff.1 hb
  obtain ⟨fc, hfc, rfl⟩ := Option.map_eq_some_iff.1 hc
  have h1 := (C07_minimises _ _ _ hfa fc.betas).1
  have h2 := (C07_minimises _ _ _ hfb fc.betas).1
  have h3 : ∑ i, fc.u i ^ 2 = ∑ i : {i // i ∈ A ∪ B}, (y i.1 - ∑ j, x i.1 j * fc.betas j) ^ 2 := by
    obtain ⟨-, rfl⟩ := ols_eq_some hfc
    exact Finset.sum_congr rfl fun i _ => rfl
  have key : ∀ S : Finset (Fin n), ∑ i : {i // i ∈ S}, (y i.1 - ∑ j, x i.1 j * fc.betas j) ^ 2
      = ∑ i ∈ S, (y i - ∑ j, x i j * fc.betas j) ^ 2 := fun S =>
    Finset.sum_coe_sort S fun i => (y i - ∑ j, x i j * fc.betas j) ^ 2
  have h1' : ∑ i, fa.u i ^ 2 ≤ ∑ i ∈ A, (y i - ∑ j, x i j * fc.betas j) ^ 2 := by rw [← key A]; exact h1
  have h2' : ∑ i, fb.u i ^ 2 ≤ ∑ i ∈ B, (y i - ∑ j, x i j * fc.betas j) ^ 2 := by rw [← key B]; exact h2
  rw [h3, key (A ∪ B), Finset.sum_union hd]
  exact add_le_add h1' h2'

section
variable {cc : List (Edge n) → ℕ × Labels n} (hcc : CCSpec cc)
include hcc

/-- C156 (OLS): on a connected graph, a fitted model with `K` requested clusters has an admissible solution with `K` regimes
as clusters; the reported coefficients and residuals of every regime are those of the regression on its members alone; the
score and the last entry of `SSR` are the sum of squares of the reported residuals. -/
theorem C156_ols {ρ : Finset (Fin n) → Option ℝ} {E : List (Edge n)} (h1 : (cc E).1 = 1) {x : Matrix (Fin n) k ℝ}
    {y : Fin n → ℝ} (hρ : SSRScore x y ρ) {cols K : ℕ} (hK : 2 ≤ K) {quorum : ℤ} {trace : Bool} {F : Fitted n k}
    (h : olsEndog cc ρ E x y cols (some K) quorum trace = .ok F) :
    Admissible E (quorumOf cols quorum) K F.clusters ∧
      (∀ i, ∃ f, ols (RegimesMat.sub x F.clusters (F.clusters i)) (RegimesMat.subv y F.clusters (F.clusters i)) = some f ∧
        F.betas (F.clusters i) = f.betas ∧ ∀ j (hj : F.clusters j = F.clusters i), F.u j = f.u ⟨j, hj⟩) ∧
      F.score = some (∑ i, F.u i ^ 2) ∧ F.ssr.getLast? = some (some (∑ i, F.u i ^ 2)) := by
  obtain ⟨S, hS, hg, hsc, hss, hall⟩ := olsEndog_ok h
  obtain ⟨ha, l, s, h2, -, -, h5, h6, h7⟩ := C156_fixed hcc h1 hK hS hg
  have e := score_utu hρ h ha.numbered h7
  refine ⟨ha, hall, by rw [hsc, h6, e], ?_⟩
  rw [hss, h2, List.getLast?_map, h5, e]
  rfl

/-- C156 (OLS, automatic): the same for the number of regimes chosen by `optim_k`. Missing: see `C156_auto_partial`. -/
theorem C156_ols_auto_partial {ρ : Finset (Fin n) → Option ℝ} {E : List (Edge n)} (h1 : (cc E).1 = 1)
    {x : Matrix (Fin n) k ℝ} {y : Fin n → ℝ} (hρ : SSRScore x y ρ) (hn : 0 < n) {cols : ℕ} {quorum : ℤ} {trace : Bool}
    {F : Fitted n k} (h : olsEndog cc ρ E x y cols none quorum trace = .ok F) :
    ∃ K, 2 ≤ K ∧ optimKX F.ssr = .ok K ∧ Admissible E (quorumOf cols quorum) K F.clusters ∧
      (∀ i, ∃ f, ols (RegimesMat.sub x F.clusters (F.clusters i)) (RegimesMat.subv y F.clusters (F.clusters i)) = some f ∧
        F.betas (F.clusters i) = f.betas ∧ ∀ j (hj : F.clusters j = F.clusters i), F.u j = f.u ⟨j, hj⟩) ∧
      F.score = some (∑ i, F.u i ^ 2) := by
  obtain ⟨S, hS, hg, hsc, hss, hall⟩ := olsEndog_ok h
  obtain ⟨K, hk, hk2, -, ha, s, h6, h7, -⟩ := C156_auto_partial hcc h1 hn hS hg
  have e := score_utu hρ h ha.numbered h7
  exact ⟨K, hk2, by rw [hss, hk], ha, hall, by rw [hsc, h6, e]⟩

end

/-! ### Spatial lag -/

/-- C156 fails for the weights: the final lag model is estimated with the weights that the caller passed exactly when all of
these are zero or one (rows that sum to zero apart). -/
theorem C156_weights_violated (A : Matrix (Fin n) (Fin n) ℝ) (t : ML.Transform)
    (hA : ∀ i, (∃ j, A i j ≠ 0) → ∑ l, A i l ≠ 0) :
    finalW A t = ML.weightsOf A t ↔ ∀ i j, ML.weightsOf A t i j = 0 ∨ ML.weightsOf A t i j = 1 := by
  have hb : ∀ i j, finalW A t i j = if A i j ≠ 0 then 1 else 0 := fun i j => by
    simp only [finalW, fitTransform, ML.weightsOf, ML.binary, Matrix.of_apply]
  constructor
  · intro h i j
    rw [← h, hb]
    split_ifs
    · exact Or.inr rfl
    · exact Or.inl rfl
  · intro h
    ext i j
    rw [hb]
    have hz : ML.weightsOf A t i j = 0 ↔ A i j = 0 := by
      cases t with
      | o => exact Iff.rfl
      | b =>
        simp only [ML.weightsOf, ML.binary, Matrix.of_apply]
        split_ifs with h0
        · exact ⟨fun h => absurd h one_ne_zero, fun h => absurd h h0⟩
        · exact ⟨fun _ => not_not.1 h0, fun _ => rfl⟩
      | r =>
        simp only [ML.weightsOf, ML.rowStd, Matrix.of_apply]
        constructor
        · intro h0
          by_contra hne
          exact (div_ne_zero hne (hA i ⟨j, hne⟩)) h0
        · intro h0; rw [h0, zero_div]
    by_cases h0 : A i j = 0
    · rw [if_neg (not_not.2 h0), hz.2 h0]
    · rw [if_pos h0]
      rcases h i j with h1 | h1
      · exact absurd (hz.1 h1) h0
      · exact h1.symm

/-- Two neighbours each on a triangle: row-standardised weights one half, the model is estimated with weights one. -/
example : finalW (Matrix.of fun i j : Fin 3 => if i = j then 0 else 1) .r 0 1 = 1 ∧
    ML.weightsOf (Matrix.of fun i j : Fin 3 => if i = j then (0 : ℝ) else 1) .r 0 1 = 1 / 2 := by
  constructor
  · simp [finalW, fitTransform, ML.weightsOf, ML.binary]
  · simp [ML.weightsOf, ML.rowStd, Fin.sum_univ_three]; norm_num

/-- C156 fails for the search of the lag class: its regressions leave the lag of the first explanatory variable out of the
instruments, so that with one explanatory variable they have none. The final model uses all of them. -/
theorem C156_lag_search_violated {α : Type} (W : α → α) (y a : α) (x : List α) :
    (∃ o, prepLag W y (a :: x) = .ok o ∧ o.yend = [W y] ∧ o.q = x.map W) ∧
    (∃ o, Lags.setEndog W y (a :: x) none none 1 true 0 .all = .ok o ∧ o.yend = [W y] ∧ o.q = (a :: x).map W) :=
  ⟨⟨_, rfl, rfl, rfl⟩, ⟨_, rfl, rfl, rfl⟩⟩

/-! ### Examples -/

/-- The star with five nodes, quorum 1: the automatic search runs. -/
example : ∃ S, search classes (fun S : Finset (Fin 5) => some (-(1 : ℝ))) star 1 none 1 true = .ok S :=
  (C156_auto_search (classes_spec (n := 5)) (ρ := fun _ => some (-(1 : ℝ)))
    (by intro A B a b c _ ha hb hc; cases ha; cases hb; cases hc; norm_num) star_forest
    (by rw [count_of classes_spec _ star_conn]; decide)).2 ⟨by decide, by decide⟩

/-- A regression on the constant alone exists on every nonempty set. -/
theorem const_ols {m : Type} [Fintype m] [Nonempty m] (y : m → ℝ) :
    (ols (Matrix.of fun (_ : m) (_ : Unit) => (1 : ℝ)) y).isSome := by
  rw [ols_of_isUnit]
  · rfl
  · rw [Matrix.det_unique, Matrix.mul_apply]
    simp [Matrix.transpose_apply]

theorem const_score (y : Fin n → ℝ) (S : Finset (Fin n)) (hS : S.Nonempty) :
    (olsScore (Matrix.of fun (_ : Fin n) (_ : Unit) => (1 : ℝ)) y S).isSome := by
  obtain ⟨a, ha⟩ := hS
  haveI : Nonempty {i // i ∈ S} := ⟨⟨a, ha⟩⟩
  unfold olsScore
  rw [Option.isSome_map]
  exact const_ols _

theorem cuts_nil {cc : List (Edge n) → ℕ × Labels n} {ρ : Finset (Fin n) → Option ℝ} {q : ℕ} {E F : List (Edge n)}
    {prev : Option ℝ} (h : Cuts cc ρ q E prev [] F) : F = E := by
  cases h; rfl

/-- Every dependent variable on the star with five nodes: the class with two clusters and quorum 1 succeeds, so the
hypotheses of `C156_fixed` and `C156_ols` are met. -/
theorem star_fitted (y : Fin 5 → ℝ) : ∃ F, olsEndog classes
    (olsScore (Matrix.of fun (_ : Fin 5) (_ : Unit) => (1 : ℝ)) y) star (Matrix.of fun (_ : Fin 5) (_ : Unit) => (1 : ℝ)) y 0
    (some 2) 1 true = .ok F := by
  set x : Matrix (Fin 5) Unit ℝ := Matrix.of fun _ _ => (1 : ℝ) with hx
  have h1 : (classes star).1 = 1 := by rw [count_of classes_spec _ star_conn]; decide
  obtain ⟨R, hR⟩ := (C46_no_errors (classes_spec (n := 5)) (C156_ols_splits x y) (q := 1) (nClusters := 2) (ignore := false)
    star_forest h1 (by norm_num)).2 (by norm_num)
  obtain ⟨acc, hcut, hlen, ⟨c1, c2, c3⟩ | ⟨c1, c2, c3, c4⟩⟩ := C46_connected classes_spec h1 (by norm_num) hR
  · have hS : search classes (olsScore x y) star 0 (some 2) 1 true
        = .ok ⟨.lab (classes R.msf).2, ((pyTrace R).getLast?.map Prod.snd).getD none, pyTrace R⟩ := by
      unfold search
      simp only
      rw [show quorumOf 0 1 = 1 from rfl, hR]
      simp only [c1, labOf, if_true]
    have him : univ.image (classes R.msf).2 = range 2 := by
      rw [← c3]
      ext r
      simp only [mem_image, mem_univ, true_and, mem_range]
      exact ⟨fun ⟨a, ha⟩ => ha ▸ classes_spec.lt R.msf a, fun h => classes_spec.surj R.msf r h⟩
    have hg : accept 0 (.lab (classes R.msf).2) = .ok (classes R.msf).2 := by
      simp only [accept]
      rw [him, card_range, if_neg (by norm_num), if_neg (by norm_num)]
    have hall : ∀ i, (ols (RegimesMat.sub x (classes R.msf).2 ((classes R.msf).2 i))
        (RegimesMat.subv y (classes R.msf).2 ((classes R.msf).2 i))).isSome := by
      intro i
      haveI : Nonempty {j // (classes R.msf).2 j = (classes R.msf).2 i} := ⟨⟨i, rfl⟩⟩
      exact const_ols _
    refine ⟨?_, ?_⟩
    swap
    · unfold olsEndog
      rw [hS]
      simp only [bind, Except.bind, hg]
      rw [if_pos hall]
      rfl
  · exfalso
    have hacc : acc = [] := by
      have : acc.length = 0 := by omega
      exact List.length_eq_zero_iff.1 this
    subst hacc
    have hm : R.msf = star := cuts_nil hcut
    rw [hm] at c4
    have hsome : ∀ l < (classes (star.filter (· ≠ (0, 1)))).1,
        (olsScore x y (region (classes (star.filter (· ≠ (0, 1)))).2 l)).isSome := by
      intro l hl
      obtain ⟨a, ha⟩ := classes_spec.surj _ l hl
      exact const_score y _ ⟨a, mem_filter.2 ⟨mem_univ _, ha⟩⟩
    refine c4 (0, 1) (by decide) _ ?_ ⟨hsome, rfl⟩
    intro l hl
    obtain ⟨a, ha⟩ := classes_spec.surj _ l hl
    exact card_pos.2 ⟨a, mem_filter.2 ⟨mem_univ _, ha⟩⟩

/-- 100 observations and the smallest default quorum: the automatic maximum is two. -/
example : nOpt 100 (quorumOf 2 (-1)) = 2 := by decide

end Spreg.Endog
