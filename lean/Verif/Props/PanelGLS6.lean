import Verif.Props.PanelGLS2
/-
C104, C105: the variance components of PanelRE and the form of its Hausman statistic.
-/
namespace Spreg.PanelGLS
open Matrix Spreg.Lin Spreg.PanelML Spreg.Gauss

variable {τ n k : Type} [Fintype τ] [Fintype n] [Fintype k] [DecidableEq τ] [DecidableEq n] [DecidableEq k]

/-- Deviation from the mean of the unit over time (specification). -/
noncomputable def dev (v : τ × n → ℝ) (s : τ) (i : n) : ℝ := v (s, i) - (∑ s', v (s', i)) / Fintype.card τ

/-- Sum of squares of the within regression at `c` (specification). -/
noncomputable def withinSS (y : τ × n → ℝ) (x : Matrix (τ × n) k ℝ) (c : k → ℝ) : ℝ :=
  ∑ i, ∑ s, (dev y s i - ∑ j, dev (fun a => x a j) s i * c j) ^ 2

/-- Sum of squares of the regression of the unit means at `c` (specification). -/
noncomputable def betweenSS (y : τ × n → ℝ) (x : Matrix (τ × n) k ℝ) (c : k → ℝ) : ℝ :=
  ∑ i, ((∑ s, y (s, i)) / Fintype.card τ - ∑ j, (∑ s, x (s, i) j) / Fintype.card τ * c j) ^ 2

theorem withinSS_eq (y : τ × n → ℝ) (x : Matrix (τ × n) k ℝ) (c : k → ℝ) :
    withinSS y x c = utu (y - tile τ (unitMean y) - (x - tileM τ (unitMeanM x)) *ᵥ c) := by
  unfold withinSS utu
  rw [Fintype.sum_prod_type, Finset.sum_comm]
  rfl

theorem betweenSS_eq (y : τ × n → ℝ) (x : Matrix (τ × n) k ℝ) (c : k → ℝ) :
    betweenSS y x c = utu (unitMean y - unitMeanM x *ᵥ c) := rfl

/-- A regressor varies over time if its deviations have variance above the tolerance of the code (specification). -/
def Varies (x : Matrix (τ × n) k ℝ) (j : k) : Prop := Valid (x - tileM τ (unitMeanM x)) j

theorem sub_mulVec_ext (xd : Matrix (τ × n) k ℝ) [DecidablePred (Valid xd)] (hinv : ∀ j, ¬Valid xd j → ∀ a, xd a j = 0) (v : k → ℝ) :
    xd.submatrix id (Subtype.val : {j // Valid xd j} → k) *ᵥ (fun i => v i.1) = xd *ᵥ v := by
  funext a
  simp only [mulVec, dotProduct, submatrix_apply, id]
  have e2 := Fintype.sum_subtype_add_sum_subtype (fun j => Valid xd j) (fun j => xd a j * v j)
  have e3 : ∑ j : {j // ¬Valid xd j}, xd a j.1 * v j.1 = 0 :=
    Finset.sum_eq_zero fun j _ => by rw [hinv j.1 j.2 a, zero_mul]
  rw [e3, add_zero] at e2
  exact e2

open Classical in
theorem panelRE_components {pinv : Matrix k k ℝ → Matrix k k ℝ} {y : τ × n → ℝ} {x : Matrix (τ × n) k ℝ} {f : REFit τ n k}
    (h : panelRE pinv y x = some f) :
    ∃ w, within (x - tileM τ (unitMeanM x)) (y - tile τ (unitMean y)) = some w ∧
      f.sigma2e = utu w.2 / (NT τ n - Fintype.card n - Fintype.card {j // Varies x j}) ∧
      f.sigma2mu = max 0 (utu (unitMean y - unitMeanM x *ᵥ between pinv (unitMeanM x) (unitMean y)) /
        ((Fintype.card n : ℝ) - Fintype.card k) - f.sigma2e / Fintype.card τ) ∧
      f.hausman = hausman (x - tileM τ (unitMeanM x)) w.1 f.sigma2e f.betas f.vm ∧
      f.hausmanDf = Fintype.card {j // Varies x j} := by
  unfold panelRE at h
  simp only [Option.bind_eq_some_iff, Option.map_eq_some_iff] at h
  obtain ⟨w, hw, reg, hreg, rfl⟩ := h
  dsimp only
  refine ⟨w, hw, ?_, ?_, rfl, rfl⟩
  · rfl
  · split_ifs with h
    · rw [max_eq_left h.le]
    · rw [max_eq_right (not_lt.1 h)]

open Classical in
/-- C104: the variance components are those of Swamy and Arora: `sigma2_epsilon` is the least sum of squares of the within
regression over `NT - N` minus the number of regressors that vary over time; `sigma2_mu` is the least sum of squares of the
regression of unit means over `N - k`, minus `sigma2_epsilon / T`, or 0 if that is negative. -/
theorem C104_components (pinv : Matrix k k ℝ → Matrix k k ℝ) (y : τ × n → ℝ) (x : Matrix (τ × n) k ℝ)
    (f : REFit τ n k) (h : panelRE pinv y x = some f) (hinv : ∀ j, ¬Varies x j → ∀ s i, dev (fun a => x a j) s i = 0)
    (hxm : IsUnit ((unitMeanM x)ᵀ * unitMeanM x).det) :
    ∃ Sw Sb, IsLeast (Set.range (withinSS y x)) Sw ∧ IsLeast (Set.range (betweenSS y x)) Sb ∧
      f.sigma2e = Sw / (Fintype.card τ * Fintype.card n - Fintype.card n - Fintype.card {j // Varies x j}) ∧
      f.sigma2mu = max 0 (Sb / ((Fintype.card n : ℝ) - Fintype.card k) - f.sigma2e / Fintype.card τ) := by
  obtain ⟨w, hw, he, hm, -⟩ := panelRE_components h
  have hinv' : ∀ j, ¬Valid (x - tileM τ (unitMeanM x)) j → ∀ a, (x - tileM τ (unitMeanM x)) a j = 0 :=
    fun j hj a => hinv j hj a.1 a.2
  refine ⟨utu w.2, _, ?_, ?_, ?_, hm⟩
  · have hext := sub_mulVec_ext (x - tileM τ (unitMeanM x)) hinv'
    have hran : Set.range (withinSS y x) = Set.range fun c : {j // Valid (x - tileM τ (unitMeanM x)) j} → ℝ =>
        utu (y - tile τ (unitMean y) - (x - tileM τ (unitMeanM x)).submatrix id Subtype.val *ᵥ c) := by
      ext z
      constructor
      · rintro ⟨c, rfl⟩
        exact ⟨fun i => c i.1, by simp only; rw [hext, withinSS_eq]⟩
      · rintro ⟨c, rfl⟩
        refine ⟨fun j => if hj : Valid (x - tileM τ (unitMeanM x)) j then c ⟨j, hj⟩ else 0, ?_⟩
        rw [withinSS_eq, ← hext]
        congr 3
        funext i
        rw [dif_pos i.2]
    rw [hran]
    generalize x - tileM τ (unitMeanM x) = xd at *
    generalize y - tile τ (unitMean y) = yd at *
    unfold within at hw
    split_ifs at hw with hc
    · simp only [Option.map_eq_some_iff] at hw
      obtain ⟨xi, hxi, rfl⟩ := hw
      obtain ⟨hxu, rfl, -⟩ := inv?_eq_some hxi
      refine ⟨⟨_, rfl⟩, ?_⟩
      rintro _ ⟨c, rfl⟩
      exact ols_min _ yd hxu c
    · obtain rfl := Option.some.inj hw
      have hem : IsEmpty {j // Valid xd j} := by
        rw [← Fintype.card_eq_zero_iff]; omega
      have h0 : ∀ c : {j // Valid xd j} → ℝ, xd.submatrix id Subtype.val *ᵥ c = 0 := by
        intro c; funext a; simp [mulVec, dotProduct]
      refine ⟨⟨fun _ => 0, ?_⟩, ?_⟩
      · simp only [h0, sub_zero]
      · rintro _ ⟨c, rfl⟩
        simp only [h0, sub_zero]; exact le_rfl
  · have hb : between pinv (unitMeanM x) (unitMean y) = ((unitMeanM x)ᵀ * unitMeanM x)⁻¹ *ᵥ ((unitMeanM x)ᵀ *ᵥ unitMean y) := by
      unfold between; rw [inv?_of_isUnit hxm]
    refine ⟨⟨_, betweenSS_eq y x _⟩, ?_⟩
    rintro _ ⟨c, rfl⟩
    rw [hb, betweenSS_eq]
    exact ols_min (unitMeanM x) (unitMean y) hxm c
  · rw [he]; unfold NT; rw [mul_comm (Fintype.card n : ℝ)]

open Classical in
/-- C105: when it is a number, the statistic is `d' (sigma2_epsilon (X'X)^-1 - V)^-1 d` with `X` the within regressors that vary
over time, `d` the difference between the within estimates (which minimise the within sum of squares) and the reported ones,
and `V` the reported variances; its degrees of freedom are the number of these regressors. -/
theorem C105_statistic (pinv : Matrix k k ℝ → Matrix k k ℝ) (y : τ × n → ℝ) (x : Matrix (τ × n) k ℝ)
    (f : REFit τ n k) (h : panelRE pinv y x = some f) (hinv : ∀ j, ¬Varies x j → ∀ s i, dev (fun a => x a j) s i = 0)
    (H : ℝ) (hH : f.hausman = some H) :
    ∃ (b : k → ℝ) (G V : Matrix {j // Varies x j} {j // Varies x j} ℝ), IsLeast (Set.range (withinSS y x)) (withinSS y x b) ∧
      (∀ p q, G p q = ∑ i, ∑ s, dev (fun a => x a p) s i * dev (fun a => x a q) s i) ∧
      V * (f.sigma2e • G⁻¹ - Matrix.of fun p q => f.vm p.1 q.1) = 1 ∧
      H = ∑ p, ∑ q, (b p.1 - f.betas p.1) * V p q * (b q.1 - f.betas q.1) ∧
      f.hausmanDf = Fintype.card {j // Varies x j} := by
  obtain ⟨w, hw, -, -, hh, hdf⟩ := panelRE_components h
  have hinv' : ∀ j, ¬Valid (x - tileM τ (unitMeanM x)) j → ∀ a, (x - tileM τ (unitMeanM x)) a j = 0 :=
    fun j hj a => hinv j hj a.1 a.2
  have hext := sub_mulVec_ext (x - tileM τ (unitMeanM x)) hinv'
  rw [hh] at hH
  unfold hausman at hH
  simp only [Option.bind_eq_some_iff, Option.map_eq_some_iff] at hH
  obtain ⟨p, hp, vi, hvi, rfl⟩ := hH
  unfold within at hw
  split_ifs at hw with hc
  · simp only [Option.map_eq_some_iff] at hw
    obtain ⟨xi, hxi, rfl⟩ := hw
    cases hp
    dsimp only at hvi ⊢
    obtain ⟨hxu, rfl, -⟩ := inv?_eq_some hxi
    obtain ⟨-, -, -, hleft⟩ := inv?_eq_some hvi
    set xs : Matrix (τ × n) {j // Valid (x - tileM τ (unitMeanM x)) j} ℝ := (x - tileM τ (unitMeanM x)).submatrix id Subtype.val with hxs
    set bw := (xsᵀ * xs)⁻¹ *ᵥ (xsᵀ *ᵥ (y - tile τ (unitMean y))) with hbw
    refine ⟨fun j => if hj : Valid (x - tileM τ (unitMeanM x)) j then bw ⟨j, hj⟩ else 0, xsᵀ * xs, vi, ?_, ?_, ?_, ?_, hdf⟩
    · refine ⟨⟨_, rfl⟩, ?_⟩
      rintro _ ⟨c, rfl⟩
      rw [withinSS_eq, withinSS_eq, ← hext, ← hext c]
      have e : (fun i : {j // Valid (x - tileM τ (unitMeanM x)) j} =>
          (if hj : Valid (x - tileM τ (unitMeanM x)) i.1 then bw ⟨i.1, hj⟩ else 0)) = bw := by
        funext i; rw [dif_pos i.2]
      rw [e]
      exact ols_min xs _ hxu _
    · intro p q
      refine (Matrix.mul_apply (M := xsᵀ) (N := xs)).trans ?_
      rw [Fintype.sum_prod_type, Finset.sum_comm]
      rfl
    · exact hleft
    · simp only [dotProduct, mulVec, Finset.mul_sum, Pi.sub_apply]
      refine Finset.sum_congr rfl fun p _ => Finset.sum_congr rfl fun q _ => ?_
      rw [dif_pos p.2, dif_pos q.2]
      ring
  · obtain rfl := Option.some.inj hw
    cases hp

end Spreg.PanelGLS
