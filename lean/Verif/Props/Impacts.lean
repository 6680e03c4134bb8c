import Verif.Model.Impacts
import Verif.Props.OLS
import Mathlib.Algebra.BigOperators.Intervals
import Mathlib.Tactic.FinCases
/-
C30 (power expansion), C31 (average multipliers and effects), C32 (individual multipliers),
C34 (reduced-form predictions).
-/
namespace Spreg.Impacts
open Matrix Spreg Spreg.Lin

variable {n : Type} [Fintype n]

/-! ### C30 -/

/-- The `k`-th term of the Leontief expansion, `rho^k W^k x`. -/
def term [DecidableEq n] (W : Matrix n n ℝ) (rho : ℝ) (x : n → ℝ) (k : ℕ) : n → ℝ := rho ^ k • (W ^ k *ᵥ x)

/-- The partial sum `x + rho W x + ... + rho^m W^m x`. -/
def partialSum [DecidableEq n] (W : Matrix n n ℝ) (rho : ℝ) (x : n → ℝ) (m : ℕ) : n → ℝ :=
  ∑ k ∈ Finset.range (m + 1), term W rho x k

variable [DecidableEq n]

theorem term_succ (W : Matrix n n ℝ) (rho : ℝ) (x : n → ℝ) (k : ℕ) :
    rho • (W *ᵥ term W rho x k) = term W rho x (k + 1) := by
  unfold term
  rw [mulVec_smul, mulVec_mulVec, ← pow_succ', smul_smul, ← pow_succ']

theorem partialSum_succ (W : Matrix n n ℝ) (rho : ℝ) (x : n → ℝ) (m : ℕ) :
    partialSum W rho x m + term W rho x (m + 1) = partialSum W rho x (m + 1) := by
  unfold partialSum; rw [Finset.sum_range_succ _ (m + 1)]

theorem partialSum_telescope (W : Matrix n n ℝ) (rho : ℝ) (x : n → ℝ) (m : ℕ) :
    partialSum W rho x m - rho • (W *ᵥ partialSum W rho x m) = x - term W rho x (m + 1) := by
  have h0 : term W rho x 0 = x := by simp [term]
  induction m with
  | zero =>
    have : partialSum W rho x 0 = x := by simp [partialSum, h0]
    rw [this, ← term_succ, h0]
  | succ m ih =>
    rw [← partialSum_succ, mulVec_add, smul_add, term_succ]
    have : partialSum W rho x m + term W rho x (m + 1)
        - (rho • (W *ᵥ partialSum W rho x m) + term W rho x (m + 1 + 1))
        = (partialSum W rho x m - rho • (W *ᵥ partialSum W rho x m)) + term W rho x (m + 1)
          - term W rho x (m + 1 + 1) := by abel
    rw [this, ih]; abel

theorem powLoop_inv (W : Matrix n n ℝ) (rho thr : ℝ) (x : n → ℝ) : ∀ (fuel m : ℕ) (test : ℝ),
    (∀ r, powLoop W rho thr fuel (partialSum W rho x m) (term W rho x m) test = .ok r →
      ∃ m', m ≤ m' ∧ m' ≤ m + fuel ∧ r = partialSum W rho x m' ∧
        (m' = m + fuel ∨ (m' = m ∧ test ≤ thr) ∨ (m < m' ∧ norm2 (term W rho x m') ≤ thr)) ∧
        (∀ j, m < j → j < m' → norm2 (term W rho x (j + 1)) ≤ norm2 (term W rho x j)) ∧
        (m < m' → norm2 (term W rho x (m + 1)) ≤ test)) ∧
    (∀ e, powLoop W rho thr fuel (partialSum W rho x m) (term W rho x m) test = .error e →
      e = .exception ∧ (test < norm2 (term W rho x (m + 1)) ∨
        ∃ j, m < j ∧ j < m + fuel ∧ norm2 (term W rho x j) < norm2 (term W rho x (j + 1)))) := by
  intro fuel
  induction fuel with
  | zero =>
    intro m test
    refine ⟨fun r h => ?_, fun e h => by cases h⟩
    cases h
    exact ⟨m, le_refl _, le_refl _, rfl, Or.inl rfl, fun j h1 h2 => by omega, fun h => by omega⟩
  | succ fuel ih =>
    intro m test
    unfold powLoop
    by_cases ht : thr < test
    · simp only [ht, if_true, term_succ, partialSum_succ]
      by_cases hn : test < norm2 (term W rho x (m + 1))
      · simp only [hn, if_true]
        refine ⟨fun r h => (by cases h), fun e h => ?_⟩
        cases h
        exact ⟨rfl, Or.inl trivial⟩
      · simp only [hn, if_false]
        obtain ⟨i1, i2⟩ := ih (m + 1) (norm2 (term W rho x (m + 1)))
        refine ⟨fun r h => ?_, fun e h => ?_⟩
        · obtain ⟨m', h1, h2, h3, h4, h5, h6⟩ := i1 r h
          refine ⟨m', by omega, by omega, h3, ?_, ?_, fun _ => not_lt.1 hn⟩
          · rcases h4 with h4 | ⟨h4, h4'⟩ | ⟨h4, h4'⟩
            · exact Or.inl (by omega)
            · subst h4; exact Or.inr (Or.inr ⟨by omega, h4'⟩)
            · exact Or.inr (Or.inr ⟨by omega, h4'⟩)
          · intro j hj1 hj2
            by_cases hj : j = m + 1
            · subst hj; exact h6 hj2
            · exact h5 j (by omega) hj2
        · obtain ⟨e1, e2⟩ := i2 e h
          refine ⟨e1, Or.inr ?_⟩
          rcases e2 with e2 | ⟨j, h1, h2, h3⟩
          · refine ⟨m + 1, by omega, ?_, e2⟩
            cases fuel with
            | zero => cases h
            | succ f => omega
          · exact ⟨j, by omega, by omega, h3⟩
    · simp only [ht, if_false]
      refine ⟨fun r h => ?_, fun e h => by cases h⟩
      cases h
      exact ⟨m, le_refl _, by omega, rfl, Or.inr (Or.inl ⟨rfl, not_lt.1 ht⟩),
        fun j h1 h2 => by omega, fun h => by omega⟩

/-- C30: for every matrix, vector, coefficient, threshold below 10^7 and bound on the number of iterations,
a power expansion that returns has returned a partial sum `s` of the Leontief series of some length
`m <= max_iterations`, with `s - rho W s = x - rho^(m+1) W^(m+1) x`; either the last term has norm at most
the threshold or `m = max_iterations`; and the norms of the terms never increased. -/
theorem C30_partial_sum (W : Matrix n n ℝ) (x : n → ℝ) (rho thr : ℝ) (maxIter : Option ℕ)
    (hthr : thr < 10000000) (s : n → ℝ) (h : powerExpansion W x rho false thr maxIter = .ok s) :
    ∃ m ≤ maxIter.getD 10000000, s = partialSum W rho x m ∧
      s - rho • (W *ᵥ s) = x - term W rho x (m + 1) ∧
      (norm2 (term W rho x m) ≤ thr ∨ m = maxIter.getD 10000000) ∧
      (∀ j, 0 < j → j < m → norm2 (term W rho x (j + 1)) ≤ norm2 (term W rho x j)) := by
  have h0 : term W rho x 0 = x := by simp [term]
  have hs0 : partialSum W rho x 0 = x := by simp [partialSum, h0]
  have hinv := (powLoop_inv W rho thr x (maxIter.getD 10000000) 0 10000000).1 s
  rw [hs0, h0] at hinv
  obtain ⟨m, _, h2, h3, h4, h5, _⟩ := hinv h
  refine ⟨m, by simpa using h2, h3, ?_, ?_, h5⟩
  · rw [h3]; exact partialSum_telescope W rho x m
  · rcases h4 with h4 | ⟨_, h4⟩ | ⟨_, h4⟩
    · exact Or.inr (by simpa using h4)
    · exact absurd hthr (not_lt.2 h4)
    · exact Or.inl h4

/-- C30: the expansion raises only when some term is larger than the one before (or the first term has norm
above 10^7). -/
theorem C30_raises (W : Matrix n n ℝ) (x : n → ℝ) (rho thr : ℝ) (maxIter : Option ℕ) (e : PyErr)
    (h : powerExpansion W x rho false thr maxIter = .error e) :
    e = .exception ∧ (10000000 < norm2 (term W rho x 1) ∨
      ∃ j, 0 < j ∧ norm2 (term W rho x j) < norm2 (term W rho x (j + 1))) := by
  have h0 : term W rho x 0 = x := by simp [term]
  have hs0 : partialSum W rho x 0 = x := by simp [partialSum, h0]
  have hinv := (powLoop_inv W rho thr x (maxIter.getD 10000000) 0 10000000).2 e
  rw [hs0, h0] at hinv
  obtain ⟨h1, h2⟩ := hinv h
  refine ⟨h1, ?_⟩
  rcases h2 with h2 | ⟨j, hj, _, h3⟩
  · exact Or.inl h2
  · exact Or.inr ⟨j, hj, h3⟩

/-- C30: post-multiplication is pre-multiplication with the transposed weights. -/
theorem C30_post_multiply (W : Matrix n n ℝ) (x : n → ℝ) (rho thr : ℝ) (maxIter : Option ℕ) :
    powerExpansion W x rho true thr maxIter = powerExpansion Wᵀ x rho false thr maxIter := by
  simp [powerExpansion]

theorem abs_le_norm2 (v : n → ℝ) (i : n) : |v i| ≤ norm2 v := by
  unfold norm2
  rw [← Real.sqrt_sq_eq_abs]
  exact Real.sqrt_le_sqrt (Finset.single_le_sum (f := fun i => v i ^ 2) (fun _ _ => sq_nonneg _) (Finset.mem_univ i))

/-- Weights with nonnegative entries and row sums at most one (row-standardised weights, with islands). -/
def SubStochastic (W : Matrix n n ℝ) : Prop := (∀ i j, 0 ≤ W i j) ∧ ∀ i, ∑ j, W i j ≤ 1

theorem subst_abs_le {W : Matrix n n ℝ} (hW : SubStochastic W) (v : n → ℝ) (c : ℝ) (hc : 0 ≤ c)
    (hv : ∀ j, |v j| ≤ c) (i : n) : |(W *ᵥ v) i| ≤ c := by
  have h1 : |(W *ᵥ v) i| ≤ ∑ j, W i j * c := by
    unfold mulVec dotProduct
    refine (Finset.abs_sum_le_sum_abs _ _).trans (Finset.sum_le_sum fun j _ => ?_)
    rw [abs_mul, abs_of_nonneg (hW.1 i j)]
    exact mul_le_mul_of_nonneg_left (hv j) (hW.1 i j)
  rw [← Finset.sum_mul] at h1
  nlinarith [hW.2 i]

/-- If `d = rho W d + r` with `|rho| < 1` and substochastic weights then `d` is at most `max |r| / (1-|rho|)`. -/
theorem subst_bound {W : Matrix n n ℝ} (hW : SubStochastic W) (rho : ℝ) (hr : |rho| < 1) (d r : n → ℝ)
    (hd : d = rho • (W *ᵥ d) + r) (c : ℝ) (hc : 0 ≤ c) (hrc : ∀ i, |r i| ≤ c) (i : n) :
    |d i| ≤ c / (1 - |rho|) := by
  haveI : Nonempty n := ⟨i⟩
  obtain ⟨k, -, hk⟩ := Finset.exists_max_image Finset.univ (fun j => |d j|) Finset.univ_nonempty
  have hk' : ∀ j, |d j| ≤ |d k| := fun j => hk j (Finset.mem_univ j)
  have h1 := subst_abs_le hW d (|d k|) (abs_nonneg _) hk' k
  have h2 : |d k| ≤ |rho| * |d k| + c := by
    have : d k = rho * (W *ᵥ d) k + r k := by
      conv_lhs => rw [hd]
      rfl
    calc |d k| = |rho * (W *ᵥ d) k + r k| := by rw [← this]
      _ ≤ |rho * (W *ᵥ d) k| + |r k| := abs_add_le _ _
      _ ≤ |rho| * |d k| + c := by
        rw [abs_mul]
        exact add_le_add (mul_le_mul_of_nonneg_left h1 (abs_nonneg _)) (hrc k)
  have h3 : 0 < 1 - |rho| := by linarith
  rw [le_div_iff₀ h3]
  have := hk' i
  nlinarith

/-- C30: with row-standardised weights and `|rho| < 1`, every entry of a converged expansion is within
`|rho| threshold / (1 - |rho|)` of the exact solution of `z = rho W z + x`. -/
theorem C30_error_bound (W : Matrix n n ℝ) (hW : SubStochastic W) (x : n → ℝ) (rho thr : ℝ) (hr : |rho| < 1)
    (maxIter : Option ℕ) (hthr : thr < 10000000) (s : n → ℝ)
    (h : powerExpansion W x rho false thr maxIter = .ok s)
    (hconv : s ≠ partialSum W rho x (maxIter.getD 10000000))
    (z : n → ℝ) (hz : z = rho • (W *ᵥ z) + x) (i : n) :
    |s i - z i| ≤ |rho| * thr / (1 - |rho|) := by
  obtain ⟨m, _, hs, htel, hstop, _⟩ := C30_partial_sum W x rho thr maxIter hthr s h
  have hlast : norm2 (term W rho x m) ≤ thr := by
    rcases hstop with hh | hh
    · exact hh
    · exact absurd (hh ▸ hs) hconv
  have hthr0 : 0 ≤ thr := (Real.sqrt_nonneg _).trans hlast
  have hd : s - z = rho • (W *ᵥ (s - z)) + (- term W rho x (m + 1)) := by
    have e1 : s = rho • (W *ᵥ s) + (x - term W rho x (m + 1)) := by
      rw [← htel]; abel
    rw [mulVec_sub, smul_sub]
    conv_lhs => rw [e1, hz]
    abel
  have hterm : ∀ i, |(- term W rho x (m + 1)) i| ≤ |rho| * thr := by
    intro i
    rw [← term_succ, Pi.neg_apply, abs_neg, Pi.smul_apply, smul_eq_mul, abs_mul]
    exact mul_le_mul_of_nonneg_left
      (subst_abs_le hW _ thr hthr0 (fun j => (abs_le_norm2 _ j).trans hlast) i) (abs_nonneg _)
  have := subst_bound hW rho hr (s - z) _ hd (|rho| * thr) (mul_nonneg (abs_nonneg _) hthr0) hterm i
  simpa using this

/-- C30, defect: the loop compares the first term with 10^7, so data on a large scale make it raise although
the series converges: for row-standardised weights, `0 < rho < 1` and a constant vector whose first term has
norm above 10^7. -/
theorem C30_large_data_violated (W : Matrix n n ℝ) (hrow : ∀ i, ∑ j, W i j = 1) (c rho thr : ℝ)
    (hthr : thr < 10000000) (maxIter : Option ℕ) (hmi : maxIter.getD 10000000 ≠ 0)
    (hbig : 10000000 < norm2 fun _ : n => rho * c) :
    powerExpansion W (fun _ => c) rho false thr maxIter = .error .exception := by
  unfold powerExpansion
  obtain ⟨f, hf⟩ := Nat.exists_eq_succ_of_ne_zero hmi
  rw [hf]
  unfold powLoop
  simp only [Bool.false_eq_true, if_false, hthr, if_true]
  have : rho • (W *ᵥ fun _ : n => c) = fun _ => rho * c := by
    funext i
    simp [mulVec, dotProduct, ← Finset.sum_mul, hrow]
  rw [this, if_pos hbig]

/-- Witness for the defect: two neighbours, house prices of 40 million, `rho = 1/2`; the exact solution
(80 million everywhere) exists. -/
example : powerExpansion (!![0, 1; 1, 0] : Matrix (Fin 2) (Fin 2) ℝ) (fun _ => 40000000) (1/2) false defThreshold none
    = .error .exception := by
  refine C30_large_data_violated _ (fun i => by fin_cases i <;> simp) _ _ _ (by norm_num [defThreshold]) _
    (by simp) ?_
  unfold norm2
  rw [Real.lt_sqrt (by norm_num)]
  norm_num

/-- Non-vacuity for C30: the zero vector converges at the first test. -/
example : powerExpansion (!![0, 1; 1, 0] : Matrix (Fin 2) (Fin 2) ℝ) (fun _ => 0) (1/2) false defThreshold none
    = .ok (fun _ => 0) := by
  unfold powerExpansion
  rw [show (none : Option ℕ).getD 10000000 = 9999998 + 1 + 1 from rfl]
  have h0 : (1/2 : ℝ) • ((!![0, 1; 1, 0] : Matrix (Fin 2) (Fin 2) ℝ) *ᵥ fun _ => 0) = fun _ => 0 := by
    funext i; fin_cases i <;> simp [mulVec, dotProduct]
  have hn : norm2 (fun _ : Fin 2 => (0 : ℝ)) = 0 := by simp [norm2]
  unfold powLoop
  simp only [Bool.false_eq_true, if_false, h0, hn]
  rw [if_pos (by norm_num [defThreshold]), if_neg (by norm_num)]
  unfold powLoop
  rw [if_neg (by norm_num [defThreshold])]
  simp
  rfl

/-! ### C31 -/

/-- C31: whatever the method, total = direct + indirect, and total = 1/(1-rho); an unsupported method gives the
result of "simple" together with a warning. -/
theorem C31_partition (W : Matrix n n ℝ) (rho : ℝ) (method : MultMethod) (mtol : ℝ) (fuel : ℕ) (m : Mult)
    (h : spmultiplier W rho method mtol fuel = .ok m) :
    m.ati = 1 / (1 - rho) ∧ m.ati = m.adi + m.aii ∧ (m.warn = true ↔ method = .other) ∧
      (method = .simple ∨ method = .other → m.adi = 1) := by
  have h1 : (1.0 : ℝ) = 1 := by norm_num
  unfold spmultiplier at h
  rw [h1] at h
  by_cases hz : 1 - rho = 0
  · simp [hz] at h
  · simp only [hz, if_false] at h
    cases method with
    | simple => cases h; simp
    | full =>
      simp only at h
      split at h <;> cases h
      simp
    | power =>
      simp only at h
      split at h <;> cases h
      simp
    | other => cases h; simp

theorem rowsum_inv {W : Matrix n n ℝ} (hrow : ∀ i, ∑ j, W i j = 1) {rho : ℝ} {B : Matrix n n ℝ}
    (hB : B * (1 - rho • W) = 1) (hr : 1 - rho ≠ 0) (i : n) : ∑ j, B i j = 1 / (1 - rho) := by
  have h1 : (1 - rho • W) *ᵥ (fun _ => (1 : ℝ)) = fun _ => 1 - rho := by
    funext i
    rw [sub_mulVec, one_mulVec, smul_mulVec]
    simp [mulVec, dotProduct, hrow]
  have h2 : B *ᵥ ((1 - rho • W) *ᵥ (fun _ => (1 : ℝ))) = fun _ => 1 := by
    rw [mulVec_mulVec, hB, one_mulVec]
  rw [h1] at h2
  have := congrFun h2 i
  simp only [mulVec, dotProduct, ← Finset.sum_mul] at this
  rw [eq_div_iff hr]; exact this

/-- C31: for row-standardised weights the method "full" reports the average over locations of the row sum of
`(I - rho W)^-1` as total, of its diagonal as direct and of its off-diagonal row sum as indirect multiplier. -/
theorem C31_full [Nonempty n] (W : Matrix n n ℝ) (hrow : ∀ i, ∑ j, W i j = 1) (rho mtol : ℝ) (fuel : ℕ)
    (m : Mult) (h : spmultiplier W rho .full mtol fuel = .ok m) :
    ∃ B : Matrix n n ℝ, B * (1 - rho • W) = 1 ∧
      m.ati = (∑ i, ∑ j, B i j) / Fintype.card n ∧ m.adi = (∑ i, B i i) / Fintype.card n ∧
      m.aii = (∑ i, ∑ j ∈ Finset.univ.erase i, B i j) / Fintype.card n := by
  have hp := C31_partition W rho .full mtol fuel m h
  have h1 : (1.0 : ℝ) = 1 := by norm_num
  unfold spmultiplier at h
  rw [h1] at h
  by_cases hz : 1 - rho = 0
  · simp [hz] at h
  · simp only [hz, if_false] at h
    split at h
    · rename_i B hB
      cases h
      obtain ⟨_, _, _, hBA⟩ := inv?_eq_some hB
      have hrs := rowsum_inv hrow hBA hz
      have hn : (Fintype.card n : ℝ) ≠ 0 := by exact_mod_cast Fintype.card_ne_zero
      have hati : 1 / (1 - rho) = (∑ i, ∑ j, B i j) / Fintype.card n := by
        simp only [hrs, Finset.sum_const, Finset.card_univ, nsmul_eq_mul]
        field_simp
      refine ⟨B, hBA, hati, rfl, ?_⟩
      simp only
      rw [hati, ← sub_div, ← Finset.sum_sub_distrib]
      congr 1
      refine Finset.sum_congr rfl fun i _ => ?_
      rw [← Finset.add_sum_erase _ _ (Finset.mem_univ i)]; ring
    · cases h

theorem powerAdi_inv (W : Matrix n n ℝ) (rho mtol : ℝ) : ∀ (fuel p : ℕ) (adi diff : ℝ) (r : ℝ × ℕ),
    powerAdi W rho mtol fuel (W ^ p) (rho ^ p) p adi diff = some r →
    p ≤ r.2 ∧ r.1 = adi + ∑ k ∈ Finset.Ioc p r.2, rho ^ k * trace (W ^ k) / Fintype.card n ∧
      (r.2 = p → diff ≤ mtol) ∧
      (p < r.2 → rho ^ r.2 * trace (W ^ r.2) / Fintype.card n ≤ mtol ∧ mtol < diff) ∧
      (∀ k, p < k → k < r.2 → mtol < rho ^ k * trace (W ^ k) / Fintype.card n) := by
  intro fuel
  induction fuel with
  | zero =>
    intro p adi diff r h
    unfold powerAdi at h
    by_cases hd : mtol < diff
    · rw [if_pos hd] at h; cases h
    · rw [if_neg hd] at h; cases h
      refine ⟨le_refl _, by simp, fun _ => not_lt.1 hd, fun h => absurd h (lt_irrefl _), fun k h1 h2 => by
        simp only at h2; omega⟩
  | succ fuel ih =>
    intro p adi diff r h
    unfold powerAdi at h
    by_cases hd : mtol < diff
    · rw [if_pos hd] at h
      simp only [← pow_succ] at h
      obtain ⟨h1, h2, h3, h4, h5⟩ := ih (p + 1) _ _ r h
      refine ⟨by omega, ?_, fun hh => by omega, fun _ => ⟨?_, hd⟩, ?_⟩
      · rw [h2, ← Finset.insert_Ioc_add_one_left_eq_Ioc (show p < r.2 by omega),
          Finset.sum_insert (by simp)]
        ring
      · by_cases hr : r.2 = p + 1
        · rw [hr]; exact h3 hr
        · exact (h4 (by omega)).1
      · intro k hk1 hk2
        by_cases hk : k = p + 1
        · subst hk; exact (h4 hk2).2
        · exact h5 k (by omega) hk2
    · rw [if_neg hd] at h; cases h
      refine ⟨le_refl _, by simp, fun _ => not_lt.1 hd, fun h => absurd h (lt_irrefl _), fun k h1 h2 => by
        simp only at h2; omega⟩

/-- C31: for weights without self-neighbours the method "power" reports the partial sum of the trace series
`(1/n) (n + rho tr W + rho^2 tr W^2 + ...)` up to the power it reports; it stops at the first power from 2 on
whose (signed) term is at most the tolerance. -/
theorem C31_power_partial [Nonempty n] (W : Matrix n n ℝ) (hdiag : ∀ i, W i i = 0) (rho mtol : ℝ)
    (hm : mtol < 100) (fuel : ℕ) (m : Mult) (h : spmultiplier W rho .power mtol fuel = .ok m) :
    m.adi = ∑ k ∈ Finset.range (m.pow + 1), rho ^ k * trace (W ^ k) / Fintype.card n ∧ 2 ≤ m.pow ∧
      rho ^ m.pow * trace (W ^ m.pow) / Fintype.card n ≤ mtol ∧
      ∀ k, 2 ≤ k → k < m.pow → mtol < rho ^ k * trace (W ^ k) / Fintype.card n := by
  have h1 : (1.0 : ℝ) = 1 := by norm_num
  unfold spmultiplier at h
  rw [h1] at h
  by_cases hz : 1 - rho = 0
  · simp [hz] at h
  · simp only [hz, if_false] at h
    split at h
    · rename_i adi pow hp
      cases h
      have hinv := powerAdi_inv W rho mtol fuel 1 1 100.00 (adi, pow) (by simpa using hp)
      simp only at hinv
      obtain ⟨i1, i2, i3, i4, i5⟩ := hinv
      have hp1 : 1 < pow := by
        rcases Nat.lt_or_ge 1 pow with hh | hh
        · exact hh
        · have := i3 (by omega); norm_num at this; linarith
      refine ⟨?_, hp1, (i4 hp1).1, fun k hk1 hk2 => i5 k hk1 hk2⟩
      simp only
      rw [i2]
      have htr : trace W = 0 := by simp [trace, hdiag]
      have hn : (Fintype.card n : ℝ) ≠ 0 := by exact_mod_cast Fintype.card_ne_zero
      have e : Finset.range (pow + 1) = insert 0 (insert 1 (Finset.Ioc 1 pow)) := by
        ext k; simp only [Finset.mem_range, Finset.mem_insert, Finset.mem_Ioc]; omega
      rw [e, Finset.sum_insert (by simp), Finset.sum_insert (by simp)]
      simp [htr, hn]
    · cases h

/-- C31, defect: with two mutual neighbours the traces of the odd powers vanish, so the power method stops at
power 3 and reports `1 + rho^2`, while the exact average direct multiplier is `1/(1-rho^2)`: the error
`rho^4/(1-rho^2)` does not depend on the tolerance. -/
theorem C31_power_violated (rho mtol : ℝ) (hr : rho < 1) (hr1 : -1 < rho) (h0 : 0 ≤ mtol)
    (hm : mtol < rho ^ 2) (fuel : ℕ) (hf : 2 ≤ fuel) :
    let W : Matrix (Fin 2) (Fin 2) ℝ := !![0, 1; 1, 0]
    ∃ mp mf, spmultiplier W rho .power mtol fuel = .ok mp ∧ spmultiplier W rho .full mtol fuel = .ok mf ∧
      mp.adi = 1 + rho ^ 2 ∧ mp.pow = 3 ∧ mf.adi = 1 / (1 - rho ^ 2) ∧
      mf.adi - mp.adi = rho ^ 4 / (1 - rho ^ 2) := by
  intro W
  have h1 : (1.0 : ℝ) = 1 := by norm_num
  have hz : ¬ (1 - rho = 0) := by intro h; linarith
  have hpos : 0 < 1 - rho ^ 2 := by nlinarith
  have hW2 : W * W = 1 := by
    ext i j; fin_cases i <;> fin_cases j <;> simp [W, Matrix.mul_apply, Fin.sum_univ_two]
  have hpow : powerAdi W rho mtol fuel W rho 1 1.0 100.00 = some (1 + rho ^ 2, 3) := by
    obtain ⟨f, rfl⟩ : ∃ f, fuel = f + 2 := ⟨fuel - 2, by omega⟩
    unfold powerAdi
    have hc : (mtol < 100.00) := by norm_num; nlinarith
    rw [if_pos hc]
    simp only [hW2]
    have ht : rho * rho * trace (1 : Matrix (Fin 2) (Fin 2) ℝ) / (Fintype.card (Fin 2) : ℝ) = rho ^ 2 := by
      simp [trace]; ring
    rw [ht]
    unfold powerAdi
    rw [if_pos hm]
    have htW : trace ((1 : Matrix (Fin 2) (Fin 2) ℝ) * W) = 0 := by simp [trace, W, Fin.sum_univ_two]
    simp only [htW, mul_zero, zero_div, add_zero]
    cases f <;> simp [powerAdi, not_lt.2 h0, h1]
  have hinv : inv? (1 - rho • W) = some ((1 - rho ^ 2)⁻¹ • (1 + rho • W)) := by
    have hmul : (1 - rho • W) * ((1 - rho ^ 2)⁻¹ • (1 + rho • W)) = 1 := by
      rw [mul_smul_comm, sub_mul, mul_add, mul_add]
      simp only [Matrix.one_mul, Matrix.mul_one, smul_mul_assoc, mul_smul_comm, hW2, smul_smul]
      have : (1 : Matrix (Fin 2) (Fin 2) ℝ) + rho • W - (rho • W + (rho * rho) • 1) = (1 - rho ^ 2) • 1 := by
        rw [sub_smul, one_smul, pow_two]; abel
      rw [this, smul_smul, inv_mul_cancel₀ hpos.ne', one_smul]
    have hu : IsUnit (1 - rho • W).det := isUnit_det_of_right_inverse hmul
    rw [inv?_of_isUnit hu, inv_eq_right_inv hmul]
  have hadi : (∑ j : Fin 2, ((1 - rho ^ 2)⁻¹ • (1 + rho • W) : Matrix (Fin 2) (Fin 2) ℝ) j j) / (Fintype.card (Fin 2) : ℝ)
      = 1 / (1 - rho ^ 2) := by
    simp [Fin.sum_univ_two, W]
  refine ⟨⟨1 / (1 - rho), 1 + rho ^ 2, 1 / (1 - rho) - (1 + rho ^ 2), 3, .power, false⟩,
    ⟨1 / (1 - rho), 1 / (1 - rho ^ 2), 1 / (1 - rho) - 1 / (1 - rho ^ 2), 0, .full, false⟩, ?_, ?_, rfl, rfl,
    rfl, ?_⟩
  · unfold spmultiplier
    simp only [hpow]
    simp [h1, hz]
  · unfold spmultiplier
    simp only [hinv]
    rw [hadi]
    simp [h1, hz]
  · simp only
    field_simp
    ring

/-- C31: total effects are direct plus indirect effects, variable by variable. -/
theorem C31_effects (m : Mult) (h : m.ati = m.adi + m.aii) (betas : List ℝ) :
    let e := spEffects m betas
    e.1.length = betas.length ∧ List.zipWith (· + ·) e.2.1 e.2.2 = e.1 ∧
      ∀ (i : ℕ) (hi : i < betas.length), e.1[i]? = some (m.ati * betas[i]) := by
  refine ⟨by simp [spEffects], ?_, ?_⟩
  · simp only [spEffects]
    induction betas with
    | nil => rfl
    | cons b t ih => simp [h, add_mul] at ih ⊢
  · intro i hi; simp [spEffects, hi]

/-! #### effects with spatially lagged regressors -/

theorem addBlock_length (ati : ℝ) : ∀ (l : List (ℕ × ℝ)) (t : List ℝ),
    (l.foldl (fun t p => t.set p.1 (t.getD p.1 0 + ati * p.2)) t).length = t.length := by
  intro l
  induction l with
  | nil => intro t; rfl
  | cons p l ih => intro t; rw [List.foldl_cons, ih, List.length_set]

theorem addBlock_other (ati : ℝ) : ∀ (l : List (ℕ × ℝ)) (t : List ℝ) (v : ℕ), v ∉ l.map (·.1) →
    (l.foldl (fun t p => t.set p.1 (t.getD p.1 0 + ati * p.2)) t).getD v 0 = t.getD v 0 := by
  intro l
  induction l with
  | nil => intro t v _; rfl
  | cons p l ih =>
    intro t v hv
    simp only [List.map_cons, List.mem_cons, not_or] at hv
    rw [List.foldl_cons, ih _ _ hv.2]
    simp only [List.getD_eq_getElem?_getD]
    rw [List.getElem?_set_ne (Ne.symm hv.1)]

theorem addBlock_get (ati : ℝ) : ∀ (xind : List ℕ) (block : List ℝ) (t : List ℝ), xind.Nodup →
    xind.length = block.length → (∀ v ∈ xind, v < t.length) → ∀ (r : ℕ) (hr : r < xind.length),
    (addBlock ati t xind block).getD xind[r] 0 = t.getD xind[r] 0 + ati * block.getD r 0 := by
  intro xind
  induction xind with
  | nil => intro block t _ _ _ r hr; simp at hr
  | cons a l ih =>
    intro block t hnd hlen hlt r hr
    cases block with
    | nil => simp at hlen
    | cons b bl =>
      rw [List.nodup_cons] at hnd
      simp only [List.length_cons, Nat.add_right_cancel_iff] at hlen
      have hz : (l.zip bl).map (·.1) = l := List.map_fst_zip hlen.le
      unfold addBlock at ih ⊢
      rw [List.zip_cons_cons, List.foldl_cons]
      cases r with
      | zero =>
        simp only [List.getElem_cons_zero, List.getD_cons_zero]
        rw [addBlock_other _ _ _ _ (by rw [hz]; exact hnd.1)]
        have := hlt a (by simp)
        simp only [List.getD_eq_getElem?_getD]
        rw [List.getElem?_set_self this]; rfl
      | succ r =>
        have hr' : r < l.length := by simpa using hr
        simp only [List.getElem_cons_succ, List.getD_cons_succ]
        rw [ih bl _ hnd.2 hlen (fun v hv => by rw [List.length_set]; exact hlt v (by simp [hv])) r hr']
        congr 1
        have hne : a ≠ l[r] := fun h => hnd.1 (h ▸ List.getElem_mem hr')
        simp only [List.getD_eq_getElem?_getD]
        rw [List.getElem?_set_ne hne]

theorem xind_eq : ∀ (mask : List Bool) (off : ℕ),
    ((List.range' off mask.length).zip mask).filterMap (fun p => if p.2 then some p.1 else none)
      = (List.range' off mask.length).filter fun v => mask[v - off]? = some true := by
  intro mask
  induction mask with
  | nil => intro off; rfl
  | cons b t ih =>
    intro off
    rw [List.length_cons, List.range'_succ, List.zip_cons_cons, List.filterMap_cons, List.filter_cons]
    have htail : (List.range' (off + 1) t.length).filter (fun v => (b :: t)[v - off]? = some true)
        = (List.range' (off + 1) t.length).filter fun v => t[v - (off + 1)]? = some true := by
      apply List.filter_congr
      intro v hv
      rw [List.mem_range'_1] at hv
      rw [show v - off = (v - (off + 1)) + 1 by omega]
      simp
    rw [htail, ih]
    cases b <;> simp

/-- C31: effects with spatially lagged regressors: the total effect of a regressor is `ati` times the sum of its
coefficient and of the coefficients of its own lags (of every order); for a regressor that is not lagged it
is `ati` times its coefficient. `sel` lists the lagged regressors; the coefficients of the lags come in
`slx_lags` blocks of `sel.length`. The indirect effect is the total minus the direct effect. -/
theorem C31_slx_effects (m : Mult) (betas wx : List ℝ) (slxLags : ℕ) (mask : List Bool) (hL : 0 < slxLags)
    (hmask : mask.length = betas.length) (sel : List ℕ)
    (hsel : sel = (List.range betas.length).filter fun v => mask[v]? = some true)
    (hwx : wx.length = slxLags * sel.length) :
    let e := spEffectsSLX m betas wx slxLags mask
    e.1.length = betas.length ∧
    (∀ (r : ℕ) (hr : r < sel.length), e.1.getD sel[r] 0 =
      m.ati * (betas.getD sel[r] 0 + ∑ i ∈ Finset.range slxLags, wx.getD (i * sel.length + r) 0)) ∧
    (∀ v < betas.length, v ∉ sel → e.1.getD v 0 = m.ati * betas.getD v 0) ∧
    e.2.1 = betas.map (m.adi * ·) ∧ e.2.2 = List.zipWith (· - ·) e.1 e.2.1 := by
  intro e
  have hx : ((List.range betas.length).zip mask).filterMap (fun p => if p.2 then some p.1 else none) = sel := by
    have := xind_eq mask 0
    rw [← List.range_eq_range', hmask] at this
    simpa [hsel] using this
  have hchunk : wx.length / slxLags = sel.length := by
    rw [hwx, Nat.mul_div_cancel_left _ hL]
  have hnd : sel.Nodup := by rw [hsel]; exact List.nodup_range.filter _
  have hlt : ∀ v ∈ sel, v < betas.length := by
    intro v hv; rw [hsel] at hv; simpa using (List.mem_filter.1 hv).1
  have he : e.1 = (List.range slxLags).foldl
      (fun t i => addBlock m.ati t sel ((wx.drop (i * sel.length)).take sel.length)) (betas.map (m.ati * ·)) := by
    simp only [e, spEffectsSLX]
    rw [hx, hchunk]
  have key : ∀ L ≤ slxLags, ∀ T, T = (List.range L).foldl
      (fun t i => addBlock m.ati t sel ((wx.drop (i * sel.length)).take sel.length)) (betas.map (m.ati * ·)) →
      T.length = betas.length ∧
      (∀ (r : ℕ) (hr : r < sel.length), T.getD sel[r] 0 =
        m.ati * (betas.getD sel[r] 0 + ∑ i ∈ Finset.range L, wx.getD (i * sel.length + r) 0)) ∧
      (∀ v < betas.length, v ∉ sel → T.getD v 0 = m.ati * betas.getD v 0) := by
    intro L
    induction L with
    | zero =>
      intro _ T hT
      simp only [List.range_zero, List.foldl_nil] at hT
      subst hT
      refine ⟨by simp, ?_, ?_⟩
      · intro r hr
        have := hlt _ (List.getElem_mem hr)
        simp [List.getD_eq_getElem?_getD, this]
      · intro v hv _; simp [List.getD_eq_getElem?_getD, hv]
    | succ L ih =>
      intro hle T hT
      rw [List.range_succ, List.foldl_append, List.foldl_cons, List.foldl_nil] at hT
      obtain ⟨h1, h2, h3⟩ := ih (by omega) _ rfl
      set T0 := (List.range L).foldl
        (fun t i => addBlock m.ati t sel ((wx.drop (i * sel.length)).take sel.length)) (betas.map (m.ati * ·))
      have hbl : sel.length = ((wx.drop (L * sel.length)).take sel.length).length := by
        rw [List.length_take, List.length_drop, hwx]
        have : (L + 1) * sel.length ≤ slxLags * sel.length := Nat.mul_le_mul_right _ hle
        rw [Nat.add_mul] at this
        omega
      refine ⟨by rw [hT, addBlock, addBlock_length, h1], ?_, ?_⟩
      · intro r hr
        rw [hT, addBlock_get m.ati sel _ T0 hnd hbl (by rw [h1]; exact hlt) r hr, h2 r hr,
          Finset.sum_range_succ]
        have : ((wx.drop (L * sel.length)).take sel.length).getD r 0 = wx.getD (L * sel.length + r) 0 := by
          simp only [List.getD_eq_getElem?_getD]
          rw [List.getElem?_take_of_lt hr, List.getElem?_drop]
        rw [this]; ring
      · intro v hv hvs
        rw [hT, addBlock, addBlock_other _ _ _ _ (by rw [List.map_fst_zip hbl.le]; exact hvs), h3 v hv hvs]
  obtain ⟨k1, k2, k3⟩ := key slxLags (le_refl _) e.1 he
  exact ⟨k1, k2, k3, rfl, rfl⟩

/-- Non-vacuity for the SLX effects: two regressors, only the second lagged, two orders. -/
example : (spEffectsSLX ⟨2, 1, 1, 0, .simple, false⟩ [3, 5] [7, 11] 2 [false, true]).1 = [6, 46] := by
  simp [spEffectsSLX, addBlock, List.range_succ]; norm_num

/-! ### C32 -/

/-- C32: in the lag model the table contains, for `M = (I - rho W)^-1`, the diagonal, the off-diagonal row sum
and the off-diagonal column sum; direct plus effect of neighbours is the row sum of `M`; over all locations
the effects of and on neighbours have the same total; for row-standardised weights every location's total is
`1/(1-rho)`. -/
theorem C32_lag (W : Matrix n n ℝ) (rho : ℝ) (t : n → Impact) (h : iMultipliers W rho .lag = .ok t) :
    ∃ M : Matrix n n ℝ, (1 - rho • W) * M = 1 ∧ M * (1 - rho • W) = 1 ∧
      (∀ i, (t i).direct = M i i) ∧ (∀ i, (t i).eofNbrs = ∑ j ∈ Finset.univ.erase i, M i j) ∧
      (∀ i, (t i).eonNbrs = ∑ j ∈ Finset.univ.erase i, M j i) ∧
      (∀ i, (t i).direct + (t i).eofNbrs = ∑ j, M i j) ∧
      (∑ i, (t i).eofNbrs = ∑ i, (t i).eonNbrs) ∧
      ((∀ i, ∑ j, W i j = 1) → rho ≠ 1 → ∀ i, (t i).direct + (t i).eofNbrs = 1 / (1 - rho)) := by
  unfold iMultipliers at h
  simp only at h
  split at h
  · rename_i M hM
    cases h
    obtain ⟨_, _, h1, h2⟩ := inv?_eq_some hM
    have hz : ∀ i, ∑ j, zeroDiag M i j = ∑ j ∈ Finset.univ.erase i, M i j := by
      intro i
      rw [← Finset.add_sum_erase _ _ (Finset.mem_univ i)]
      simp only [zeroDiag, of_apply, if_true, zero_add]
      exact Finset.sum_congr rfl fun j hj => by rw [if_neg (Finset.ne_of_mem_erase hj).symm]
    have hz' : ∀ i, ∑ j, zeroDiag M j i = ∑ j ∈ Finset.univ.erase i, M j i := by
      intro i
      rw [← Finset.add_sum_erase _ _ (Finset.mem_univ i)]
      simp only [zeroDiag, of_apply, if_true, zero_add]
      exact Finset.sum_congr rfl fun j hj => by rw [if_neg (Finset.ne_of_mem_erase hj)]
    have hd : ∀ i, M i i + ∑ j, zeroDiag M i j = ∑ j, M i j := by
      intro i; rw [hz, Finset.add_sum_erase _ _ (Finset.mem_univ i)]
    refine ⟨M, h1, h2, fun i => rfl, hz, hz', hd, ?_, ?_⟩
    · simp only [impactRows]
      rw [Finset.sum_comm]
    · intro hrow hr i
      simp only [impactRows]
      rw [hd i, rowsum_inv hrow h2 (sub_ne_zero.2 (Ne.symm hr))]
  · cases h

/-- C32: kernel weights: the diagonal is the direct effect; SLX: no direct effect; in both, direct plus effect
of neighbours is the row sum of the weights and the totals of both columns agree when the diagonal is zero. -/
theorem C32_kernel_slx (W : Matrix n n ℝ) (coef : ℝ) :
    (∃ t, iMultipliers W coef .kernel = .ok t ∧ (∀ i, (t i).direct = W i i) ∧
      (∀ i, (t i).direct + (t i).eofNbrs = ∑ j, W i j) ∧ ∑ i, (t i).eofNbrs = ∑ i, (t i).eonNbrs) ∧
    (∃ t, iMultipliers W coef .slx = .ok t ∧ (∀ i, (t i).direct = 0) ∧
      (∀ i, (t i).eofNbrs = ∑ j, W i j) ∧ (∀ i, (t i).eonNbrs = ∑ j, W j i) ∧
      ∑ i, (t i).eofNbrs = ∑ i, (t i).eonNbrs) := by
  refine ⟨⟨_, rfl, fun i => rfl, fun i => ?_, ?_⟩, ⟨_, rfl, fun i => rfl, fun i => rfl, fun i => rfl, ?_⟩⟩
  · simp only [impactRows]
    rw [← Finset.add_sum_erase _ _ (Finset.mem_univ i), ← Finset.add_sum_erase _ (fun j => W i j) (Finset.mem_univ i)]
    simp only [zeroDiag, of_apply, if_true, zero_add]
    congr 1
    exact Finset.sum_congr rfl fun j hj => by rw [if_neg (Finset.ne_of_mem_erase hj).symm]
  · simp only [impactRows]; rw [Finset.sum_comm]
  · simp only [impactRows]; rw [Finset.sum_comm]

/-- Non-vacuity for C31/C32: two mutual neighbours. -/
example : ∃ t, iMultipliers (!![0, 1; 1, 0] : Matrix (Fin 2) (Fin 2) ℝ) (1/2) .lag = .ok t := by
  have hu : IsUnit (1 - (1/2 : ℝ) • (!![0, 1; 1, 0] : Matrix (Fin 2) (Fin 2) ℝ)).det := by
    rw [isUnit_iff_ne_zero, det_fin_two]; norm_num
  refine ⟨impactRows (fun i => (1 - (1/2 : ℝ) • (!![0, 1; 1, 0] : Matrix (Fin 2) (Fin 2) ℝ))⁻¹ i i)
    (zeroDiag (1 - (1/2 : ℝ) • (!![0, 1; 1, 0] : Matrix (Fin 2) (Fin 2) ℝ))⁻¹), ?_⟩
  unfold iMultipliers
  rw [inv?_of_isUnit hu]

/-! ### C34 -/

/-- C34: with the coefficient inside (-1, 1), a reduced-form prediction that is returned solves
`p - rho W p = x*beta` up to the remainder `rho^(m+1) W^(m+1) x*beta` of the expansion, whose last term has norm
at most 1e-10 unless the bound of 10^7 terms was reached; the reduced-form residual is `y - p`; no warning. -/
theorem C34_inside (W : Matrix n n ℝ) (y xb w_y : n → ℝ) (rho : ℝ) (hb : Bool) (hr : |rho| < 1)
    (r : (n → ℝ) × (n → ℝ) × Bool) (h : spAtt W y (xb + rho • w_y) w_y rho hb = .ok r) :
    r.2.2 = false ∧ r.2.1 = y - r.1 ∧ ∃ m, r.1 = partialSum W rho xb m ∧
      r.1 - rho • (W *ᵥ r.1) = xb - term W rho xb (m + 1) ∧
      (norm2 (term W rho xb m) ≤ 0.0000000001 ∨ m = 10000000) := by
  unfold spAtt at h
  simp only [hr, if_true, add_sub_cancel_right] at h
  unfold inverseProd at h
  simp only at h
  cases hp : powerExpansion W xb rho false defThreshold none with
  | error e => rw [hp] at h; cases h
  | ok p =>
    rw [hp] at h; cases h
    obtain ⟨m, _, h1, h2, h3, _⟩ := C30_partial_sum W xb rho defThreshold none (by norm_num [defThreshold]) p hp
    exact ⟨rfl, rfl, m, h1, h2, h3⟩

/-- C34: with row-standardised weights the prediction is within 1e-10 |rho|/(1-|rho|) of the exact reduced form
at every location (when the bound of 10^7 terms is not reached). -/
theorem C34_accuracy (W : Matrix n n ℝ) (hW : SubStochastic W) (y xb w_y : n → ℝ) (rho : ℝ) (hb : Bool)
    (hr : |rho| < 1) (r : (n → ℝ) × (n → ℝ) × Bool) (h : spAtt W y (xb + rho • w_y) w_y rho hb = .ok r)
    (hconv : r.1 ≠ partialSum W rho xb 10000000) (z : n → ℝ) (hz : z = rho • (W *ᵥ z) + xb) (i : n) :
    |r.1 i - z i| ≤ |rho| * 0.0000000001 / (1 - |rho|) := by
  unfold spAtt at h
  simp only [hr, if_true, add_sub_cancel_right] at h
  unfold inverseProd at h
  simp only at h
  cases hp : powerExpansion W xb rho false defThreshold none with
  | error e => rw [hp] at h; cases h
  | ok p =>
    rw [hp] at h; cases h
    exact C30_error_bound W hW xb rho defThreshold hr none (by norm_num [defThreshold]) p hp hconv z hz i

/-- C34: outside (-1, 1) no prediction is made: zeros with a warning, or an exception with `hard_bound`. -/
theorem C34_outside (W : Matrix n n ℝ) (y predy w_y : n → ℝ) (rho : ℝ) (hr : 1 ≤ |rho|) :
    spAtt W y predy w_y rho false = .ok (0, 0, true) ∧ spAtt W y predy w_y rho true = .error .exception := by
  unfold spAtt
  simp [not_lt.2 hr]

/-- C34: the exact inverse, when it exists, gives the exact reduced form; when `I - rho W` is singular the
call fails with AttributeError (the handler asks a `W` object for its shape). -/
theorem C34_true_inv (W : Matrix n n ℝ) (x : n → ℝ) (rho thr : ℝ) (mi : Option ℕ) :
    (∀ s, inverseProd W x rho false .trueInv thr mi = .ok s → s = rho • (W *ᵥ s) + x) ∧
    (¬ IsUnit (1 - rho • W).det → inverseProd W x rho false .trueInv thr mi = .error .attributeError) := by
  constructor
  · intro s h
    unfold inverseProd at h
    simp only at h
    split at h
    · rename_i M hM
      cases h
      obtain ⟨_, _, h1, _⟩ := inv?_eq_some hM
      simp only [Bool.false_eq_true, if_false]
      have : (1 - rho • W) *ᵥ (M *ᵥ x) = x := by rw [mulVec_mulVec, h1, one_mulVec]
      rw [sub_mulVec, one_mulVec, smul_mulVec] at this
      rw [← sub_eq_iff_eq_add']; exact this
    · cases h
  · intro hu
    unfold inverseProd inv?
    simp only [hu, if_false]

end Spreg.Impacts
