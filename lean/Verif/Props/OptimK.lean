import Verif.Model.OptimK
import Mathlib.Tactic.FieldSimp
import Mathlib.Tactic.Ring
import Mathlib.Tactic.Linarith
import Mathlib.Tactic.Positivity
import Mathlib.Algebra.BigOperators.Group.List.Basic
/-
C64: the number of regimes chosen from the trace.
-/
namespace Spreg.OptK

theorem go_range (t : List ℝ) (w fuel i : ℕ) : i ≤ go t w fuel i ∧ go t w fuel i ≤ i + fuel ∧
    (0 < fuel → i + 1 ≤ go t w fuel i) := by
  induction fuel generalizing i with
  | zero => simp [go]
  | succ n ih =>
    unfold go
    split_ifs
    · obtain ⟨h1, h2, -⟩ := ih (i + 1)
      exact ⟨by omega, by omega, fun _ => by omega⟩
    · exact ⟨by omega, by omega, fun _ => le_rfl⟩

theorem window_le (N : ℕ) : window N none ≤ N := by
  unfold window; simp only; split_ifs <;> omega

/-- C64: with the default window the call succeeds on every nonempty trace, and the answer lies between the window
and the length of the trace (so at least 1). -/
theorem C64_default (t : List ℝ) (h : t ≠ []) :
    ∃ k, optimK t none = .ok k ∧ window t.length none ≤ k ∧ k ≤ t.length ∧ 1 ≤ k := by
  have hlen : 0 < t.length := List.length_pos_iff.2 h
  have hw := window_le t.length
  have hw1 : ¬ (window t.length none = 1 ∧ 1 < t.length) := by
    unfold window; simp only; split_ifs <;> omega
  obtain ⟨h1, h2, h3⟩ := go_range t (window t.length none) (t.length - window t.length none) 0
  refine ⟨_, by unfold optimK; simp only; rw [if_neg (by omega), if_neg hw1], by omega, by omega, ?_⟩
  rcases Nat.eq_zero_or_pos (t.length - window t.length none) with h4 | h4
  · omega
  · have := h3 h4; omega

/-- C64: with a window of at least 2 that fits in the trace the answer lies between the window and the length of the
trace. -/
theorem C64_window_partial (t : List ℝ) (w : ℕ) (hw : 2 ≤ w) (hn : w ≤ t.length) :
    ∃ k, optimK t (some w) = .ok k ∧ w ≤ k ∧ k ≤ t.length := by
  have e : window t.length (some w) = w := by
    obtain ⟨v, rfl⟩ : ∃ v, w = v + 1 := ⟨w - 1, by omega⟩
    rfl
  obtain ⟨h1, h2, -⟩ := go_range t w (t.length - w) 0
  refine ⟨_, by unfold optimK; simp only [e]; rw [if_neg (by omega), if_neg (by omega)], by omega, by omega⟩

/-- C64 fails for a window larger than the trace: the answer exceeds the number of recorded steps. -/
theorem C64_large_window_violated (t : List ℝ) (w : ℕ) (h : t ≠ []) (hn : t.length < w) :
    optimK t (some w) = .ok w := by
  have hlen : 0 < t.length := List.length_pos_iff.2 h
  have e : window t.length (some w) = w := by
    obtain ⟨v, rfl⟩ : ∃ v, w = v + 1 := ⟨w - 1, by omega⟩
    rfl
  unfold optimK
  simp only [e]
  rw [if_neg (by omega), if_neg (by omega), show t.length - w = 0 by omega]
  simp [go]

/-- C64 fails for a window of one: `ZeroDivisionError` for every trace with two entries or more. -/
theorem C64_window_one_violated (t : List ℝ) (h : 1 < t.length) : optimK t (some 1) = .error .zeroDivision := by
  unfold optimK
  simp only [window]
  rw [if_neg (by omega), if_pos (by simpa using h)]

/-! ### Units -/

theorem slice_map (c : ℝ) (t : List ℝ) (a b : ℕ) : slice (t.map (c * ·)) a b = (slice t a b).map (c * ·) := by
  simp [slice, List.map_take, List.map_drop]

theorem sum_map_mul (c : ℝ) (l : List ℝ) : (l.map (c * ·)).sum = c * l.sum := by
  induction l with
  | nil => simp
  | cons a l ih => simp only [List.map_cons, List.sum_cons, ih]; ring

theorem mean_map (c : ℝ) (l : List ℝ) : mean (l.map (c * ·)) = c * mean l := by
  unfold mean; rw [sum_map_mul, List.length_map]; ring

theorem std_map {c : ℝ} (hc : 0 ≤ c) (l : List ℝ) : std (l.map (c * ·)) = c * std l := by
  unfold std
  rw [mean_map]
  have : (l.map (c * ·)).map (fun x => (x - c * mean l) ^ 2)
      = (l.map fun x => (x - mean l) ^ 2).map ((c ^ 2) * ·) := by
    rw [List.map_map, List.map_map]
    apply List.map_congr_left
    intro x _
    simp only [Function.comp]
    ring
  rw [this, mean_map, Real.sqrt_mul (by positivity), Real.sqrt_sq hc]

theorem zip_map (c : ℝ) (a : List ℕ) (l : List ℝ) :
    (List.zipWith (fun (j : ℕ) x => (j : ℝ) * x) a (l.map (c * ·))).sum
      = c * (List.zipWith (fun (j : ℕ) x => (j : ℝ) * x) a l).sum := by
  induction a generalizing l with
  | nil => simp
  | cons j a ih =>
    cases l with
    | nil => simp
    | cons x l => simp only [List.map_cons, List.zipWith_cons_cons, List.sum_cons, ih]; ring

theorem coefB_map (c : ℝ) (t : List ℝ) (w i : ℕ) : coefB (t.map (c * ·)) w i = c * coefB t w i := by
  unfold coefB
  rw [slice_map, zip_map, sum_map_mul]
  ring

theorem cond_map {c : ℝ} (hc : 0 < c) (t : List ℝ) (w i : ℕ) : cond (t.map (c * ·)) w i ↔ cond t w i := by
  unfold cond
  rw [slice_map, std_map hc.le, sum_map_mul, coefB_map]
  have e : (t.map (c * ·)).getD (i + w) 0 = c * t.getD (i + w) 0 := by
    rw [List.getD_eq_getElem?_getD, List.getD_eq_getElem?_getD, List.getElem?_map]
    cases t[i + w]? <;> simp
  rw [e]
  have e2 : c * (slice t i (i + w)).sum / w - c * coefB t w i - ((w : ℝ) - 1) * (c * coefB t w i) / 2
      - 2.75 * (c * std (slice t i (i + w)))
      = c * ((slice t i (i + w)).sum / w - coefB t w i - ((w : ℝ) - 1) * coefB t w i / 2
      - 2.75 * std (slice t i (i + w))) := by ring
  rw [e2]
  exact mul_lt_mul_iff_right₀ hc

/-- C64: the answer does not depend on the unit in which the sums of squares are measured. -/
theorem C64_units (c : ℝ) (hc : 0 < c) (t : List ℝ) (win : Option ℕ) :
    optimK (t.map (c * ·)) win = optimK t win := by
  have hgo : ∀ w fuel i, go (t.map (c * ·)) w fuel i = go t w fuel i := by
    intro w fuel
    induction fuel with
    | zero => intro i; rfl
    | succ n ih =>
      intro i
      unfold go
      rw [ih]
      by_cases h : cond t w i
      · rw [if_pos h, if_pos ((cond_map hc t w i).2 h)]
      · rw [if_neg h, if_neg (mt (cond_map hc t w i).1 h)]
  unfold optimK
  simp only [List.length_map, hgo]

/-! ### The trend coefficient -/

/-- Least-squares slope of the values `x` over the positions `1, ..., x.length` (specification). -/
noncomputable def lsSlope (x : List ℝ) : ℝ :=
  let n : ℝ := x.length
  (n * (List.zipWith (fun (j : ℕ) v => (j : ℝ) * v) ((List.range x.length).map (· + 1)) x).sum
    - (n * (n + 1) / 2) * x.sum) / (n * (n * (n + 1) * (2 * n + 1) / 6) - (n * (n + 1) / 2) ^ 2)

/-- C64: at step `w - 1` the coefficient is the least-squares slope of the current window. -/
theorem C64_slope_partial (t : List ℝ) (w : ℕ) (hw : 2 ≤ w) (hn : 2 * w ≤ t.length + 1) :
    coefB t w (w - 1) = lsSlope (slice t (w - 1) ((w - 1) + w)) := by
  have hl : (slice t (w - 1) (w - 1 + w)).length = w := by
    simp [slice]; omega
  unfold coefB lsSlope
  simp only [hl]
  rw [show w - 1 + 1 = w by omega]
  generalize (List.zipWith (fun (j : ℕ) (x : ℝ) => (j : ℝ) * x) ((List.range w).map (· + 1)) (slice t (w - 1) (w - 1 + w))).sum = A
  generalize (slice t (w - 1) (w - 1 + w)).sum = S
  have h0 : (2 : ℝ) ≤ w := by exact_mod_cast hw
  have h1 : (w : ℝ) ≠ 0 := by linarith
  have h2 : (w : ℝ) - 1 ≠ 0 := by linarith
  have h3 : (w : ℝ) + 1 ≠ 0 := by linarith
  have e1 : (w : ℝ) * w - 1 = (w - 1) * (w + 1) := by ring
  have e2 : (w : ℝ) * (w * (w + 1) * (2 * w + 1) / 6) - (w * (w + 1) / 2) ^ 2
      = w ^ 2 * ((w - 1) * (w + 1)) / 12 := by ring
  rw [e1, e2]
  field_simp
  ring

theorem slice_replicate (c : ℝ) (N a b : ℕ) : slice (List.replicate N c) a b = List.replicate (min b N - a) c := by
  simp [slice]

theorem zip_replicate (c : ℝ) (m : ℕ) :
    (List.zipWith (fun (j : ℕ) x => (j : ℝ) * x) ((List.range m).map (· + 1)) (List.replicate m c)).sum
      = c * (m * (m + 1) / 2) := by
  induction m with
  | zero => simp
  | succ m ih =>
    rw [List.range_succ, List.map_append, List.replicate_succ', List.zipWith_append (by simp), List.sum_append, ih]
    simp
    ring

theorem std_replicate (c : ℝ) (m : ℕ) : std (List.replicate m c) = 0 := by
  rcases Nat.eq_zero_or_pos m with rfl | hm
  · simp [std, mean]
  · have hm' : (m : ℝ) ≠ 0 := by positivity
    have : mean (List.replicate m c) = c := by simp [mean]; field_simp
    unfold std
    rw [this]
    simp [mean]

theorem coefB_replicate (c : ℝ) (N w i : ℕ) (hw : 1 ≤ w) (hi : i + w ≤ N) :
    coefB (List.replicate N c) w i = (6 / ((w : ℝ) * (w * w - 1))) * (c * (i + 1) * ((i : ℝ) + 1 - w)) := by
  unfold coefB
  rw [slice_replicate, show min (i + w) N - (w - 1) = i + 1 by omega, zip_replicate]
  simp
  left
  ring

/-- C64 fails as a trend rule: on a flat trace (no regime adds anything) the trend is zero, so the first step should
not pass the test; the code uses `t[w-1:i+w]` instead of the window `t[i:i+w]`, takes a negative slope for the flat
trace and goes on to twice the window. -/
theorem C64_flat_violated (c : ℝ) (hc : 0 < c) (N w : ℕ) (hw : 2 ≤ w) (hN : 2 * w ≤ N) :
    optimK (List.replicate N c) (some w) = .ok (2 * w) ∧
    ∀ i, i + w ≤ N → i + 1 < w → coefB (List.replicate N c) w i < 0 := by
  have e : window N (some w) = w := by
    obtain ⟨v, rfl⟩ : ∃ v, w = v + 1 := ⟨w - 1, by omega⟩
    rfl
  have h0 : (2 : ℝ) ≤ w := by exact_mod_cast hw
  have hden : 0 < (w : ℝ) * (w * w - 1) := by
    have : 0 < (w : ℝ) * w - 1 := by nlinarith
    positivity
  have hneg : ∀ i, i + w ≤ N → i + 1 < w → coefB (List.replicate N c) w i < 0 := by
    intro i hi h1
    rw [coefB_replicate c N w i (by omega) hi]
    have h2 : (i : ℝ) + 1 - w < 0 := by
      have : ((i + 1 : ℕ) : ℝ) < w := by exact_mod_cast h1
      push_cast at this
      linarith
    exact mul_neg_of_pos_of_neg (by positivity) (mul_neg_of_pos_of_neg (by positivity) h2)
  have hcond : ∀ i, i + w < N → (cond (List.replicate N c) w i ↔ coefB (List.replicate N c) w i < 0) := by
    intro i hi
    unfold cond
    have hw0 : (w : ℝ) ≠ 0 := by linarith
    rw [slice_replicate, show min (i + w) N - i = w by omega, std_replicate]
    have eg : (List.replicate N c).getD (i + w) 0 = c := by simp [List.getD_eq_getElem?_getD, hi]
    rw [eg, List.sum_replicate, nsmul_eq_mul, mul_div_cancel_left₀ _ hw0]
    constructor
    · intro h; by_contra h'
      have := not_lt.1 h'
      nlinarith
    · intro h; nlinarith
  have hgo : ∀ m fuel i, i + m + 1 = w → m + 1 ≤ fuel → fuel + i + w ≤ N → go (List.replicate N c) w fuel i = w := by
    intro m
    induction m with
    | zero =>
      intro fuel i h1 h2 h3
      obtain ⟨f, rfl⟩ : ∃ f, fuel = f + 1 := ⟨fuel - 1, by omega⟩
      unfold go
      rw [if_neg]
      · omega
      · rw [hcond i (by omega), coefB_replicate c N w i (by omega) (by omega)]
        have : (i : ℝ) + 1 - w = 0 := by rw [← h1]; push_cast; ring
        rw [this]; simp
    | succ m ih =>
      intro fuel i h1 h2 h3
      obtain ⟨f, rfl⟩ : ∃ f, fuel = f + 1 := ⟨fuel - 1, by omega⟩
      unfold go
      rw [if_pos ((hcond i (by omega)).2 (hneg i (by omega) (by omega)))]
      exact ih f (i + 1) (by omega) (by omega) (by omega)
  refine ⟨?_, hneg⟩
  unfold optimK
  simp only [List.length_replicate, e]
  rw [if_neg (by omega), if_neg (by omega), hgo (w - 1) (N - w) 0 (by omega) (by omega) (by omega), two_mul]

/-- The least-squares slope of a flat window is zero (so the specification disagrees with the code above). -/
theorem lsSlope_flat (c : ℝ) (w : ℕ) : lsSlope (List.replicate w c) = 0 := by
  unfold lsSlope
  simp only [List.length_replicate, zip_replicate]
  simp
  left
  ring

example : optimK (List.replicate 20 (5 : ℝ)) (some 5) = .ok 10 := (C64_flat_violated 5 (by norm_num) 20 5 (by norm_num) (by norm_num)).1
example : ∃ k, optimK [9, 4, 3, 2.9, 2.8, 2.8, 2.7, 2.6] none = .ok k ∧ 2 ≤ k ∧ k ≤ 8 := by
  obtain ⟨k, h1, h2, h3, -⟩ := C64_default [9, 4, 3, 2.9, 2.8, 2.8, 2.7, 2.6] (by simp)
  exact ⟨k, h1, h2, h3⟩

end Spreg.OptK
