import Verif.Model.SURSummary
import Verif.Spec.Float
import Mathlib.Tactic
set_option linter.unusedSectionVars false
namespace Spreg.SURSummary
open Spreg Spreg.Spec

variable {β : Type} {rd : ℚ → ℚ}

theorem rd_nat (h : Rounds rd) (k : ℕ) (hk : k ≤ 2 ^ 53) : rd k = k := by
  have := h.int k (by rw [abs_of_nonneg (by positivity)]; exact_mod_cast hk)
  simpa using this

theorem trunc_nat (k : ℕ) : trunc (k : ℚ) = k := by
  simp [trunc]

theorem trunc_between (q : ℚ) (k : ℕ) (h1 : (k : ℚ) ≤ q) (h2 : q < k + 1) : (trunc q).toNat = k := by
  have h0 : 0 ≤ q := le_trans (by positivity) h1
  have : ⌊q⌋ = k := by
    rw [Int.floor_eq_iff]; exact ⟨by exact_mod_cast h1, by exact_mod_cast h2⟩
  simp [trunc, h0, this]

theorem trunc_ge (q : ℚ) (k : ℕ) (h1 : (k : ℚ) ≤ q) : k ≤ (trunc q).toNat := by
  have h0 : 0 ≤ q := le_trans (by positivity) h1
  have : (k : ℤ) ≤ ⌊q⌋ := Int.le_floor.2 (by exact_mod_cast h1)
  simp only [trunc, h0, if_true]
  omega

theorem cut_exact (h : Rounds rd) (K a k : ℕ) (hK : 0 < K) (hk : k ≤ K) (hb : K * a ≤ 2 ^ 50) : cut rd (K * a) K k = k * a := by
  have e1 : (((K * a : ℕ) : ℚ) / K) = (a : ℕ) := by
    push_cast; field_simp
  have ha : a ≤ 2 ^ 53 := le_trans (Nat.le_mul_of_pos_left a hK) (le_trans hb (by norm_num))
  have hka : k * a ≤ 2 ^ 53 := le_trans (Nat.mul_le_mul_right a hk) (le_trans hb (by norm_num))
  unfold cut
  rw [e1, rd_nat h a ha, ← Nat.cast_mul, rd_nat h _ hka, trunc_nat, Int.toNat_natCast]

theorem cutEnd_exact (h : Rounds rd) (K a k : ℕ) (hK : 0 < K) (hk : k < K) (hb : K * a ≤ 2 ^ 50) :
    cutEnd rd (K * a) K k = (k + 1) * a := by
  have e1 : (((K * a : ℕ) : ℚ) / K) = (a : ℕ) := by
    push_cast; field_simp
  have ha : a ≤ 2 ^ 53 := le_trans (Nat.le_mul_of_pos_left a hK) (le_trans hb (by norm_num))
  have hka : (k + 1) * a ≤ 2 ^ 53 := le_trans (Nat.mul_le_mul_right a hk) (le_trans hb (by norm_num))
  have hKa : K * a ≤ 2 ^ 53 := le_trans hb (by norm_num)
  have f0 : fixedRho rd (K * a) K k = 0 := by
    unfold fixedRho
    rw [e1, rd_nat h a ha, ← Nat.cast_mul, rd_nat h _ (by rwa [mul_comm])]
    simp [mul_comm]
  unfold cutEnd
  rw [f0, e1, rd_nat h a ha, ← Nat.cast_mul, rd_nat h _ hka, Nat.cast_zero, add_zero, rd_nat h _ hka, trunc_nat, Int.toNat_natCast]

theorem rd_le (h : Rounds rd) (q : ℚ) (hq : 0 ≤ q) : rd q ≤ q * (1 + 1 / 2 ^ 53) ∧ q * (1 - 1 / 2 ^ 53) ≤ rd q := by
  have := abs_le.1 (h.rel q)
  rw [abs_of_nonneg hq] at this
  constructor <;> linarith [this.1, this.2]

theorem cut_frac (h : Rounds rd) (K b k : ℕ) (hk : k < K) (hb : (K * b + 1) * K ≤ 2 ^ 50) : cut rd (K * b + 1) K k = k * b := by
  have hK : 0 < K := by omega
  have hKq : (0 : ℚ) < K := by exact_mod_cast hK
  have e1 : (((K * b + 1 : ℕ) : ℚ) / K) = b + 1 / K := by
    push_cast; field_simp
  have hKb : K * b ≤ 2 ^ 53 := by nlinarith
  have hb1 : b ≤ 2 ^ 53 := le_trans (Nat.le_mul_of_pos_left b hK) hKb
  have hkb : k * b ≤ 2 ^ 53 := le_trans (Nat.mul_le_mul_right b hk.le) hKb
  set q1 := rd (b + 1 / K) with hq1
  have l1 : (b : ℚ) ≤ q1 := by
    have := h.mono b (b + 1 / K) (by have : (0:ℚ) ≤ 1 / K := by positivity
                                     linarith)
    rwa [rd_nat h b hb1] at this
  have u1 := (rd_le h (b + 1 / K : ℚ) (by positivity)).1
  have l2 : ((k * b : ℕ) : ℚ) ≤ rd (k * q1) := by
    rw [← rd_nat h _ hkb]
    apply h.mono
    push_cast
    exact mul_le_mul_of_nonneg_left l1 (by positivity)
  have hq0 : (0 : ℚ) ≤ q1 := le_trans (by positivity) l1
  have u2 := (rd_le h (k * q1 : ℚ) (by positivity)).1
  have hlen : ((K : ℚ) * b + 1) * K ≤ 2 ^ 50 := by exact_mod_cast hb
  have hkK : (k : ℚ) + 1 ≤ K := by exact_mod_cast hk
  have u3 : rd (k * q1) < (k * b : ℕ) + 1 := by
    refine lt_of_le_of_lt u2 ?_
    have s1 : (k : ℚ) * q1 ≤ k * (b + 1 / K) * (1 + 1 / 2 ^ 53) := by
      rw [mul_assoc]; exact mul_le_mul_of_nonneg_left u1 (by positivity)
    have s2 : (k : ℚ) * (b + 1 / K) ≤ K * b + 1 := by
      have : (k : ℚ) * (b + 1 / K) ≤ K * (b + 1 / K) := mul_le_mul_of_nonneg_right (by linarith) (by positivity)
      refine this.trans (le_of_eq ?_)
      field_simp
    have s3 : (k : ℚ) * (b + 1 / K) ≤ k * b + 1 - 1 / K := by
      have : (k : ℚ) * (1 / K) ≤ 1 - 1 / K := by
        rw [mul_one_div, div_le_iff₀ hKq, sub_mul, one_div, inv_mul_cancel₀ hKq.ne']
        linarith
      linarith
    have s4 : ((K : ℚ) * b + 1) ≤ 2 ^ 50 * (1 / K) := by
      rw [mul_one_div, le_div_iff₀ hKq]; exact hlen
    have s5 : (0 : ℚ) < 1 / K := by positivity
    have s6 : (0 : ℚ) ≤ (k : ℚ) * (b + 1 / K) := by positivity
    push_cast
    set A := (k : ℚ) * (b + 1 / K)
    have s7 : k * q1 * (1 + 1 / 2 ^ 53) ≤ A * (1 + 1 / 2 ^ 53) * (1 + 1 / 2 ^ 53) := mul_le_mul_of_nonneg_right s1 (by norm_num)
    have s8 : A * (1 + 1 / 2 ^ 53) * (1 + 1 / 2 ^ 53) ≤ A + A * (3 / 2 ^ 53) := by
      have : (1 + 1 / 2 ^ 53 : ℚ) * (1 + 1 / 2 ^ 53) ≤ 1 + 3 / 2 ^ 53 := by norm_num
      calc _ = A * ((1 + 1 / 2 ^ 53) * (1 + 1 / 2 ^ 53)) := by ring
        _ ≤ A * (1 + 3 / 2 ^ 53) := mul_le_mul_of_nonneg_left this s6
        _ = _ := by ring
    have s9 : A * (3 / 2 ^ 53) ≤ 3 / 8 * (1 / K) := by
      have : A ≤ 2 ^ 50 * (1 / K) := s2.trans s4
      calc A * (3 / 2 ^ 53) ≤ 2 ^ 50 * (1 / K) * (3 / 2 ^ 53) := mul_le_mul_of_nonneg_right this (by norm_num)
        _ = 3 / 8 * (1 / K) := by ring
    linarith
  unfold cut
  rw [e1, ← hq1]
  exact trunc_between _ _ l2 u3

theorem cutEnd_last (h : Rounds rd) (K b : ℕ) (hK : 0 < K) (hb : (K * b + 1) * K ≤ 2 ^ 50) :
    K * b + 1 ≤ cutEnd rd (K * b + 1) K (K - 1) := by
  have e : K - 1 + 1 = K := by omega
  have hlen : K * b + 1 ≤ 2 ^ 53 := by nlinarith
  unfold cutEnd
  apply trunc_ge
  rw [e]
  have hl := rd_nat h _ hlen
  set len := K * b + 1
  set P := rd (K * rd (len / K)) with hP
  have hKq : (0 : ℚ) < K := by exact_mod_cast hK
  have hq : (0 : ℚ) ≤ (len : ℚ) / K := by positivity
  have g1 := (rd_le h _ hq).2
  have g0 : 0 ≤ rd ((len : ℚ) / K) := by
    have := h.mono 0 _ hq
    have z := rd_nat h 0 (by norm_num)
    simp only [Nat.cast_zero] at z
    rwa [z] at this
  have g2 := (rd_le h (K * rd (len / K)) (by positivity)).2
  have g3 : (len : ℚ) * (1 - 1 / 2 ^ 53) ≤ K * rd (len / K) := by
    have := mul_le_mul_of_nonneg_left g1 hKq.le
    have e2 : (K : ℚ) * (len / K * (1 - 1 / 2 ^ 53)) = len * (1 - 1 / 2 ^ 53) := by field_simp
    linarith
  have g4 : (len : ℚ) - 1 ≤ P := by
    have a1 := mul_le_mul_of_nonneg_right g3 (show (0 : ℚ) ≤ 1 - 1 / 2 ^ 53 by norm_num)
    have a2 : (len : ℚ) * (2 / 2 ^ 53) ≤ 1 := by
      have : (len : ℚ) ≤ 2 ^ 50 := by
        have : len ≤ 2 ^ 50 := le_trans (Nat.le_mul_of_pos_right _ hK) hb
        exact_mod_cast this
      nlinarith
    have a3 : (len : ℚ) * (1 - 1 / 2 ^ 53) * (1 - 1 / 2 ^ 53) ≥ len - len * (2 / 2 ^ 53) := by
      have : (0:ℚ) ≤ len * (1 / 2 ^ 53) ^ 2 := by positivity
      nlinarith
    linarith
  rw [← hl]
  apply h.mono
  unfold fixedRho
  by_cases hc : P < len
  · rw [if_pos ⟨e, by rw [mul_comm]; exact hc⟩]
    push_cast; linarith
  · have hc' : ¬ (K - 1 + 1 = K ∧ rd (rd (↑len / ↑K) * ↑K) < ↑len) := by
      rintro ⟨-, hh⟩
      rw [mul_comm] at hh
      exact hc hh
    rw [if_neg hc']
    push_cast; linarith

theorem cutEnd_mid (h : Rounds rd) (K b k : ℕ) (hk : k + 1 < K) (hb : (K * b + 1) * K ≤ 2 ^ 50) :
    cutEnd rd (K * b + 1) K k = (k + 1) * b := by
  have c := cut_frac h K b (k + 1) hk hb
  have f0 : fixedRho rd (K * b + 1) K k = 0 := by
    unfold fixedRho; rw [if_neg]; rintro ⟨h1, -⟩; omega
  unfold cutEnd
  rw [f0, Nat.cast_zero, add_zero, h.idem]
  exact c

theorem emit_ok (names : List String) (vals : List β) (off : ℕ) (row : ℕ → String × β) (js : List ℕ)
    (h : ∀ j ∈ js, names[j]? = some (row j).1 ∧ vals[off + j]? = some (row j).2) :
    emit names vals off js = (js.map row, true) := by
  induction js with
  | nil => rfl
  | cons j js ih =>
    have h1 := h j (by simp)
    have h2 := ih fun i hi => h i (by simp [hi])
    simp only [emit, h1.1, h1.2, h2, List.map_cons]

theorem rangeSlice_eq (len lo hi : ℕ) : rangeSlice len lo hi = List.range' lo (min (hi - lo) (len - lo)) := by
  unfold rangeSlice
  apply List.ext_getElem
  · simp
  · intro i h1 h2
    simp

/-- Rows of the exogenous and of the endogenous variables of an equation: name and values of coefficient `i`. -/
def rowAt (names : List String) (vals : List β) (d : String × β) (off i : ℕ) : String × β :=
  (names.getD i d.1, vals.getD (off + i) d.2)

theorem getD_some {γ : Type} (l : List γ) (d : γ) (i : ℕ) (h : i < l.length) : l[i]? = some (l.getD i d) := by
  simp [List.getD, h]

theorem regimeRows_ok (h : Rounds rd) (nx ny : List String) (vals : List β) (K a b k : ℕ) (rho : Bool) (d : String × β)
    (hx : nx.length = K * a) (hy : ny.length = K * b + rho.toNat) (hv : vals.length = nx.length + ny.length)
    (h1 : K * a ≤ 2 ^ 50) (h2 : (K * b + 1) * K ≤ 2 ^ 50) (hk : k < K) :
    regimeRows rd nx ny vals K k = .ok (
      (List.range' (k * a) a).map (rowAt nx vals d 0) ++ (List.range' (k * b) b).map (rowAt ny vals d nx.length) ++
      if rho ∧ k + 1 = K then [rowAt ny vals d nx.length (K * b)] else []) := by
  have hK : 0 < K := by omega
  have ka : (k + 1) * a ≤ K * a := Nat.mul_le_mul_right a hk
  have kb : (k + 1) * b ≤ K * b := Nat.mul_le_mul_right b hk
  have xs : rangeSlice nx.length (cut rd nx.length K k) (cut rd nx.length K (k + 1)) = List.range' (k * a) a := by
    rw [hx, cut_exact h K a k hK hk.le h1, cut_exact h K a (k + 1) hK hk h1, rangeSlice_eq]
    congr 1
    rw [Nat.add_mul, Nat.one_mul] at *
    omega
  have ys : rangeSlice ny.length (cut rd ny.length K k) (cutEnd rd ny.length K k) =
      List.range' (k * b) b ++ if rho ∧ k + 1 = K then [K * b] else [] := by
    rw [hy]
    cases rho with
    | false =>
      have hb : K * b ≤ 2 ^ 50 := by nlinarith
      simp only [Bool.toNat_false, add_zero]
      rw [cut_exact h K b k hK hk.le hb, cutEnd_exact h K b k hK hk hb, rangeSlice_eq]
      simp only [Bool.false_eq_true, false_and, if_false, List.append_nil]
      congr 1
      rw [Nat.add_mul, Nat.one_mul] at *
      omega
    | true =>
      simp only [Bool.toNat_true]
      rw [cut_frac h K b k hk h2, rangeSlice_eq]
      by_cases hl : k + 1 = K
      · have e := cutEnd_last h K b hK h2
        have : K - 1 = k := by omega
        rw [this] at e
        have kb' : (k + 1) * b = K * b := by rw [hl]
        rw [Nat.add_mul, Nat.one_mul] at kb'
        rw [if_pos ⟨trivial, hl⟩]
        have m1 : min (cutEnd rd (K * b + 1) K k - k * b) (K * b + 1 - k * b) = b + 1 := by omega
        rw [m1, List.range'_concat]
        simp [kb']
      · rw [cutEnd_mid h K b k (by omega) h2, if_neg (by tauto), List.append_nil]
        congr 1
        rw [Nat.add_mul, Nat.one_mul] at *
        omega
  unfold regimeRows
  simp only
  rw [xs, ys]
  rw [emit_ok nx vals 0 (rowAt nx vals d 0), emit_ok ny vals nx.length (rowAt ny vals d nx.length)]
  · simp only [if_true, List.map_append, List.append_assoc]
    congr 3
    split <;> rfl
  · intro j hj
    have hj' : j < ny.length := by
      rw [hy]
      rcases List.mem_append.1 hj with hj | hj
      · have := List.mem_range'_1.1 hj
        rw [Nat.add_mul, Nat.one_mul] at kb
        omega
      · split at hj
        · next hr => simp at hj; simp [hr.1, hj]
        · simp at hj
    exact ⟨getD_some _ _ _ hj', getD_some _ _ _ (by omega)⟩
  · intro j hj
    have hj' : j < nx.length := by
      have := List.mem_range'_1.1 hj
      rw [Nat.add_mul, Nat.one_mul] at ka
      omega
    exact ⟨getD_some _ _ _ hj', getD_some _ _ _ (by omega)⟩

theorem mapM_ok' {γ δ : Type} (f : γ → Py δ) (g : γ → δ) (l : List γ) (h : ∀ x ∈ l, f x = .ok (g x)) : l.mapM f = .ok (l.map g) := by
  induction l with
  | nil => rfl
  | cons x l ih =>
    simp only [List.mapM_cons, h x (by simp), ih fun y hy => h y (by simp [hy]), bind, Except.bind, pure, Except.pure, List.map_cons]

/-- C172: the table of an equation with `K` regimes (`K = 1` without): for each regime the `a` exogenous and the `b` endogenous
coefficients of the regime, after the last regime the common spatial lag coefficient, and the row of lambda. -/
theorem C172_rows (h : Rounds rd) (nx ny : List String) (vals : List β) (K a b : ℕ) (rho : Bool) (lam : Option (String × β)) (d : String × β)
    (hx : nx.length = K * a) (hy : ny.length = K * b + rho.toNat) (hv : vals.length = nx.length + ny.length)
    (h1 : K * a ≤ 2 ^ 50) (h2 : (K * b + 1) * K ≤ 2 ^ 50) :
    eqRows rd nx ny vals K lam = .ok (((List.range K).flatMap fun k =>
      (List.range' (k * a) a).map (rowAt nx vals d 0) ++ (List.range' (k * b) b).map (rowAt ny vals d nx.length) ++
      if rho ∧ k + 1 = K then [rowAt ny vals d nx.length (K * b)] else []) ++ lam.toList) := by
  unfold eqRows
  rw [mapM_ok' _ _ _ fun k hk => regimeRows_ok h nx ny vals K a b k rho d hx hy hv h1 h2 (List.mem_range.1 hk)]
  simp only [bind, Except.bind, pure, Except.pure, List.flatMap]

theorem range_blocks (K a : ℕ) : (List.range K).flatMap (fun k => List.range' (k * a) a) = List.range (K * a) := by
  induction K with
  | zero => simp
  | succ K ih =>
    rw [List.range_succ, List.flatMap_append, ih, List.flatMap_singleton, Nat.add_mul, Nat.one_mul, List.range_eq_range',
      List.range_eq_range', ← List.range'_append_1]
    simp

/-- C172: every coefficient of the equation is printed exactly once, with its own name and values. -/
theorem C172_once (h : Rounds rd) (nx ny : List String) (vals : List β) (K a b : ℕ) (rho : Bool) (lam : Option (String × β)) (hK : 0 < K)
    (hx : nx.length = K * a) (hy : ny.length = K * b + rho.toNat) (hv : vals.length = nx.length + ny.length)
    (h1 : K * a ≤ 2 ^ 50) (h2 : (K * b + 1) * K ≤ 2 ^ 50) :
    ∃ rows, eqRows rd nx ny vals K lam = .ok rows ∧ rows.Perm ((nx ++ ny).zip vals ++ lam.toList) := by
  cases hd : vals with
  | nil =>
    have e1 : nx = [] := List.length_eq_zero_iff.1 (by simp [hd] at hv; omega)
    have e2 : ny = [] := List.length_eq_zero_iff.1 (by simp [hd] at hv; omega)
    have g : ∀ k, regimeRows rd nx ny ([] : List β) K k = .ok [] := fun k => by
      simp [regimeRows, e1, e2, rangeSlice, emit]
    refine ⟨lam.toList, ?_, by simp⟩
    unfold eqRows
    rw [mapM_ok' _ (fun _ => []) _ fun k _ => g k]
    simp [bind, Except.bind, pure, Except.pure]
  | cons v0 vs =>
  rw [← hd]
  let d : String × β := ("", v0)
  refine ⟨_, C172_rows h nx ny vals K a b rho lam d hx hy hv h1 h2, List.Perm.append_right _ ?_⟩
  refine (List.flatMap_append_perm _ _ _).symm.trans ?_
  refine (List.Perm.append_right _ (List.flatMap_append_perm _ _ _).symm).trans ?_
  have r1 : ((List.range K).flatMap fun k => (List.range' (k * a) a).map (rowAt nx vals d 0)) =
      (List.range (K * a)).map (rowAt nx vals d 0) := by
    rw [← range_blocks, List.map_flatMap]
  have r2 : ((List.range K).flatMap fun k => (List.range' (k * b) b).map (rowAt ny vals d nx.length)) =
      (List.range (K * b)).map (rowAt ny vals d nx.length) := by
    rw [← range_blocks, List.map_flatMap]
  have r3 : ((List.range K).flatMap fun k => if rho ∧ k + 1 = K then [rowAt ny vals d nx.length (K * b)] else []) =
      (if rho then [K * b] else []).map (rowAt ny vals d nx.length) := by
    obtain ⟨m, rfl⟩ : ∃ m, K = m + 1 := ⟨K - 1, by omega⟩
    rw [List.range_succ, List.flatMap_append, List.flatMap_singleton]
    have z : ((List.range m).flatMap fun k => if rho ∧ k + 1 = m + 1 then [rowAt ny vals d nx.length ((m + 1) * b)] else []) = [] := by
      rw [List.flatMap_eq_nil_iff]
      intro k hk
      have := List.mem_range.1 hk
      rw [if_neg]; rintro ⟨-, h⟩; omega
    rw [z]
    cases rho <;> simp
  rw [r1, r2, r3, List.append_assoc, ← List.map_append]
  have r4 : List.range (K * b) ++ (if rho then [K * b] else []) = List.range ny.length := by
    rw [hy]
    cases rho with
    | false => simp
    | true => simp [List.range_succ]
  rw [r4, ← hx]
  have r5 : (List.range nx.length).map (rowAt nx vals d 0) ++ (List.range ny.length).map (rowAt ny vals d nx.length) =
      (nx ++ ny).zip vals := by
    apply List.ext_getElem
    · simp [hv]
    · intro i i1 i2
      simp only [List.length_append, List.length_map, List.length_range] at i1
      rw [List.getElem_append]
      split
      · next hi =>
        simp only [List.length_map, List.length_range] at hi
        have : i < vals.length := by omega
        simp [rowAt, hi, this]
      · next hi =>
        simp only [List.length_map, List.length_range, not_lt] at hi
        have g1 : i < vals.length := by omega
        have g2 : i - nx.length < ny.length := by omega
        have g3 : nx.length + (i - nx.length) = i := by omega
        simp [rowAt, g1, g2, g3, List.getElem_append, Nat.not_lt.2 hi]
  rw [r5]

/-! ### Tests of equal coefficients -/

theorem pyGet_nat (l : List β) (i : ℕ) : pyGet l (i : ℤ) = match l[i]? with | some b => .ok b | none => .error .indexError := by
  cases hl : l[i]? <;> simp [pyGet, hl]

theorem trunc_int_nat (h : Rounds rd) (q : ℚ) (k : ℕ) (hk : k ≤ 2 ^ 53) (hq : q = k) : trunc (rd q) = k := by
  rw [hq, rd_nat h k hk, trunc_nat]

/-- Which coefficient row `k` is about: regime `k / (a + b)`, position `k % (a + b)` in it; exogenous (`.inl i`) or endogenous (`.inr j`). -/
def rowCoef (a b k : ℕ) : ℕ ⊕ ℕ :=
  if k % (a + b) < a then .inl (k / (a + b) * a + k % (a + b)) else .inr (k / (a + b) * b + (k % (a + b) - a))

theorem chowRow_ok (h : Rounds rd) (K a b : ℕ) (hK : 0 < K) (nx ny : List (List String)) (tests : List β) (d : β)
    (hx : ∀ l ∈ nx, l.length = K * a) (hy : ∀ l ∈ ny, l.length = K * b) (ht : tests.length = K * a + K * b)
    (hB : K * (a + b) * K ≤ 2 ^ 50) (k : ℕ) (hk : k < K * (a + b)) :
    chowRow rd ⟨K * a, K * b, K⟩ nx ny tests (k / (a + b) + 1) k = .ok (match rowCoef a b k with
      | .inl i => (nx.map fun l => l.getD i "", tests.getD i d)
      | .inr j => (ny.map fun l => l.getD j "", tests.getD (K * a + j) d)) ∧
    nextC rd ⟨K * a, K * b, K⟩ (k / (a + b) + 1) k = (k + 1) / (a + b) + 1 := by
  have hs : 0 < a + b := by
    rcases Nat.eq_zero_or_pos (a + b) with h0 | h0
    · simp [h0] at hk
    · exact h0
  set s := a + b with hsd
  set c := k / s with hc
  set i := k % s with hi
  have hki : s * c + i = k := Nat.div_add_mod k s
  have his : i < s := Nat.mod_lt _ hs
  have hcK : c < K := by
    rw [hc, Nat.div_lt_iff_lt_mul hs]; exact hk
  have hKq : (K : ℚ) ≠ 0 := by positivity
  have bnd : K * s ≤ 2 ^ 50 := le_trans (Nat.le_mul_of_pos_right _ hK) hB
  have e0 : ∀ m : ℕ, m ≤ K * s → m ≤ 2 ^ 53 := fun m hm => hm.trans (bnd.trans (by norm_num))
  have scK : s * c + s ≤ K * s := by
    have : s * (c + 1) ≤ s * K := Nat.mul_le_mul_left s hcK
    rw [Nat.mul_comm K s]; linarith
  have hab : K * a + K * b = K * s := by rw [hsd]; ring
  have caK : c * a + a ≤ K * a := by have := Nat.mul_le_mul_right a (Nat.succ_le_of_lt hcK); simpa [Nat.add_mul] using this
  have cbK : c * b + b ≤ K * b := by have := Nat.mul_le_mul_right b (Nat.succ_le_of_lt hcK); simpa [Nat.add_mul] using this
  have sc : s * c = c * a + c * b := by rw [hsd]; ring
  have q1 : ((((K * a + K * b) * (c + 1) : ℕ) : ℚ) - ((K * b : ℕ) : ℚ)) / (K : ℚ) = ((s * c + a : ℕ) : ℚ) := by
    rw [hsd]; push_cast; field_simp; ring
  have q2 : (((c + 1 : ℕ) : ℚ) - 1) * ((K * b : ℕ) : ℚ) / (K : ℚ) = ((c * b : ℕ) : ℚ) := by
    push_cast; field_simp; ring
  have q3 : ((K * a * (c + 1) : ℕ) : ℚ) / (K : ℚ) = (((c + 1) * a : ℕ) : ℚ) := by
    push_cast; field_simp
  have q4 : (((K * a + K * b) * (c + 1) : ℕ) : ℚ) / (K : ℚ) = ((s * (c + 1) : ℕ) : ℚ) := by
    rw [hsd]; push_cast; field_simp
  have hX : isX rd ⟨K * a, K * b, K⟩ (c + 1) k = decide (i < a) := by
    unfold isX
    simp only
    rw [q1, rd_nat h _ (e0 _ (by omega))]
    rw [decide_eq_decide]
    constructor
    · intro hh
      have : k < s * c + a := by exact_mod_cast hh
      omega
    · intro hh
      have : k < s * c + a := by omega
      exact_mod_cast this
  constructor
  · unfold chowRow
    rw [hX]
    by_cases hia : i < a
    · have rc : rowCoef a b k = .inl (c * a + i) := if_pos hia
      rw [rc]
      simp only [hia, decide_true, if_true]
      have ax : adjX rd ⟨K * a, K * b, K⟩ (c + 1) k = ((c * a + i : ℕ) : ℤ) := by
        unfold adjX
        simp only
        rw [q2, rd_nat h _ (e0 _ (by omega))]
        apply trunc_int_nat h _ _ (e0 _ (by omega))
        have : k = c * a + i + c * b := by omega
        rw [this]; push_cast; ring
      rw [ax]
      have m : (nx.mapM fun l => pyGet l ((c * a + i : ℕ) : ℤ)) = .ok (nx.map fun l => l.getD (c * a + i) "") := by
        apply mapM_ok'
        intro l hl
        rw [pyGet_nat, getD_some l "" _ (by rw [hx l hl]; omega)]
      rw [m, pyGet_nat, getD_some tests d _ (by omega)]
      rfl
    · have rc : rowCoef a b k = .inr (c * b + (i - a)) := if_neg hia
      rw [rc]
      simp only [hia, decide_false, if_false, Bool.false_eq_true]
      have ay : adjY rd ⟨K * a, K * b, K⟩ (c + 1) k = ((c * b + (i - a) : ℕ) : ℤ) := by
        unfold adjY
        simp only
        rw [q3, rd_nat h _ (e0 _ (by rw [Nat.add_mul]; omega))]
        apply trunc_int_nat h _ _ (e0 _ (by omega))
        have : k = (c + 1) * a + (c * b + (i - a)) := by rw [Nat.add_mul]; omega
        rw [this]; push_cast; ring
      have at' : adjT rd ⟨K * a, K * b, K⟩ (c + 1) k = ((K * a + (c * b + (i - a)) : ℕ) : ℤ) := by
        unfold adjT
        simp only
        rw [q3, rd_nat h _ (e0 _ (by rw [Nat.add_mul]; omega))]
        apply trunc_int_nat h _ _ (e0 _ (by omega))
        have : k = (c + 1) * a + (c * b + (i - a)) := by rw [Nat.add_mul]; omega
        rw [this]; push_cast; ring
      rw [ay, at']
      have m : (ny.mapM fun l => pyGet l ((c * b + (i - a) : ℕ) : ℤ)) = .ok (ny.map fun l => l.getD (c * b + (i - a)) "") := by
        apply mapM_ok'
        intro l hl
        rw [pyGet_nat, getD_some l "" _ (by rw [hy l hl]; omega)]
      rw [m, pyGet_nat, getD_some tests d _ (by omega)]
      rfl
  · unfold nextC
    simp only
    rw [q4, rd_nat h _ (e0 _ (by rw [Nat.mul_add]; omega))]
    by_cases hl : k + 1 = s * (c + 1)
    · rw [if_pos (by exact_mod_cast hl), hl, Nat.mul_div_cancel_left _ hs]
    · rw [if_neg (by exact_mod_cast hl)]
      have : (k + 1) / s = c := by
        rw [Nat.div_eq_iff hs]
        rw [Nat.mul_add, Nat.mul_one] at hl
        rw [Nat.mul_comm c s]
        omega
      rw [this]

theorem chowLoop_ok (h : Rounds rd) (K a b : ℕ) (hK : 0 < K) (nx ny : List (List String)) (tests : List β) (d : β)
    (hx : ∀ l ∈ nx, l.length = K * a) (hy : ∀ l ∈ ny, l.length = K * b) (ht : tests.length = K * a + K * b)
    (hB : K * (a + b) * K ≤ 2 ^ 50) (m : ℕ) : ∀ k, k + m ≤ K * (a + b) →
    chowLoop rd ⟨K * a, K * b, K⟩ nx ny tests m k (k / (a + b) + 1) = .ok ((List.range' k m).map fun k => match rowCoef a b k with
      | .inl i => (nx.map fun l => l.getD i "", tests.getD i d)
      | .inr j => (ny.map fun l => l.getD j "", tests.getD (K * a + j) d)) := by
  induction m with
  | zero => intro k _; rfl
  | succ m ih =>
    intro k hk
    obtain ⟨e1, e2⟩ := chowRow_ok h K a b hK nx ny tests d hx hy ht hB k (by omega)
    unfold chowLoop
    rw [e1, e2]
    have := ih (k + 1) (by omega)
    simp only [bind, Except.bind, pure, Except.pure]
    rw [this, List.range'_succ, List.map_cons]

/-- C172: the table of tests of equal coefficients, when all coefficients vary by regime (or there are no regimes, `K = 1`): row `k` has the names
that the equations give to coefficient `rowCoef a b k` and the test of this coefficient. -/
theorem C172_chow (h : Rounds rd) (K a b : ℕ) (hK : 0 < K) (tsls : Bool) (nx ny : List (List String)) (tests : List β) (d : β)
    (hx : ∀ l ∈ nx, l.length = K * a) (hy : ∀ l ∈ ny, l.length = K * b) (h0 : tsls = true → ny ≠ []) (h0' : tsls = false → b = 0)
    (ht : tests.length = K * a + K * b) (hB : K * (a + b) * K ≤ 2 ^ 50) :
    chowTable rd tsls nx ny tests K = .ok ((List.range (K * (a + b))).map fun k => match rowCoef a b k with
      | .inl i => (nx.map fun l => l.getD i "", tests.getD i d)
      | .inr j => (ny.map fun l => l.getD j "", tests.getD (K * a + j) d)) := by
  have hk : (if tsls then (ny.headD []).length else 0) = K * b := by
    cases tsls with
    | false => simp [h0' rfl]
    | true =>
      cases ny with
      | nil => exact absurd rfl (h0 rfl)
      | cons l ls => simpa using hy l (by simp)
  unfold chowTable
  simp only
  rw [hk]
  have e : tests.length - K * b = K * a := by omega
  have e2 : tests.length = K * (a + b) := by rw [ht]; ring
  have := chowLoop_ok h K a b hK nx ny tests d hx hy ht hB (K * (a + b)) 0 (by omega)
  rw [Nat.zero_div, Nat.zero_add] at this
  rw [e, List.range_eq_range', ← this, ← e2]

/-- C172: in the table of tests every coefficient has exactly one row. -/
theorem C172_chow_once (K a b : ℕ) :
    (∀ i < K * a, ∃! k, k < K * (a + b) ∧ rowCoef a b k = .inl i) ∧ ∀ j < K * b, ∃! k, k < K * (a + b) ∧ rowCoef a b k = .inr j := by
  have dm : ∀ c t s : ℕ, t < s → (c * s + t) / s = c ∧ (c * s + t) % s = t := fun c t s h => by
    have hs : 0 < s := by omega
    constructor
    · rw [Nat.mul_comm, Nat.mul_add_div hs, Nat.div_eq_of_lt h, add_zero]
    · rw [Nat.mul_comm, Nat.mul_add_mod, Nat.mod_eq_of_lt h]
  have lt : ∀ c t, c < K → t < a + b → c * (a + b) + t < K * (a + b) := fun c t hc ht => by
    have := Nat.mul_le_mul_right (a + b) (Nat.succ_le_of_lt hc)
    rw [Nat.succ_mul] at this
    omega
  constructor
  · intro i hi
    have ha : 0 < a := by
      rcases Nat.eq_zero_or_pos a with h | h
      · simp [h] at hi
      · exact h
    have m := Nat.mod_lt i ha
    have hc : i / a < K := by rw [Nat.div_lt_iff_lt_mul ha]; exact hi
    refine ⟨i / a * (a + b) + i % a, ⟨lt _ _ hc (by omega), ?_⟩, ?_⟩
    · obtain ⟨e1, e2⟩ := dm (i / a) (i % a) (a + b) (by omega)
      unfold rowCoef
      rw [e1, e2, if_pos m, Nat.div_add_mod']
    · rintro k ⟨hk, hr⟩
      unfold rowCoef at hr
      split at hr
      · next hm =>
        injection hr with hr
        obtain ⟨e1, e2⟩ := dm (k / (a + b)) (k % (a + b)) a hm
        rw [hr] at e1 e2
        rw [e1, e2, Nat.div_add_mod']
      · cases hr
  · intro j hj
    have hb : 0 < b := by
      rcases Nat.eq_zero_or_pos b with h | h
      · simp [h] at hj
      · exact h
    have m := Nat.mod_lt j hb
    have hc : j / b < K := by rw [Nat.div_lt_iff_lt_mul hb]; exact hj
    refine ⟨j / b * (a + b) + (a + j % b), ⟨lt _ _ hc (by omega), ?_⟩, ?_⟩
    · obtain ⟨e1, e2⟩ := dm (j / b) (a + j % b) (a + b) (by omega)
      unfold rowCoef
      rw [e1, e2, if_neg (by omega), Nat.add_sub_cancel_left, Nat.div_add_mod']
    · rintro k ⟨hk, hr⟩
      unfold rowCoef at hr
      split at hr
      · cases hr
      · next hm =>
        injection hr with hr
        have hs := Nat.mod_lt k (show 0 < a + b by omega)
        obtain ⟨e1, e2⟩ := dm (k / (a + b)) (k % (a + b) - a) b (by omega)
        rw [hr] at e1 e2
        have : k % (a + b) = a + j % b := by omega
        rw [e1, ← this, Nat.div_add_mod']

theorem pyGet_err (l : List β) (z : ℤ) (e : PyErr) (h : pyGet l z = .error e) : e = .indexError := by
  unfold pyGet at h
  split at h
  · split at h
    · cases h
    · injection h with h; exact h.symm
  · split at h
    · split at h
      · cases h
      · injection h with h; exact h.symm
    · injection h with h; exact h.symm

theorem mapM_err {γ δ : Type} (f : γ → Py δ) (l : List γ) (hf : ∀ x e, f x = .error e → e = .indexError) (e : PyErr)
    (h : l.mapM f = .error e) : e = .indexError := by
  induction l with
  | nil => cases h
  | cons x l ih =>
    simp only [List.mapM_cons, bind, Except.bind, pure, Except.pure] at h
    cases hx : f x with
    | error e' => simp only [hx] at h; injection h with h; exact h ▸ hf x e' hx
    | ok y =>
      simp only [hx] at h
      cases hl : l.mapM f with
      | error e' => simp only [hl] at h; injection h with h; subst h; exact ih hl
      | ok ys => simp only [hl] at h; cases h

theorem mapM_fails {γ δ : Type} (f : γ → Py δ) (l : List γ) (x : γ) (hx : x ∈ l) (h : ∀ y, f x ≠ .ok y) (ys : List δ) : l.mapM f ≠ .ok ys := by
  induction l generalizing ys with
  | nil => simp at hx
  | cons z l ih =>
    intro hm
    simp only [List.mapM_cons, bind, Except.bind, pure, Except.pure] at hm
    cases hz : f z with
    | error e => simp only [hz] at hm; cases hm
    | ok y =>
      simp only [hz] at hm
      rcases List.mem_cons.1 hx with rfl | hx
      · exact h y hz
      · cases hl : l.mapM f with
        | error e => simp only [hl] at hm; cases hm
        | ok ys => exact ih hx ys hl

theorem chowRow_err (s : Sizes) (nx ny : List (List String)) (tests : List β) (c k : ℕ) (e : PyErr)
    (h : chowRow rd s nx ny tests c k = .error e) : e = .indexError := by
  unfold chowRow at h
  split at h
  all_goals
    simp only [bind, Except.bind, pure, Except.pure] at h
    split at h
    · next hm => injection h with h; subst h; exact mapM_err _ _ (fun l e he => pyGet_err l _ e he) _ hm
    · split at h
      · next hm => injection h with h; subst h; exact pyGet_err _ _ _ hm
      · cases h

/-- If the counter of regimes stays at one up to a row that cannot be made, the table raises `IndexError`. -/
theorem chowLoop_fails (s : Sizes) (nx ny : List (List String)) (tests : List β) (k0 : ℕ)
    (hc : ∀ k < k0, nextC rd s 1 k = 1) (hf : ∀ r, chowRow rd s nx ny tests 1 k0 ≠ .ok r) (m : ℕ) :
    ∀ k, k ≤ k0 → k0 < k + m → chowLoop rd s nx ny tests m k 1 = .error .indexError := by
  induction m with
  | zero => intro k h1 h2; omega
  | succ m ih =>
    intro k h1 h2
    unfold chowLoop
    simp only [bind, Except.bind, pure, Except.pure]
    cases hr : chowRow rd s nx ny tests 1 k with
    | error e => simp only; rw [chowRow_err s nx ny tests 1 k e hr]
    | ok r =>
      simp only
      have hk : k < k0 := by
        rcases Nat.lt_or_ge k k0 with h | h
        · exact h
        · have : k = k0 := by omega
          exact absurd (this ▸ hr) (hf r)
      rw [hc k hk, ih (k + 1) hk (by omega)]

theorem chowRow_fails_y (s : Sizes) (nx ny : List (List String)) (tests : List β) (c k : ℕ) (l : List String) (hl : l ∈ ny)
    (hX : isX rd s c k = false) (j : ℕ) (hj : adjY rd s c k = (j : ℤ)) (hlen : l.length ≤ j) (r : List String × β) :
    chowRow rd s nx ny tests c k ≠ .ok r := by
  intro h
  unfold chowRow at h
  rw [hX] at h
  simp only [Bool.false_eq_true, if_false, bind, Except.bind] at h
  cases hm : ny.mapM fun l => pyGet l (adjY rd s c k) with
  | error e => rw [hm] at h; cases h
  | ok ys =>
    refine mapM_fails _ ny l hl (fun y hy => ?_) ys hm
    rw [hj, pyGet_nat, List.getElem?_eq_none hlen] at hy
    cases hy

theorem chowRow_fails_x (s : Sizes) (nx ny : List (List String)) (tests : List β) (c k : ℕ) (l : List String) (hl : l ∈ nx)
    (hX : isX rd s c k = true) (j : ℕ) (hj : adjX rd s c k = (j : ℤ)) (hlen : l.length ≤ j) (r : List String × β) :
    chowRow rd s nx ny tests c k ≠ .ok r := by
  intro h
  unfold chowRow at h
  rw [hX] at h
  simp only [if_true, bind, Except.bind] at h
  cases hm : nx.mapM fun l => pyGet l (adjX rd s c k) with
  | error e => rw [hm] at h; cases h
  | ok ys =>
    refine mapM_fails _ nx l hl (fun y hy => ?_) ys hm
    rw [hj, pyGet_nat, List.getElem?_eq_none hlen] at hy
    cases hy

/-- C172 violated: `SURlagIV` with two or more regimes and a common spatial lag coefficient (the default `regime_lag_sep=False`), equations with
the same number of coefficients and the default `nonspat_diag=True`: printing the table of tests raises `IndexError`. -/
theorem C172_rho_violated (h : Rounds rd) (K a b : ℕ) (hK : 2 ≤ K) (ha : 1 ≤ a) (nx ny : List (List String)) (tests : List β)
    (h0 : ny ≠ []) (hy : ∀ l ∈ ny, l.length = K * b + 1) (ht : tests.length = K * a + (K * b + 1))
    (hB : (K * a + (K * b + 1)) * K ≤ 2 ^ 50) : chowTable rd true nx ny tests K = .error .indexError := by
  obtain ⟨l, ls, rfl⟩ := List.exists_cons_of_ne_nil h0
  have hl := hy l (by simp)
  have hKq : (0 : ℚ) < K := by positivity
  have bnd : K * a + (K * b + 1) ≤ 2 ^ 50 := le_trans (Nat.le_mul_of_pos_right _ (by omega)) hB
  have e0 : ∀ m : ℕ, m ≤ K * a + (K * b + 1) → m ≤ 2 ^ 53 := fun m hm => hm.trans (bnd.trans (by norm_num))
  have aK : a + a ≤ K * a := by have := Nat.mul_le_mul_right a hK; omega
  unfold chowTable
  simp only [if_true, List.headD_cons]
  have e : tests.length - l.length = K * a := by omega
  rw [e, hl]
  apply chowLoop_fails _ _ _ _ (a + (K * b + 1)) _ _ tests.length 0 (by omega) (by omega)
  · intro k hk
    unfold nextC
    simp only [mul_one]
    rw [if_neg]
    intro hq
    have q : ((K * a + (K * b + 1) : ℕ) : ℚ) / K = (a + b : ℕ) + 1 / K := by push_cast; field_simp; ring
    rw [q] at hq
    have hlen : (((a + b : ℕ) : ℚ) + 1 / K) * K * K ≤ 2 ^ 50 := by
      have : (((a + b : ℕ) : ℚ) + 1 / K) * K = ((K * a + (K * b + 1) : ℕ) : ℚ) := by push_cast; field_simp; ring
      rw [this]
      exact_mod_cast hB
    set A := ((a + b : ℕ) : ℚ) with hA
    have hA0 : (0 : ℚ) ≤ A := by positivity
    have r := abs_le.1 (h.rel (A + 1 / K))
    rw [abs_of_nonneg (by positivity), ← hq] at r
    have K2 : (2 : ℚ) ≤ K := by exact_mod_cast hK
    have s1 : (A + 1 / K) / 2 ^ 53 ≤ 1 / 8 * (1 / K) := by
      have : A + 1 / K ≤ 2 ^ 50 * (1 / K) * (1 / K) := by
        have e3 : (2 : ℚ) ^ 50 * (1 / K) * (1 / K) = 2 ^ 50 / (K * K) := by field_simp
        rw [e3, le_div_iff₀ (by positivity)]
        linarith
      have k1 : (1 : ℚ) / K ≤ 1 := by rw [div_le_one hKq]; linarith
      have k0 : (0 : ℚ) < 1 / K := by positivity
      have : A + 1 / K ≤ 2 ^ 50 * (1 / K) := by nlinarith
      rw [div_le_iff₀ (by norm_num)]
      linarith
    have k0 : (0 : ℚ) < 1 / K := by positivity
    have k2 : (1 : ℚ) / K ≤ 1 / 2 := by
      rw [div_le_div_iff₀ hKq (by norm_num)]; linarith
    have g1 : A < ((k + 1 : ℕ) : ℚ) := by linarith [r.1]
    have g2 : ((k + 1 : ℕ) : ℚ) < A + 1 := by linarith [r.2]
    have g3 : a + b < k + 1 := by rw [hA] at g1; exact_mod_cast g1
    have g4 : k + 1 < a + b + 1 := by rw [hA] at g2; exact_mod_cast g2
    omega
  · intro r
    refine chowRow_fails_y _ nx _ tests 1 _ l (by simp) ?_ (K * b + 1) ?_ (by omega) r
    · unfold isX
      simp only [mul_one, decide_eq_false_iff_not, not_lt]
      have q : (((K * a + (K * b + 1) : ℕ) : ℚ) - ((K * b + 1 : ℕ) : ℚ)) / K = (a : ℕ) := by push_cast; field_simp; ring
      rw [q, rd_nat h _ (e0 _ (by omega))]
      exact_mod_cast (by omega)
    · unfold adjY
      simp only [mul_one]
      have q : (((K * a : ℕ) : ℚ)) / K = (a : ℕ) := by push_cast; field_simp
      rw [q, rd_nat h _ (e0 _ (by omega))]
      apply trunc_int_nat h _ _ (e0 _ (by omega))
      push_cast; ring

/-- C172 violated: equations with the same number of coefficients but different numbers of endogenous variables (`ThreeSLS`, `SURlagIV`, no
regimes): printing the table of tests raises `IndexError`. -/
theorem C172_split_violated (h : Rounds rd) (nx ny : List (List String)) (tests : List β) (hl : nx.length = ny.length)
    (hs : ∀ p ∈ nx.zip ny, p.1.length + p.2.length = tests.length) (hB : tests.length ≤ 2 ^ 50)
    (p : List String × List String) (hp : p ∈ nx.zip ny) (hd : p.2.length ≠ (ny.headD []).length) :
    chowTable rd true nx ny tests 1 = .error .indexError := by
  have e0 : ∀ m : ℕ, m ≤ tests.length → m ≤ 2 ^ 53 := fun m hm => hm.trans (hB.trans (by norm_num))
  have hpm := List.of_mem_zip hp
  have h0 : (ny.headD []).length ≤ tests.length := by
    cases ny with
    | nil => simp
    | cons y ys =>
      cases nx with
      | nil => simp at hl
      | cons x xs =>
        have := hs (x, y) (by simp)
        simp only [List.headD_cons]
        simp only at this
        omega
  have hsp := hs p hp
  unfold chowTable
  simp only [if_true]
  set kend := (ny.headD []).length with hk
  set kx := tests.length - kend with hkx
  have q1 : (((kx + kend) * 1 : ℕ) - (kend : ℚ)) / (1 : ℕ) = (kx : ℕ) := by push_cast; ring
  have q2 : ((1 : ℕ) - 1 : ℚ) * (kend : ℕ) / (1 : ℕ) = (0 : ℕ) := by push_cast; ring
  have q3 : (((kx + kend) * 1 : ℕ) : ℚ) / (1 : ℕ) = ((kx + kend : ℕ) : ℚ) := by push_cast; ring
  have q4 : ((kx * 1 : ℕ) : ℚ) / (1 : ℕ) = (kx : ℕ) := by push_cast; ring
  have hnext : ∀ k, k + 1 < kx + kend → nextC rd ⟨kx, kend, 1⟩ 1 k = 1 := by
    intro k hk
    unfold nextC
    simp only
    rw [q3, rd_nat h _ (e0 _ (by omega)), if_neg]
    intro hh
    have : k + 1 = kx + kend := by exact_mod_cast hh
    omega
  rcases Nat.lt_or_ge p.1.length kx with hlt | hge
  · refine chowLoop_fails _ _ _ _ p.1.length (fun k hk => hnext k (by omega)) (fun r => ?_) tests.length 0 (by omega) (by omega)
    refine chowRow_fails_x _ nx ny tests 1 _ p.1 hpm.1 ?_ p.1.length ?_ le_rfl r
    · unfold isX
      simp only
      rw [q1, rd_nat h _ (e0 _ (by omega))]
      simpa using hlt
    · unfold adjX
      simp only
      rw [q2, rd_nat h _ (by omega)]
      apply trunc_int_nat h _ _ (e0 _ (by omega))
      push_cast; ring
  · have hlt : p.2.length < kend := by omega
    refine chowLoop_fails _ _ _ _ (kx + p.2.length) (fun k hk => hnext k (by omega)) (fun r => ?_) tests.length 0 (by omega) (by omega)
    refine chowRow_fails_y _ nx ny tests 1 _ p.2 hpm.2 ?_ p.2.length ?_ le_rfl r
    · unfold isX
      simp only
      rw [q1, rd_nat h _ (e0 _ (by omega))]
      simp
    · unfold adjY
      simp only
      rw [q4, rd_nat h _ (e0 _ (by omega))]
      apply trunc_int_nat h _ _ (e0 _ (by omega))
      push_cast; ring

/-- Exact arithmetic satisfies the assumptions on rounding, and the sizes of a small model those of the theorems: two equations, two regimes, a
constant and one regressor, a common spatial lag. -/
theorem C172_example : Rounds id ∧
    eqRows id ["0_c", "0_x", "1_c", "1_x"] ["W_y"] [10, 11, 12, 13, 14] 2 none =
      .ok [("0_c", 10), ("0_x", 11), ("1_c", 12), ("1_x", 13), ("W_y", 14)] ∧
    chowTable id true [["c1", "x1"], ["c2", "x2"]] [["Wy1"], ["Wy2"]] [7, 8, 9] 1 =
      .ok [(["c1", "c2"], 7), (["x1", "x2"], 8), (["Wy1", "Wy2"], 9)] ∧
    chowTable id true [["0_c1", "0_x1", "1_c1", "1_x1"], ["0_c2", "0_x2", "1_c2", "1_x2"]] [["Wy1"], ["Wy2"]] [1, 2, 3, 4, 5] 2 =
      .error .indexError := by
  have hr : Rounds id := ⟨fun _ _ h => h, fun _ _ => rfl, fun _ => rfl, fun q => by simp; positivity⟩
  refine ⟨hr, ?_, ?_, ?_⟩
  · rw [C172_rows hr _ _ _ 2 2 0 true none ("", 0) rfl rfl rfl (by norm_num) (by norm_num)]
    rfl
  · rw [C172_chow hr 1 2 1 (by norm_num) true _ _ _ 0 (by simp) (by simp) (by simp) (by simp) rfl (by norm_num)]
    rfl
  · exact C172_rho_violated hr 2 2 0 le_rfl (by norm_num) _ _ _ (by simp) (by simp) rfl (by norm_num)

end Spreg.SURSummary
