import Verif.Model.Panel
import Verif.Props.Checks
import Mathlib.Tactic
/-
C38, C39, C69: panel data.
-/
namespace Spreg.Panel
open Matrix
open scoped Kronecker

/-! ### C38: demeaning -/

/-- Row `s*n + i` of a stacked panel (period `s`, unit `i`). -/
def row {n t : ℕ} (s : Fin t) (i : Fin n) : Fin (t * n) :=
  ⟨s * n + i, by
    have h1 : (s : ℕ) + 1 ≤ t := s.2
    calc (s : ℕ) * n + i < s * n + n := by have := i.2; omega
      _ = (s + 1) * n := by ring
      _ ≤ t * n := Nat.mul_le_mul_right _ h1⟩

theorem row_eq {n t : ℕ} (s : Fin t) (i : Fin n) : row s i = finProdFinEquiv (s, i) := by
  apply Fin.ext
  simp [row, finProdFinEquiv]
  ring

/-- Every row of a stacked panel is the row of exactly one period and unit. -/
theorem row_bij (n t : ℕ) : Function.Bijective fun p : Fin t × Fin n => row p.1 p.2 := by
  have : (fun p : Fin t × Fin n => row p.1 p.2) = finProdFinEquiv := by
    funext p; exact row_eq _ _
  rw [this]; exact finProdFinEquiv.bijective

/-- C38: demeaning subtracts `(1 - phi)` times the mean over time of the same unit. -/
theorem C38_demean {k : Type} (n t : ℕ) (ht : t ≠ 0) (phi : ℝ) (arr : Matrix (Fin (t * n)) k ℝ) :
    ∃ d, demeanPanel n t phi arr = .ok d ∧ ∀ (s : Fin t) (i : Fin n) (j : k),
      d (row s i) j = arr (row s i) j - (1 - phi) * ((∑ r : Fin t, arr (row r i) j) / t) := by
  refine ⟨demeanQ n t phi * arr, by simp [demeanPanel, ht], ?_⟩
  intro s i j
  rw [Matrix.mul_apply, ← (finProdFinEquiv (m := t) (n := n)).sum_comp]
  simp only [Fintype.sum_prod_type, row_eq]
  have e : ∀ (r : Fin t) (l : Fin n),
      demeanQ n t phi (finProdFinEquiv (s, i)) (finProdFinEquiv (r, l)) =
        ((if s = r then 1 else 0) - (1 - phi) * (1 / t)) * (if i = l then 1 else 0) := by
    intro r l
    simp [demeanQ, demeanJ, Matrix.one_apply, Matrix.mul_apply, Matrix.kroneckerMap_apply]
  simp only [e, mul_ite, mul_one, mul_zero, ite_mul, zero_mul, Finset.sum_ite_eq, Finset.mem_univ, if_true,
    sub_mul, one_mul, Finset.sum_sub_distrib]
  rw [← Finset.mul_sum]
  ring_nf
  rw [← Finset.mul_sum]
  ring

/-- C38: with `t = 0` the call raises. -/
theorem C38_no_periods {k : Type} (n : ℕ) (phi : ℝ) (arr : Matrix (Fin (0 * n)) k ℝ) :
    demeanPanel n 0 phi arr = .error .zeroDivision := rfl

theorem ext_row {k : Type} {n t : ℕ} {a b : Matrix (Fin (t * n)) k ℝ}
    (h : ∀ s i j, a (row s i) j = b (row s i) j) : a = b := by
  ext p j
  obtain ⟨⟨s, i⟩, rfl⟩ := (row_bij n t).2 p
  exact h s i j

/-- C38: a variable that does not change over time is mapped to zero (`phi = 0`). -/
theorem C38_time_invariant {k : Type} (n t : ℕ) (ht : t ≠ 0) (arr : Matrix (Fin (t * n)) k ℝ) (c : Fin n → k → ℝ)
    (h : ∀ s i j, arr (row s i) j = c i j) : demeanPanel n t 0 arr = .ok 0 := by
  obtain ⟨d, hd, hd'⟩ := C38_demean n t ht 0 arr
  rw [hd]
  congr 1
  apply ext_row
  intro s i j
  have : (t : ℝ) ≠ 0 := by exact_mod_cast ht
  rw [hd']
  simp [h]
  field_simp
  ring

/-- C38: demeaning twice is demeaning once (`phi = 0`). -/
theorem C38_idempotent {k : Type} (n t : ℕ) (ht : t ≠ 0) (arr : Matrix (Fin (t * n)) k ℝ) :
    (demeanPanel n t 0 arr).bind (demeanPanel n t 0) = demeanPanel n t 0 arr := by
  obtain ⟨d, hd, hd'⟩ := C38_demean n t ht 0 arr
  obtain ⟨e, he, he'⟩ := C38_demean n t ht 0 d
  rw [hd]
  change demeanPanel n t 0 d = _
  rw [he]
  congr 1
  apply ext_row
  intro s i j
  have : (t : ℝ) ≠ 0 := by exact_mod_cast ht
  rw [he', hd']
  have : ∑ r : Fin t, d (row r i) j = 0 := by
    simp only [hd', Finset.sum_sub_distrib, Finset.sum_const, Finset.card_univ, Fintype.card_fin, nsmul_eq_mul]
    field_simp
    ring
  rw [this]; ring

/-- C38: after demeaning with `phi = 0` every unit has mean zero over time. -/
theorem C38_zero_means {k : Type} (n t : ℕ) (ht : t ≠ 0) (arr d : Matrix (Fin (t * n)) k ℝ)
    (hd : demeanPanel n t 0 arr = .ok d) (i : Fin n) (j : k) : ∑ r : Fin t, d (row r i) j = 0 := by
  obtain ⟨d', hd', h⟩ := C38_demean n t ht 0 arr
  rw [hd] at hd'
  obtain rfl : d = d' := by injection hd'
  have : (t : ℝ) ≠ 0 := by exact_mod_cast ht
  simp only [h, Finset.sum_sub_distrib, Finset.sum_const, Finset.card_univ, Fintype.card_fin, nsmul_eq_mul]
  field_simp
  ring

/-- C38: `phi = 1` leaves the data unchanged. -/
theorem C38_phi_one {k : Type} (n t : ℕ) (ht : t ≠ 0) (arr : Matrix (Fin (t * n)) k ℝ) :
    demeanPanel n t 1 arr = .ok arr := by
  obtain ⟨d, hd, hd'⟩ := C38_demean n t ht 1 arr
  rw [hd]
  congr 1
  apply ext_row
  intro s i j
  rw [hd']; ring

/-- C38: adding an individual effect does not change the demeaned data. -/
theorem C38_effects {k : Type} (n t : ℕ) (ht : t ≠ 0) (arr arr' : Matrix (Fin (t * n)) k ℝ) (c : Fin n → k → ℝ)
    (h : ∀ s i j, arr' (row s i) j = arr (row s i) j + c i j) :
    demeanPanel n t 0 arr' = demeanPanel n t 0 arr := by
  obtain ⟨d, hd, hd'⟩ := C38_demean n t ht 0 arr
  obtain ⟨e, he, he'⟩ := C38_demean n t ht 0 arr'
  rw [hd, he]
  congr 1
  apply ext_row
  intro s i j
  have : (t : ℝ) ≠ 0 := by exact_mod_cast ht
  rw [he', hd']
  simp [h, Finset.sum_add_distrib]
  field_simp
  ring

/-- A two-unit, two-period panel meets the hypotheses. -/
example : ∃ arr : Matrix (Fin (2 * 2)) (Fin 1) ℝ, demeanPanel 2 2 0 arr ≠ .ok arr := by
  refine ⟨Matrix.of fun _ _ => 1, ?_⟩
  rw [C38_time_invariant 2 2 (by norm_num) _ (fun _ _ => 1) (by intros; rfl)]
  intro h
  injection h with h
  have := congrFun (congrFun h 0) 0
  simp at this

/-! ### C39: stacking -/

variable {α : Type}

/-- Specification: `m` is the wide array `a` (unit by period) stacked period by period in column `v`. -/
def StackedAt (N T : ℕ) (m : Mat α) (v : ℕ) (a : ℕ → ℕ → α) : Prop :=
  ∀ t < T, ∀ i < N, m.get (t * N + i) v = a i t

theorem reshape_get (a : Mat α) (len : ℕ) (c : Mat α) (h : a.reshapeF len = .ok c) :
    c.rows = len ∧ c.cols = 1 ∧ StackedAt a.rows a.cols c 0 a.get := by
  unfold Mat.reshapeF at h
  split at h
  · injection h with h
    subst h
    refine ⟨rfl, rfl, ?_⟩
    intro t ht i hi
    have hN : 0 < a.rows := by omega
    show a.get ((t * a.rows + i) % a.rows) ((t * a.rows + i) / a.rows) = _
    congr 1
    · rw [Nat.mul_comm, Nat.mul_add_mod, Nat.mod_eq_of_lt hi]
    · rw [Nat.mul_comm, Nat.mul_add_div hN, Nat.div_eq_of_lt hi, Nat.add_zero]
  · cases h

theorem stack_loop (x : Mat α) (N T : ℕ) (hx : x.rows = N) (m : ℕ) : ∀ (s : ℕ) (b : Mat α), (s + m) * T ≤ x.cols →
    b.rows = N * T → b.cols = s → (∀ v < s, StackedAt N T b v fun i t => x.get i (v * T + t)) →
    ∃ b', (List.range' s m).foldlM (stackStep x N T) b = .ok b' ∧ b'.rows = N * T ∧ b'.cols = s + m ∧
      ∀ v < s + m, StackedAt N T b' v fun i t => x.get i (v * T + t) := by
  induction m with
  | zero => intro s b _ hr hc hb; exact ⟨b, rfl, hr, hc, hb⟩
  | succ m ih =>
    intro s b hle hr hc hb
    have h1 : T * (s + 1) ≤ x.cols := by nlinarith
    have h0 : T * s ≤ x.cols := by nlinarith
    have hsl : (x.slice (T * s) (T * (s + 1))).cols = T := by
      simp only [Mat.slice, min_eq_left h1, min_eq_left h0]
      rw [Nat.mul_succ]; omega
    obtain ⟨c, hcok⟩ : ∃ c, (x.slice (T * s) (T * (s + 1))).reshapeF (N * T) = .ok c := by
      refine ⟨_, by rw [Mat.reshapeF, if_pos]; rw [hsl]; simp [Mat.slice, hx]⟩
    obtain ⟨c1, c2, c3⟩ := reshape_get _ _ _ hcok
    rw [hsl] at c3
    rw [List.range'_succ, List.foldlM_cons]
    have hst : stackStep x N T b s =
        .ok ⟨b.rows, b.cols + c.cols, fun i j => if j < b.cols then b.get i j else c.get i (j - b.cols)⟩ := by
      rw [stackStep, hcok]
      show b.hstack c = _
      rw [Mat.hstack, if_pos (by rw [hr, c1])]
    rw [hst]
    obtain ⟨b', e1, e2, e3, e4⟩ := ih (s + 1)
      ⟨b.rows, b.cols + c.cols, fun i j => if j < b.cols then b.get i j else c.get i (j - b.cols)⟩
      (by have : s + 1 + m = s + (m + 1) := by ring
          rw [this]; exact hle) hr (by simp [hc, c2]) (by
        intro v hv t ht i hi
        by_cases h : v < s
        · simp only [hc, h, if_true]
          exact hb v h t ht i hi
        · have : v = s := by omega
          subst this
          simp only [hc, lt_irrefl, if_false, Nat.sub_self]
          have hrow : (x.slice (T * v) (T * (v + 1))).rows = N := hx
          rw [hrow] at c3
          rw [c3 t ht i hi]
          show x.get i (T * v + t) = _
          rw [Nat.mul_comm])
    refine ⟨b', e1, e2, by omega, ?_⟩
    intro v hv
    exact e4 v (by omega)

/-- What a call with wide data returns whenever `x` has at least `T` columns. -/
theorem wide_ok (y x : Mat α) (wn k e : ℕ) (hw : wn ≠ 0) (hdiv : wn ∣ y.rows) (hT : y.cols > 1) (hk : 1 ≤ k)
    (he : e < y.cols) (hx : x.rows = y.rows) (hc : x.cols = k * y.cols + e) :
    ∃ r, checkPanelData y x wn = .ok r ∧ r.T = y.cols ∧ r.k = k ∧
      r.y.rows = y.rows * y.cols ∧ r.y.cols = 1 ∧ StackedAt y.rows y.cols r.y 0 y.get ∧
      r.x.rows = y.rows * y.cols ∧ r.x.cols = k ∧
      ∀ v < k, StackedAt y.rows y.cols r.x v fun i t => x.get i (v * y.cols + t) := by
  have hk' : x.cols / y.cols = k := by
    rw [hc, Nat.mul_comm, Nat.mul_add_div (by omega), Nat.div_eq_of_lt he, Nat.add_zero]
  have hle : y.cols ≤ x.cols := by rw [hc]; nlinarith
  obtain ⟨b, hb⟩ : ∃ b, y.reshapeF (y.rows * y.cols) = .ok b := ⟨_, by rw [Mat.reshapeF, if_pos rfl]⟩
  obtain ⟨b1, b2, b3⟩ := reshape_get _ _ _ hb
  have hsl : (x.slice 0 y.cols).cols = y.cols := by simp [Mat.slice, hle]
  obtain ⟨c, hcok⟩ : ∃ c, (x.slice 0 y.cols).reshapeF (y.rows * y.cols) = .ok c := by
    refine ⟨_, by rw [Mat.reshapeF, if_pos]; rw [hsl]; simp [Mat.slice, hx]⟩
  obtain ⟨c1, c2, c3⟩ := reshape_get _ _ _ hcok
  rw [hsl] at c3
  obtain ⟨bx, e1, e2, e3, e4⟩ := stack_loop x y.rows y.cols hx (k - 1) 1 c
    (by have : 1 + (k - 1) = k := by omega
        rw [this, hc]; omega) c1 c2 (by
      intro v hv t ht i hi
      have : v = 0 := by omega
      subst this
      have hrow : (x.slice 0 y.cols).rows = y.rows := hx
      rw [hrow] at c3
      rw [c3 t ht i hi]
      show x.get i (0 + t) = x.get i (0 * y.cols + t)
      rw [Nat.zero_mul])
  refine ⟨⟨b, bx, k, y.cols⟩, ?_, rfl, rfl, b1, b2, b3, e2, by show bx.cols = k; omega, ?_⟩
  · rw [checkPanelData, if_neg hw, if_neg (by simpa using hdiv), if_pos hT]
    simp only [hk', hb, hcok, Except.bind]
    rw [e1]; rfl
  · intro v hv
    exact e4 v (by omega)

/-- C39 (wide input): with `N` rows in `y` and `x`, `T > 1` columns in `y` and `k*T` columns in `x`, the
stacked arrays have `N*T` rows; row `t*N + i` holds unit `i` in period `t`, and column `v` of the stacked
`x` comes from columns `v*T, ..., v*T + T - 1` of `x`. -/
theorem C39_wide (y x : Mat α) (wn k : ℕ) (hw : wn ≠ 0) (hdiv : wn ∣ y.rows) (hT : y.cols > 1) (hk : 1 ≤ k)
    (hx : x.rows = y.rows) (hc : x.cols = k * y.cols) :
    ∃ r, checkPanelData y x wn = .ok r ∧ r.T = y.cols ∧ r.k = k ∧
      r.y.rows = y.rows * y.cols ∧ r.y.cols = 1 ∧
      (∀ t < y.cols, ∀ i < y.rows, r.y.get (t * y.rows + i) 0 = y.get i t) ∧
      r.x.rows = y.rows * y.cols ∧ r.x.cols = k ∧
      ∀ v < k, ∀ t < y.cols, ∀ i < y.rows, r.x.get (t * y.rows + i) v = x.get i (v * y.cols + t) :=
  wide_ok y x wn k 0 hw hdiv hT hk (by omega) hx (by omega)

/-- A two-variable wide panel meets the hypotheses of `C39_wide`. -/
example : ∃ r, checkPanelData (⟨3, 2, fun i t => 10 * i + t⟩ : Mat ℕ) ⟨3, 4, fun i j => 100 * i + j⟩ 3 = .ok r ∧
    r.x.get 4 1 = 103 ∧ r.y.get 5 0 = 21 := ⟨_, rfl, rfl, rfl⟩

/-- C39 (long input): one column in `y` (or none) passes through, with `T = rows / w.n`. -/
theorem C39_long (y x : Mat α) (wn : ℕ) (hw : wn ≠ 0) (hdiv : wn ∣ y.rows) (hT : y.cols ≤ 1) :
    checkPanelData y x wn = .ok ⟨y, x, x.cols, y.rows / wn⟩ ∧ wn * (y.rows / wn) = y.rows := by
  refine ⟨?_, Nat.mul_div_cancel' hdiv⟩
  rw [checkPanelData, if_neg hw, if_neg (by simpa using hdiv), if_neg (by omega)]

/-- C39: the number of rows of `y` must be a multiple of `w.n`. -/
theorem C39_reject_rows (y x : Mat α) (wn : ℕ) (hw : wn ≠ 0) (h : ¬ wn ∣ y.rows) :
    checkPanelData y x wn = .error .exception := by
  rw [checkPanelData, if_neg hw, if_pos h]

/-- C39: wide `x` with fewer columns than periods is rejected. -/
theorem C39_reject_few (y x : Mat α) (wn : ℕ) (hw : wn ≠ 0) (hdiv : wn ∣ y.rows) (hT : y.cols > 1)
    (hN : 0 < y.rows) (hx : x.rows = y.rows) (hc : x.cols < y.cols) :
    checkPanelData y x wn = .error .valueError := by
  rw [checkPanelData, if_neg hw, if_neg (by simpa using hdiv), if_pos hT]
  have e1 : (y.reshapeF (y.rows * y.cols)) = .ok ⟨y.rows * y.cols, 1, fun p _ => y.get (p % y.rows) (p / y.rows)⟩ := by
    rw [Mat.reshapeF, if_pos rfl]
  have e2 : (x.slice 0 y.cols).reshapeF (y.rows * y.cols) = .error .valueError := by
    rw [Mat.reshapeF, if_neg]
    simp only [Mat.slice, hx, Nat.min_eq_right hc.le, Nat.zero_min, Nat.sub_zero]
    intro h
    have := Nat.eq_of_mul_eq_mul_left hN h
    omega
  simp only [e1, e2, Except.bind]

/-- C39 is violated for other bad shapes: when the number of columns of a wide `x` is not a multiple of
`T`, the trailing columns are dropped without an error or any trace in the result. -/
theorem C39_trailing_dropped_violated (y x x' : Mat α) (wn k e e' : ℕ) (hw : wn ≠ 0) (hdiv : wn ∣ y.rows)
    (hT : y.cols > 1) (hk : 1 ≤ k) (he : e < y.cols) (he' : e' < y.cols) (hx : x.rows = y.rows)
    (hx' : x'.rows = y.rows) (hc : x.cols = k * y.cols + e) (hc' : x'.cols = k * y.cols + e')
    (hag : ∀ i, ∀ j < k * y.cols, x.get i j = x'.get i j) :
    ∃ r r', checkPanelData y x wn = .ok r ∧ checkPanelData y x' wn = .ok r' ∧ r.k = k ∧ r'.k = k ∧
      r.x.rows = r'.x.rows ∧ r.x.cols = r'.x.cols ∧
      ∀ v < k, ∀ t < y.cols, ∀ i < y.rows, r.x.get (t * y.rows + i) v = r'.x.get (t * y.rows + i) v := by
  obtain ⟨r, h1, -, h2, -, -, -, h3, h4, h5⟩ := wide_ok y x wn k e hw hdiv hT hk he hx hc
  obtain ⟨r', h1', -, h2', -, -, -, h3', h4', h5'⟩ := wide_ok y x' wn k e' hw hdiv hT hk he' hx' hc'
  refine ⟨r, r', h1, h1', h2, h2', by rw [h3, h3'], by rw [h4, h4'], ?_⟩
  intro v hv t ht i hi
  rw [h5 v hv t ht i hi, h5' v hv t ht i hi]
  apply hag
  calc v * y.cols + t < v * y.cols + y.cols := by omega
    _ = (v + 1) * y.cols := by ring
    _ ≤ k * y.cols := Nat.mul_le_mul_right _ hv

/-- C39 is also violated in the number of units: wide `y` with twice as many rows as `w` has units is
accepted. -/
theorem C39_double_rows_violated : ∃ r,
    checkPanelData (⟨4, 2, fun i t => 10 * i + t⟩ : Mat ℕ) ⟨4, 2, fun i j => 10 * i + j⟩ 2 = .ok r ∧ r.T = 2 ∧
      r.y.rows = 8 := ⟨_, rfl, rfl, rfl⟩

theorem mapM_ok_of {β γ : Type} (f : β → Py γ) (g : β → γ) : ∀ (l : List β), (∀ a ∈ l, f a = .ok (g a)) →
    l.mapM f = .ok (l.map g)
  | [], _ => rfl
  | a :: l, h => by
    rw [List.mapM_cons, h a (by simp), mapM_ok_of f g l (fun b hb => h b (by simp [hb]))]
    rfl

/-- C39 (names): with `k*T` names, `k` and `T` positive, `T > 1`, variable `v` is called as its first
column, without digits; with `k` names they are kept; any other number is rejected. -/
theorem C39_names (l : List String) (k T : ℕ) (hk : 0 < k) (hT : 1 < T) (hl : l ≠ []) :
    (l.length = k * T → panelNameX (some l) k T =
        .ok (some ((List.range k).map fun v => stripDigits (l.getD (v * T) "")))) ∧
      (l.length = k → panelNameX (some l) k T = .ok (some l)) ∧
      (l.length ≠ k * T → l.length ≠ k → panelNameX (some l) k T = .error .exception) := by
  obtain ⟨a, l', rfl⟩ := List.exists_cons_of_ne_nil hl
  refine ⟨fun h => ?_, fun h => ?_, fun h1 h2 => ?_⟩
  · have hgt : (a :: l').length > k := by rw [h]; nlinarith
    simp only [panelNameX, h, not_true, false_and, if_false, ne_eq]
    rw [if_pos (by rw [← h]; exact hgt)]
    rw [mapM_ok_of _ (fun v => stripDigits ((a :: l').getD (v * T) ""))]
    · rfl
    · intro v hv
      have hv' : v < k := List.mem_range.1 hv
      have hlt : v * T < (a :: l').length := by rw [h]; exact Nat.mul_lt_mul_of_pos_right hv' (by omega)
      rw [List.getElem?_eq_getElem hlt]
      simp [List.getD_eq_getElem?_getD, List.getElem?_eq_getElem hlt]
  · simp [panelNameX, h]
  · simp only [panelNameX]
    rw [if_pos ⟨h1, h2⟩]

example : panelNameX (some ["a1", "a2", "b1", "b2"]) 2 2 = .ok (some ["a", "b"]) := by
  rw [(C39_names _ 2 2 (by norm_num) (by norm_num) (by simp)).1 rfl]
  decide

/-! ### C69: constants in wide panels -/

open Classical in
theorem prepare_eq (y : Mat ℝ) (x : List (List ℝ)) (wn : ℕ) (ny : NameY) (hx : ∀ c ∈ x, c ≠ []) :
    preparePanel y x wn ny none =
      checkPanel y (ofCols y.rows (x.filter fun c => Chk.Varies c)) wn ny none := by
  obtain ⟨zero, pos, -, -, -, -, h⟩ := Chk.checkConstant_core y.rows x true hx
  unfold preparePanel
  rw [h]
  have : Chk.constNames none zero pos = .ok (none, if zero = [] then none else some (.count zero.length)) := by
    unfold Chk.constNames
    by_cases h0 : zero = [] <;> simp [h0]
  rw [this]
  simp only [Except.map, bind, Except.bind, if_true, List.nil_append]

/-- C69 is violated: `prepare_panel` removes constant columns before it groups the columns of a wide `x`
by variable. With two variables `a`, `b` over two periods and `a` constant in the first period, the only
regressor that is left consists of `a` in period 2 followed by `b` in period 1. -/
theorem C69_mixed_violated : ∃ r, preparePanel ⟨3, 2, fun i t => (i : ℝ) + t⟩
      [[7, 7, 7], [1, 2, 3], [10, 20, 30], [40, 50, 60]] 3 .none none = .ok r ∧
    r.1.k = 1 ∧ r.1.x.cols = 1 ∧
      (List.range 6).map (fun p => r.1.x.get p 0) = [1, 2, 3, 10, 20, 30] := by
  rw [prepare_eq _ _ _ _ (by simp)]
  classical
  have : ([[7, 7, 7], [1, 2, 3], [10, 20, 30], [40, 50, 60]] : List (List ℝ)).filter (fun c => Chk.Varies c) =
      [[1, 2, 3], [10, 20, 30], [40, 50, 60]] := by
    simp [Chk.Varies, List.filter_cons]
  rw [this]
  exact ⟨_, rfl, rfl, rfl, rfl⟩

theorem filter_flatten_blocks {β : Type} (q : β → Bool) : ∀ (bs : List (List β)),
    (∀ b ∈ bs, (∀ c ∈ b, q c = true) ∨ (∀ c ∈ b, q c = false)) → (∀ b ∈ bs, b ≠ []) →
    bs.flatten.filter q = (bs.filter fun b => b.all q).flatten
  | [], _, _ => rfl
  | b :: bs, h, hn => by
    have ih := filter_flatten_blocks q bs (fun c hc => h c (by simp [hc])) (fun c hc => hn c (by simp [hc]))
    rw [List.flatten_cons, List.filter_append, ih, List.filter_cons]
    rcases h b (by simp) with hb | hb
    · rw [if_pos (by simpa [List.all_eq_true] using hb), List.filter_eq_self.2 hb, List.flatten_cons]
    · rw [if_neg, List.filter_eq_nil_iff.2 (by simpa using hb), List.nil_append]
      obtain ⟨c, l, rfl⟩ := List.exists_cons_of_ne_nil (hn b (by simp))
      simp [hb c (by simp)]

theorem flatten_get {β : Type} (T : ℕ) (d : β) : ∀ (bs : List (List β)), (∀ b ∈ bs, b.length = T) →
    bs.flatten.length = bs.length * T ∧
    ∀ v t, v < bs.length → t < T → bs.flatten.getD (v * T + t) d = (bs.getD v []).getD t d
  | [], _ => ⟨by simp, by simp⟩
  | b :: bs, h => by
    obtain ⟨ih1, ih2⟩ := flatten_get T d bs (fun c hc => h c (by simp [hc]))
    have hb : b.length = T := h b (by simp)
    refine ⟨by simp only [List.flatten_cons, List.length_append, ih1, List.length_cons, hb]; ring, ?_⟩
    intro v t hv ht
    rw [List.flatten_cons]
    cases v with
    | zero =>
      rw [Nat.zero_mul, Nat.zero_add]
      simp [List.getD_eq_getElem?_getD, List.getElem?_append_left (by omega : t < b.length)]
    | succ v =>
      have := ih2 v t (by simpa using hv) ht
      rw [List.getD_eq_getElem?_getD, List.getElem?_append_right (by rw [hb]; nlinarith),
        hb, show (v + 1) * T + t - T = v * T + t by rw [Nat.succ_mul]; omega, ← List.getD_eq_getElem?_getD, this]
      simp

open Classical in
/-- C69 on its good domain. The variables are `vars`, each a list of `T` columns (one per period) of `N`
values. If every variable either varies over units in every period or in none, the stacked regressors are
exactly the variables that vary, in order, each stacked period by period. -/
theorem C69_blocks_partial (y : Mat ℝ) (vars : List (List (List ℝ))) (wn : ℕ) (hw : wn ≠ 0) (hdiv : wn ∣ y.rows)
    (hT : y.cols > 1) (hN : 0 < y.rows) (hper : ∀ v ∈ vars, v.length = y.cols)
    (hlen : ∀ v ∈ vars, ∀ c ∈ v, c.length = y.rows)
    (hgood : ∀ v ∈ vars, (∀ c ∈ v, Chk.Varies c) ∨ (∀ c ∈ v, ¬ Chk.Varies c))
    (kept : List (List (List ℝ))) (hk : kept = vars.filter fun v => v.all fun c => Chk.Varies c) (hk0 : kept ≠ []) :
    ∃ r, preparePanel y vars.flatten wn .none none = .ok r ∧ r.1.k = kept.length ∧
      r.1.x.cols = kept.length ∧ r.1.x.rows = y.rows * y.cols ∧
      ∀ v < kept.length, ∀ t < y.cols, ∀ i < y.rows,
        r.1.x.get (t * y.rows + i) v = (((kept.getD v []).getD t []).getD i 0) := by
  rw [prepare_eq]
  · rw [filter_flatten_blocks _ _ (by simpa using hgood)
      (by intro v hv h0; have := hper v hv; rw [h0] at this; simp at this; omega)]
    rw [← hk]
    obtain ⟨f1, f2⟩ := flatten_get y.cols ([] : List ℝ) kept
      (by intro b hb; exact hper b (by rw [hk] at hb; exact List.mem_of_mem_filter hb))
    obtain ⟨r, h1, -, h2, -, -, -, h6, h7, h8⟩ := C39_wide y (ofCols y.rows kept.flatten) wn kept.length hw hdiv hT
      (List.length_pos_iff.2 hk0) rfl f1
    refine ⟨(r, .none, none), ?_, h2, h7, h6, ?_⟩
    · unfold checkPanel
      rw [h1]; rfl
    · intro v hv t ht i hi
      rw [h8 v hv t ht i hi]
      show (kept.flatten.getD (v * y.cols + t) []).getD i 0 = _
      rw [f2 v t hv ht]
  · intro c hc h0
    obtain ⟨v, hv, hcv⟩ := List.mem_flatten.1 hc
    have := hlen v hv c hcv
    rw [h0] at this
    simp at this
    omega

open Classical in
/-- A panel with one varying variable and one constant variable meets the hypotheses. -/
example : ∃ r, preparePanel ⟨2, 2, fun i t => (i : ℝ) + t⟩ [[1, 2], [3, 4], [5, 5], [6, 6]] 2 .none none = .ok r ∧
    r.1.k = 1 ∧ r.1.x.get 3 0 = 4 := by
  obtain ⟨r, h1, h2, -, -, h5⟩ := C69_blocks_partial ⟨2, 2, fun i t => (i : ℝ) + t⟩
    [[[1, 2], [3, 4]], [[5, 5], [6, 6]]] 2 (by norm_num) (by norm_num) (by norm_num) (by norm_num)
    (by simp) (by simp) (by simp [Chk.Varies]) [[[1, 2], [3, 4]]] (by simp [Chk.Varies, List.filter_cons]) (by simp)
  exact ⟨r, h1, h2, by simpa using h5 0 (by simp) 1 (by norm_num) 1 (by norm_num)⟩

end Spreg.Panel
