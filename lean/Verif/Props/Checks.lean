import Verif.Model.Checks
import Mathlib.Tactic
/-
C50: argument checks accept exactly the valid inputs. C51: constant columns. C52: warnings.
C66: the caller's arrays are not modified.
-/
namespace Spreg.Chk

/-! ### C50 check_arrays -/

theorem FVal.add_isfinite (a b : FVal) : (a.add b).isfinite = (a.isfinite && b.isfinite) := by
  cases a <;> cases b <;> rfl

theorem foldl_add_isfinite (l : List FVal) (a : FVal) :
    (l.foldl FVal.add a).isfinite = (a.isfinite && l.all FVal.isfinite) := by
  induction l generalizing a with
  | nil => simp
  | cons b l ih => rw [List.foldl_cons, ih, FVal.add_isfinite, List.all_cons, Bool.and_assoc]

/-- C50: testing the sum of the entries finds every NaN and every infinity, in any position and
combination (including `inf` and `-inf` together). -/
theorem C50_finite_sum (a : Arr) : spisfinite a = true ↔ ∀ v ∈ a.data, ∃ x, v = .fin x := by
  unfold spisfinite fsum
  rw [foldl_add_isfinite]
  simp only [FVal.isfinite, Bool.true_and, List.all_eq_true]
  refine forall₂_congr fun v _ => ?_
  cases v <;> simp [FVal.isfinite]

/-- The value carried by an argument that is an array of an accepted type. -/
def Obj.arr? : Obj → Option Arr
  | .ndarray a | .csr a | .series a _ | .frame a _ => some a
  | .none | .obj => Option.none

/-- Specification: an acceptable data argument with `n` rows: an array or a pandas object, one- or
two-dimensional, with at most as many columns as rows, without NaN or infinities. -/
def ValidWithRows (o : Obj) (n : ℕ) : Prop :=
  ∃ a, o.arr? = some a ∧ (∃ c, (a.shape = [n] ∧ c = 1 ∨ a.shape = [n, c]) ∧ c ≤ n) ∧
    ∀ v ∈ a.data, ∃ x, v = FVal.fin x

theorem checkShape_iff (a : Arr) (n : ℕ) : checkShape a = .ok (some n) ↔
    ((∃ c, (a.shape = [n] ∧ c = 1 ∨ a.shape = [n, c]) ∧ c ≤ n) ∧ ∀ v ∈ a.data, ∃ x, v = FVal.fin x) := by
  rw [← C50_finite_sum]
  unfold checkShape
  rcases hs : a.shape with _ | ⟨r, _ | ⟨c, _ | ⟨d, l⟩⟩⟩
  · simp
  · cases hf : spisfinite a
    · by_cases h : r < 1 <;> simp [h]
    · by_cases h : r < 1
      · simp [h]; rintro rfl; omega
      · simp [h]; rintro rfl; omega
  · cases hf : spisfinite a
    · by_cases h : r < c <;> simp [h]
    · by_cases h : r < c
      · simp [h]; rintro rfl; omega
      · simp [h]; rintro rfl; omega
  · simp

theorem checkShape_ne_none (a : Arr) : checkShape a ≠ .ok none := by
  unfold checkShape
  split
  · simp
  · split
    · split
      · simp
      · split <;> simp
    · simp

theorem checkArray1_none (o : Obj) : checkArray1 o = .ok none ↔ o = .none := by
  cases o <;> simp [checkArray1, checkShape_ne_none]

theorem checkArray1_some (o : Obj) (n : ℕ) : checkArray1 o = .ok (some n) ↔ ValidWithRows o n := by
  unfold ValidWithRows
  cases o <;> simp [checkArray1, Obj.arr?, checkShape_iff]

theorem mapM_ok_iff {α β : Type} (f : α → Py β) (l : List α) (r : List β) :
    l.mapM f = .ok r ↔ List.Forall₂ (fun a b => f a = .ok b) l r := by
  induction l generalizing r with
  | nil =>
    simp only [List.mapM_nil, List.forall₂_nil_left_iff]
    constructor
    · intro h; cases h; rfl
    · rintro rfl; rfl
  | cons a l ih =>
    rw [List.mapM_cons]
    constructor
    · intro h
      cases ha : f a with
      | error e => rw [ha] at h; cases h
      | ok b =>
        rw [ha] at h
        cases hl : l.mapM f with
        | error e => rw [hl] at h; cases h
        | ok bs => rw [hl] at h; cases h; exact .cons ha ((ih bs).1 hl)
    · intro h
      cases h with
      | cons h1 h2 => rw [h1, (ih _).2 h2]; rfl

/-- C50: `check_arrays` returns `n` exactly when at least one argument is given and every argument that
is given is a valid array with `n` rows. -/
theorem C50_check_arrays (l : List Obj) (n : ℕ) :
    checkArrays l = .ok n ↔ (∃ o ∈ l, o ≠ .none) ∧ ∀ o ∈ l, o ≠ .none → ValidWithRows o n := by
  classical
  unfold checkArrays
  constructor
  · intro h
    cases hm : l.mapM checkArray1 with
    | error e => rw [hm] at h; cases h
    | ok rows =>
      rw [hm] at h
      change (if (rows.filterMap id).dedup.length > 1 then _ else _) = _ at h
      rw [mapM_ok_iff] at hm
      have hall : ∀ r ∈ rows.filterMap id, r = n := by
        split at h
        · cases h
        · next hd =>
          split at h
          · cases h
          · next r t hrt =>
            cases h
            intro s hs
            rw [hrt] at hs hd
            by_contra hne
            have : [n, s] ⊆ (n :: t).dedup := by
              intro z hz
              rw [List.mem_dedup]
              simp at hz; rcases hz with rfl | rfl
              · simp
              · exact hs
            have h2 : [n, s].Nodup := by simp; exact fun e => hne e.symm
            have := (List.subperm_of_subset h2 this).length_le
            simp at this; omega
      have hne : rows.filterMap id ≠ [] := by
        intro e; rw [e] at h; simp at h
      obtain ⟨r, hr⟩ := List.exists_mem_of_ne_nil _ hne
      have hrel : ∀ o ∈ l, ∃ b ∈ rows, checkArray1 o = .ok b := by
        intro o ho
        obtain ⟨i, hi, rfl⟩ := List.mem_iff_getElem.1 ho
        have hl := hm.length_eq
        exact ⟨rows[i], List.getElem_mem _, List.Forall₂.get hm hi (hl ▸ hi)⟩
      refine ⟨?_, fun o ho hn => ?_⟩
      · rw [List.mem_filterMap] at hr
        obtain ⟨b, hb, e⟩ := hr
        simp only [id] at e
        subst e
        obtain ⟨i, hi, e⟩ := List.mem_iff_getElem.1 hb
        have hl := hm.length_eq
        have := List.Forall₂.get hm (hl ▸ hi) hi
        refine ⟨l[i]'(hl ▸ hi), List.getElem_mem _, fun hc => ?_⟩
        simp only [List.get_eq_getElem] at this
        rw [hc, e] at this
        simp [checkArray1] at this
      · obtain ⟨b, hb, e⟩ := hrel o ho
        cases b with
        | none => exact absurd ((checkArray1_none o).1 e) hn
        | some r =>
          have := hall r (List.mem_filterMap.2 ⟨some r, hb, rfl⟩)
          rw [← this]; exact (checkArray1_some o r).1 e
  · rintro ⟨⟨o, ho, hon⟩, hv⟩
    have hm : l.mapM checkArray1 = .ok (l.map fun o => if o = .none then none else some n) := by
      rw [mapM_ok_iff]
      have : ∀ l' : List Obj, (∀ o ∈ l', o ≠ .none → ValidWithRows o n) → List.Forall₂
          (fun a b => checkArray1 a = Except.ok b) l' (l'.map fun o => if o = .none then none else some n) := by
        intro l' hv
        induction l' with
        | nil => exact .nil
        | cons a l ih =>
        refine .cons ?_ (ih fun o ho => hv o (List.mem_cons_of_mem _ ho))
        dsimp only
        split
        · next e => rw [e]; rfl
        · next e => exact (checkArray1_some a n).2 (hv a (by simp) e)
      exact this l hv
    rw [hm]
    change (if _ then _ else _) = _
    have hall : ∀ r ∈ (l.map fun o => if o = .none then none else some n).filterMap id, r = n := by
      intro r hr
      simp only [List.mem_filterMap, List.mem_map, id] at hr
      obtain ⟨a, ⟨o, _, rfl⟩, e⟩ := hr
      split at e
      · cases e
      · cases e; rfl
    have hmem : n ∈ (l.map fun o => if o = .none then none else some n).filterMap id := by
      simp only [List.mem_filterMap, List.mem_map, id]
      exact ⟨some n, ⟨o, ho, by simp [hon]⟩, rfl⟩
    generalize (l.map fun o => if o = .none then none else some n).filterMap id = rows at *
    have hd : rows.dedup = [n] := by
      have h1 : ∀ r ∈ rows.dedup, r = n := fun r hr => hall r (List.mem_dedup.1 hr)
      have h2 := List.nodup_dedup rows
      have h3 : n ∈ rows.dedup := List.mem_dedup.2 hmem
      generalize rows.dedup = d at *
      match d, h1, h2, h3 with
      | [a], h1, _, _ => rw [h1 a (by simp)]
      | a :: b :: t, h1, h2, _ =>
        have := h1 a (by simp); have := h1 b (by simp); subst_vars
        simp at h2
    rw [hd]
    simp only [List.length_singleton, gt_iff_lt, lt_irrefl, if_false]
    cases rows with
    | nil => cases hmem
    | cons r t => rw [hall r (by simp)]

/-- Non-vacuity: a 3-vector and a 3 x 2 array are accepted with n = 3. -/
example : checkArrays [.ndarray ⟨[3], [.fin 1, .fin 2, .fin 3], .number⟩, .none,
    .ndarray ⟨[3, 2], [.fin 1, .fin 2, .fin 3, .fin 4, .fin 5, .fin 6], .number⟩] = .ok 3 := by
  rw [C50_check_arrays]
  refine ⟨⟨_, List.mem_cons_self, by simp⟩, ?_⟩
  intro o ho hn
  simp at ho
  rcases ho with rfl | rfl | rfl
  · exact ⟨_, rfl, ⟨1, .inl ⟨rfl, rfl⟩, by norm_num⟩, by simp⟩
  · exact absurd rfl hn
  · exact ⟨_, rfl, ⟨2, .inr rfl, by norm_num⟩, by simp⟩

/-- C50: calling `check_arrays` with nothing but `None` is an IndexError, not a clean rejection. -/
theorem C50_all_none (m : ℕ) : checkArrays (List.replicate m .none) = .error .indexError := by
  unfold checkArrays
  have : (List.replicate m Obj.none).mapM checkArray1 = .ok (List.replicate m none) := by
    rw [mapM_ok_iff]
    induction m with
    | zero => exact .nil
    | succ m ih => exact .cons rfl ih
  rw [this]
  change (if _ then _ else _) = _
  have : (List.replicate m (none : Option ℕ)).filterMap id = [] := by
    rw [List.filterMap_eq_nil_iff]; intro a ha; rw [(List.mem_replicate.1 ha).2]; rfl
  rw [this]; simp

/-! ### C50 check_y -/

/-- C50: the dependent variable is accepted exactly when it is an array or a pandas object of shape
`(n,)` or `(n, 1)` with a numeric (not boolean) dtype and only finite entries. It is returned as the same
entries in the shape `(n, 1)`, and the returned name is the given one, or else that of the pandas object. -/
theorem C50_check_y (y : Obj) (n : ℕ) (nm : YName) (a' : Arr) (nm' : YName) :
    checkY y n nm = .ok (a', nm') ↔
      ∃ a, (y = .ndarray a ∨ (∃ s, y = .series a s) ∨ ∃ c, y = .frame a c) ∧
        (a.shape = [n] ∨ a.shape = [n, 1]) ∧ a.dtype = .number ∧ (∀ v ∈ a.data, ∃ x, v = FVal.fin x) ∧
        a' = ⟨[n, 1], a.data, .number⟩ ∧ nm' = yNameOf y nm := by
  have key : ∀ a : Arr, checkYArr a n = .ok a' ↔ ((a.shape = [n] ∨ a.shape = [n, 1]) ∧ a.dtype = .number ∧
      (∀ v ∈ a.data, ∃ x, v = FVal.fin x) ∧ a' = ⟨[n, 1], a.data, .number⟩) := by
    rintro ⟨shape, data, dt⟩
    have hfin : (data.all FVal.isfinite = true) ↔ ∀ v ∈ data, ∃ x, v = FVal.fin x := by
      rw [List.all_eq_true]
      refine forall₂_congr fun v _ => ?_
      cases v <;> simp [FVal.isfinite]
    rw [← hfin]
    unfold checkYArr checkNumericBool
    rcases shape with _ | ⟨r, _ | ⟨c, _ | ⟨d, l⟩⟩⟩
    · simp
    · by_cases hr : r = n
      · subst hr
        cases dt <;> cases hd : data.all FVal.isfinite <;> simp [hd, eq_comm]
      · simp [hr]
    · by_cases hrc : [r, c] = [n, 1]
      · simp at hrc; obtain ⟨rfl, rfl⟩ := hrc
        cases dt <;> cases hd : data.all FVal.isfinite <;> simp [hd, eq_comm]
      · have h2 : ¬ (r = n ∧ c = 1) := by simpa using hrc
        simp [hrc]
    · simp
  have kmap : ∀ (a : Arr) (m : YName), (checkYArr a n).map (·, m) = .ok (a', nm') ↔
      checkYArr a n = .ok a' ∧ nm' = m := by
    intro a m
    cases checkYArr a n with
    | error e => simp [Except.map]
    | ok b => simp [Except.map, eq_comm]
  unfold checkY
  cases y with
  | none => simp
  | csr a => simp
  | obj => simp
  | ndarray a => simp only [kmap, key]; simp; tauto
  | series a s => simp only [kmap, key]; simp; tauto
  | frame a c => simp only [kmap, key]; simp; tauto

/-- C50: a one-column DataFrame without an explicit name gives its column's name. -/
theorem C50_check_y_name (a : Arr) (c : String) (nm : YName) (hn : nm.truthy = false) :
    yNameOf (.frame a [c]) nm = .str c := by
  simp [yNameOf, hn]

/-! ### C50 check_weights -/

theorem foldl_min_max (d : ℝ) (ds : List ℝ) (c : ℝ) :
    (ds.foldl min d = c ∧ ds.foldl max d = c) ↔ ∀ v ∈ d :: ds, v = c := by
  have hmin : ∀ (l : List ℝ) (a : ℝ), (∀ v ∈ a :: l, l.foldl min a ≤ v) := by
    intro l; induction l with
    | nil => intro a v hv; simp at hv; simp [hv]
    | cons b l ih =>
      intro a v hv
      rw [List.foldl_cons]
      have h0 := ih (min a b) (min a b) (by simp)
      simp only [List.mem_cons] at hv
      rcases hv with rfl | rfl | hv
      · exact h0.trans (min_le_left _ _)
      · exact h0.trans (min_le_right _ _)
      · exact ih _ v (by simp [hv])
  have hmax : ∀ (l : List ℝ) (a : ℝ), (∀ v ∈ a :: l, v ≤ l.foldl max a) := by
    intro l; induction l with
    | nil => intro a v hv; simp at hv; simp [hv]
    | cons b l ih =>
      intro a v hv
      rw [List.foldl_cons]
      have h0 := ih (max a b) (max a b) (by simp)
      simp only [List.mem_cons] at hv
      rcases hv with rfl | rfl | hv
      · exact (le_max_left _ _).trans h0
      · exact (le_max_right _ _).trans h0
      · exact ih _ v (by simp [hv])
  constructor
  · rintro ⟨h1, h2⟩ v hv
    have := hmin ds d v hv; have := hmax ds d v hv
    linarith
  · intro h
    have hd := h d (by simp); subst hd
    clear hmin hmax
    induction ds with
    | nil => simp
    | cons b l ih =>
      have hb := h b (by simp)
      rw [List.foldl_cons, List.foldl_cons, hb, min_self, max_self]
      exact ih fun v hv => by
        simp only [List.mem_cons] at hv
        rcases hv with rfl | hv
        · rfl
        · exact h v (by simp [hv])

theorem checkWDim_iff (m : WM) (yrows : ℕ) (time : Bool) :
    checkWDim m yrows time = .ok () ↔ (m.n = yrows ∨ time = true) ∧ m.diag ≠ [] ∧ ∀ v ∈ m.diag, v = 0 := by
  unfold checkWDim
  by_cases h : m.n ≠ yrows ∧ time = false
  · rw [if_pos h]
    simp only [reduceCtorEq, false_iff]
    rintro ⟨h1 | h1, _⟩
    · exact h.1 h1
    · rw [h.2] at h1; cases h1
  · rw [if_neg h]
    have h' : m.n = yrows ∨ time = true := by
      by_cases e : m.n = yrows
      · exact .inl e
      · cases time
        · exact absurd ⟨e, rfl⟩ h
        · exact .inr rfl
    cases hd : m.diag with
    | nil => simp
    | cons d ds =>
      have := foldl_min_max d ds 0
      dsimp only
      split
      · next hh =>
        simp only [reduceCtorEq, false_iff]
        rintro ⟨_, _, h3⟩
        have := this.2 h3
        tauto
      · next hh =>
        push Not at hh
        simp only [true_iff]
        exact ⟨h', by simp, this.1 hh⟩

/-- The matrix inside a weights argument. -/
def WArg.m? : WArg → Option WM
  | .none => Option.none
  | .graph m | .dense m | .sparse m | .w m | .kernel m | .other m => some m

/-- C50: whatever combination of options, weights that pass have the right dimension (unless the panel flag
is set) and a zero diagonal. -/
theorem C50_weights_sound (w : WArg) (yrows : ℕ) (req time allow : Bool) (l : ℤ) (m : WM)
    (h : checkWeights w yrows req time l allow = .ok (some m)) :
    (time = false → m.n = yrows) ∧ m.diag ≠ [] ∧ ∀ v ∈ m.diag, v = 0 := by
  have key : ∀ m', (checkWDim m' yrows time).map (fun _ => some m') = .ok (some m) →
      (time = false → m.n = yrows) ∧ m.diag ≠ [] ∧ ∀ v ∈ m.diag, v = 0 := by
    intro m' hm
    cases hc : checkWDim m' yrows time with
    | error e => rw [hc] at hm; simp [Except.map] at hm
    | ok u =>
      rw [hc] at hm; simp [Except.map] at hm; subst hm
      have := (checkWDim_iff m' yrows time).1 (by rw [hc])
      exact ⟨fun ht => this.1.resolve_right (by rw [ht]; simp), this.2⟩
  unfold checkWeights at h
  cases w <;> simp only at h
  case none => split at h <;> simp at h
  case kernel k =>
    split at h
    · split at h
      · exact key _ h
      · split at h
        · cases h
        · split at h
          · cases h
          · exact key _ h
    · cases h
  all_goals (split at h; exact key _ h; cases h)

/-- C50: an ordinary weights object is accepted exactly when it has the right dimension (or the panel
flag is set) and a zero diagonal, whatever the other options; it is returned unchanged. -/
theorem C50_weights_w (m : WM) (yrows : ℕ) (req time allow : Bool) (l : ℤ) (m' : Option WM) (w : WArg)
    (hw : w = .w m ∨ w = .graph m ∨ w = .dense m ∨ w = .sparse m) :
    checkWeights w yrows req time l allow = .ok m' ↔
      m' = some m ∧ (m.n = yrows ∨ time = true) ∧ m.diag ≠ [] ∧ ∀ v ∈ m.diag, v = 0 := by
  rw [← checkWDim_iff]
  rcases hw with rfl | rfl | rfl | rfl <;>
  · unfold checkWeights
    simp only [true_or, or_true, if_true]
    cases checkWDim m yrows time <;> simp [Except.map, eq_comm]

/-- C50: no weights: an error exactly when they are needed (required, or spatial lags of `x`). -/
theorem C50_weights_none (yrows : ℕ) (req time allow : Bool) (l : ℤ) :
    (checkWeights .none yrows req time l allow = .ok none ↔ req = false ∧ l ≤ 0) ∧
    (checkWeights .none yrows req time l allow = .error .exception ↔ req = true ∨ 0 < l) := by
  unfold checkWeights
  cases req
  · by_cases hl : 0 < l
    · simp [hl]
    · simp [hl]; omega
  · simp

/-- C50: kernel weights are accepted only for a first-order SLX model that allows them, and then their
diagonal is set to zero (for a nonnegative number of lags). -/
theorem C50_weights_kernel (m : WM) (yrows : ℕ) (req time allow : Bool) (l : ℤ) (hl : 0 ≤ l) (m' : Option WM) :
    checkWeights (.kernel m) yrows req time l allow = .ok m' ↔
      l = 1 ∧ allow = true ∧ (m.n = yrows ∨ time = true) ∧ m.diag ≠ [] ∧
        m' = some ⟨m.n, List.replicate m.diag.length 0⟩ := by
  unfold checkWeights
  simp only [true_or, or_true, if_true]
  have hrep : (m.diag.map fun _ => (0:ℝ)) = List.replicate m.diag.length 0 := by
    rw [List.map_const']
  have hdim := checkWDim_iff ⟨m.n, List.replicate m.diag.length 0⟩ yrows time
  rw [hrep]
  by_cases h1 : l = 1 ∧ allow = true
  · rw [if_pos h1]
    have h3 : (∀ v ∈ List.replicate m.diag.length (0:ℝ), v = 0) := fun v hv => (List.mem_replicate.1 hv).2
    have h4 : (List.replicate m.diag.length (0:ℝ) ≠ []) ↔ m.diag ≠ [] := by simp
    replace hdim : _ ↔ (m.n = yrows ∨ time = true) ∧ m.diag ≠ [] := hdim.trans
      ⟨fun h => ⟨h.1, h4.1 h.2.1⟩, fun h => ⟨h.1, h4.2 h.2, h3⟩⟩
    cases hc : checkWDim ⟨m.n, List.replicate m.diag.length 0⟩ yrows time with
    | error e =>
      rw [hc] at hdim
      simp only [reduceCtorEq, false_iff] at hdim
      simp only [Except.map, reduceCtorEq, false_iff]
      rintro ⟨_, _, h, h', _⟩
      exact hdim ⟨h, h'⟩
    | ok u =>
      have := hdim.1 (by rw [hc])
      simp only [Except.map, Except.ok.injEq]
      constructor
      · rintro rfl; exact ⟨h1.1, h1.2, this.1, this.2, rfl⟩
      · rintro ⟨_, _, _, _, rfl⟩; rfl
  · rw [if_neg h1]
    have : ¬ (l = 1 ∧ allow = true ∧ (m.n = yrows ∨ time = true) ∧ m.diag ≠ [] ∧
        m' = some ⟨m.n, List.replicate m.diag.length 0⟩) := fun h => h1 ⟨h.1, h.2.1⟩
    simp only [this, iff_false]
    split
    · simp
    · split
      · simp
      · next h2 h3 =>
        exfalso
        push Not at h3
        have h5 : allow = true := by simpa using h3.2
        have h6 : l ≠ 1 := fun e => h1 ⟨e, h5⟩
        have h7 := h3.1
        omega

example : checkWeights (.w ⟨2, [0, 0]⟩) 2 true false 0 false = .ok (some ⟨2, [0, 0]⟩) := by
  rw [C50_weights_w ⟨2, [0, 0]⟩ _ _ _ _ _ _ _ (.inl rfl)]; simp

example : checkWeights (.kernel ⟨2, [1, 1]⟩) 2 true false 1 true = .ok (some ⟨2, [0, 0]⟩) := by
  rw [C50_weights_kernel _ _ _ _ _ _ (by norm_num)]; simp [List.replicate]

/-! ### C50 check_robust, check_spat_diag -/

theorem foldl_min_lt (d : ℝ) (ds : List ℝ) (c : ℝ) : ¬ (ds.foldl min d < c) ↔ ∀ v ∈ d :: ds, c ≤ v := by
  induction ds generalizing d with
  | nil => simp
  | cons b l ih =>
    rw [List.foldl_cons, ih]
    simp only [List.mem_cons, forall_eq_or_imp, le_min_iff, and_assoc]

theorem foldl_max_gt (d : ℝ) (ds : List ℝ) (c : ℝ) : ¬ (ds.foldl max d > c) ↔ ∀ v ∈ d :: ds, v ≤ c := by
  induction ds generalizing d with
  | nil => simp
  | cons b l ih =>
    rw [List.foldl_cons, ih]
    simp only [List.mem_cons, forall_eq_or_imp, max_le_iff, and_assoc]

theorem checkKernel_iff (k : Kern) :
    checkKernel k = .ok () ↔ k.diag ≠ [] ∧ (∀ v ∈ k.diag, v = 1) ∧
      ∀ vals ∈ k.weights, vals ≠ [] ∧ ∀ v ∈ vals, 0 ≤ v ∧ v ≤ 1 := by
  have hw : ∀ ws : List (List ℝ), (ws.foldlM (fun _ vals => checkKernelRow vals) ()) = .ok () ↔
      ∀ vals ∈ ws, vals ≠ [] ∧ ∀ v ∈ vals, 0 ≤ v ∧ v ≤ 1 := by
    intro ws
    induction ws with
    | nil => simp [pure, Except.pure]
    | cons a ws ih =>
      rw [List.foldlM_cons]
      cases a with
      | nil => simp [checkKernelRow, bind, Except.bind]
      | cons v vs =>
        have hrow : checkKernelRow (v :: vs) = if vs.foldl min v < 0 then .error .exception else
          if vs.foldl max v > 1 then .error .exception else .ok () := rfl
        rw [hrow]
        by_cases h1 : vs.foldl min v < 0
        · rw [if_pos h1]
          simp only [bind, Except.bind, reduceCtorEq, false_iff]
          intro h
          have := (h (v :: vs) (by simp)).2
          exact (foldl_min_lt v vs 0).2 (fun z hz => (this z hz).1) h1
        · rw [if_neg h1]
          by_cases h2 : vs.foldl max v > 1
          · rw [if_pos h2]
            simp only [bind, Except.bind, reduceCtorEq, false_iff]
            intro h
            have := (h (v :: vs) (by simp)).2
            exact (foldl_max_gt v vs 1).2 (fun z hz => (this z hz).2) h2
          · rw [if_neg h2]
            simp only [bind, Except.bind]
            rw [ih]
            rw [foldl_min_lt] at h1
            rw [foldl_max_gt] at h2
            constructor
            · intro h vals hv
              rw [List.mem_cons] at hv
              rcases hv with rfl | hv
              · exact ⟨by simp, fun z hz => ⟨h1 z hz, h2 z hz⟩⟩
              · exact h vals hv
            · intro h vals hv; exact h vals (List.mem_cons_of_mem _ hv)
  unfold checkKernel
  cases hd : k.diag with
  | nil => simp
  | cons d ds =>
    dsimp only
    by_cases h1 : ds.foldl min d < 1
    · rw [if_pos h1]
      simp only [reduceCtorEq, false_iff]
      rintro ⟨_, h, _⟩
      exact (foldl_min_lt d ds 1).2 (fun z hz => (h z hz).ge) h1
    · rw [if_neg h1]
      by_cases h2 : ds.foldl max d > 1
      · rw [if_pos h2]
        simp only [reduceCtorEq, false_iff]
        rintro ⟨_, h, _⟩
        exact (foldl_max_gt d ds 1).2 (fun z hz => (h z hz).le) h2
      · rw [if_neg h2, hw]
        rw [foldl_min_lt] at h1
        rw [foldl_max_gt] at h2
        exact ⟨fun h => ⟨by simp, fun v hv => le_antisymm (h2 v hv) (h1 v hv), h⟩, fun h => h.2.2⟩

/-- C50: `check_robust` accepts exactly: no option; `white` or `ogmm` in any capitalisation; `hac` in any
capitalisation together with a kernel weights object with unit diagonal and weights in [0, 1]. -/
theorem C50_check_robust (r : Option String) (wk : Option Kern) :
    checkRobust r wk = .ok () ↔
      r = none ∨ r = some "" ∨
      (∃ s, r = some s ∧ (lower s = "white" ∨ lower s = "ogmm")) ∨
      (∃ s k, r = some s ∧ lower s = "hac" ∧ wk = some k ∧ k.diag ≠ [] ∧ (∀ v ∈ k.diag, v = 1) ∧
        ∀ vals ∈ k.weights, vals ≠ [] ∧ ∀ v ∈ vals, 0 ≤ v ∧ v ≤ 1) := by
  unfold checkRobust
  cases r with
  | none => simp
  | some s =>
    dsimp only
    by_cases h0 : s = ""
    · rw [if_pos h0]; simp [h0]
    · rw [if_neg h0]
      by_cases h1 : lower s = "hac"
      · rw [if_pos h1]
        cases wk with
        | none => simp [h0, h1]
        | some k => simp [h0, h1, checkKernel_iff]
      · rw [if_neg h1]
        by_cases h2 : lower s = "white" ∨ lower s = "ogmm"
        · rw [if_pos h2]; simp [h2]
        · rw [if_neg h2]
          simp [h0, h1]
          push Not at h2
          exact h2

/-- C50: after `check_spat_diag`, spatial diagnostics stay on only without `robust="hac"` and without the
combination kernel weights / SLX; they are never switched on; a warning is given exactly when they are
switched off. -/
theorem C50_spat_diag (sd isK : Bool) (r : Option String) (l : Option ℤ) (sd' : Bool) (wn : Option SDWarn)
    (h : checkSpatDiag sd isK r l = .ok (sd', wn)) :
    (sd' = true → sd = true ∧ r ≠ some "hac" ∧ ∀ z, l = some z → ¬ (isK = true ∧ 0 < z)) ∧
    (wn.isSome ↔ sd = true ∧ sd' = false) := by
  unfold checkSpatDiag at h
  by_cases h1 : r = some "hac" ∧ sd = true
  · simp [h1] at h
    obtain ⟨rfl, rfl⟩ := h
    simp [h1.2]
  · simp only [if_neg h1] at h
    cases sd
    · simp at h; obtain ⟨rfl, rfl⟩ := h; simp
    · have hr : r ≠ some "hac" := fun e => h1 ⟨e, rfl⟩
      cases isK
      · simp at h; obtain ⟨rfl, rfl⟩ := h; simp [hr]
      · cases l with
        | none => simp at h
        | some z =>
          simp only [and_self, if_true] at h
          split at h
          · simp at h; obtain ⟨rfl, rfl⟩ := h; simp
          · next hz => simp at h; obtain ⟨rfl, rfl⟩ := h; simp [hr]; omega

/-- C50: outside those two situations the diagnostics requested by the user are kept and nothing is announced. -/
theorem C50_spat_diag_kept (sd isK : Bool) (r : Option String) (l : Option ℤ)
    (h1 : sd = true → r ≠ some "hac") (h2 : sd = true → isK = true → ∃ z, l = some z ∧ z ≤ 0) :
    checkSpatDiag sd isK r l = .ok (sd, none) := by
  unfold checkSpatDiag
  cases sd
  · simp
  · have hr := h1 rfl
    cases isK
    · simp [hr]
    · obtain ⟨z, rfl, hz⟩ := h2 rfl rfl
      simp [hr, hz]

/-- C50: diagnostics requested together with kernel weights and no number of SLX lags (the default) fail
with a TypeError. -/
theorem C50_spat_diag_default (r : Option String) (hr : r ≠ some "hac") :
    checkSpatDiag true true r none = .error .typeError := by
  unfold checkSpatDiag; simp [hr]

/-- C50 does not hold for capitalised options: `robust="HAC"` passes `check_robust` exactly as `"hac"`
does, but the spatial diagnostics, which are announced as not available for HAC, stay on without a warning. -/
theorem C50_hac_case_violated (isK : Bool) (wk : Kern) :
    checkRobust (some "HAC") (some wk) = checkRobust (some "hac") (some wk) ∧
    checkSpatDiag true false (some "hac") (some 0) = .ok (false, some .hac) ∧
    checkSpatDiag true false (some "HAC") (some 0) = .ok (true, none) := by
  have h1 : lower "HAC" = "hac" := by decide
  have h2 : lower "hac" = "hac" := by decide
  refine ⟨?_, by simp [checkSpatDiag], by simp [checkSpatDiag]⟩
  simp [checkRobust, h1, h2]

/-! ### C50 regimes -/

/-- C50: `check_reg_list` accepts exactly lists, Series and arrays of length `n` and returns their
elements in order. -/
theorem C50_reg_list {α : Type} (r : RegArg α) (nm : Option String) (n : ℕ) (l : List α) :
    (∃ nm', checkRegList r nm n = .ok (l, nm')) ↔
      l.length = n ∧ (r = .list l ∨ (∃ s, r = .series l s) ∨ r = .ndarray l) := by
  unfold checkRegList
  cases r with
  | other => simp
  | list l' =>
    by_cases h : l'.length = n
    · simp [h]; rintro rfl; exact h
    · simp [h]; rintro h' rfl; exact h h'
  | ndarray l' =>
    by_cases h : l'.length = n
    · simp [h]; rintro rfl; exact h
    · simp [h]; rintro h' rfl; exact h h'
  | series l' s =>
    by_cases h : l'.length = n
    · simp [h]; rintro rfl; exact h
    · simp [h]; rintro h' rfl; exact h h'

/-- C50: regimes are accepted exactly when there are at least two and on average more than `K`
observations per regime. -/
theorem C50_check_regimes (nreg N K : ℕ) :
    checkRegimes nreg N K = .ok () ↔ 2 ≤ nreg ∧ nreg * (K + 1) ≤ N := by
  unfold checkRegimes
  by_cases h : nreg < 2
  · rw [if_pos h]; simp; omega
  · rw [if_neg h]
    have hpos : (0 : ℝ) < nreg := by exact_mod_cast (by omega : 0 < nreg)
    have : ((1.0 * (N : ℝ) / nreg) < (K : ℝ) + 1) ↔ N < nreg * (K + 1) := by
      rw [div_lt_iff₀ hpos]
      norm_num
      rw [← Nat.cast_lt (α := ℝ)]
      push_cast
      rw [mul_comm ((K : ℝ) + 1)]
    split
    · next hh => rw [this] at hh; simp; omega
    · next hh => rw [this] at hh; simp; omega

/-- C50: the check is on the average only: it accepts data in which a regime has fewer observations than
there are coefficients (here 2 regimes, 20 observations, one of them alone in its regime, 3 variables). -/
theorem C50_small_regime_accepted :
    ∃ sizes : List ℕ, sizes.sum = 20 ∧ 1 ∈ sizes ∧ checkRegimes sizes.length 20 3 = .ok () :=
  ⟨[19, 1], by norm_num, by simp, by rw [C50_check_regimes]; norm_num⟩

/-! ### C51 -/

/-- Specification: a column that takes at least two values. -/
def Varies (c : Col) : Prop := ∃ a ∈ c, ∃ b ∈ c, a ≠ b

/-- The range of a column. -/
noncomputable def ptpV (c : Col) : ℝ := match c with
  | [] => 0
  | a :: l => l.foldl max a - l.foldl min a

theorem ptp_ok (c : Col) (hc : c ≠ []) : ptp c = .ok (ptpV c) ∧ 0 ≤ ptpV c ∧ (ptpV c ≠ 0 ↔ Varies c) := by
  cases c with
  | nil => exact absurd rfl hc
  | cons a l =>
    refine ⟨rfl, ?_, ?_⟩ <;> unfold ptpV <;> dsimp only
    · have h1 : l.foldl min a ≤ a := by
        have := (foldl_min_lt a l (l.foldl min a)).1 (lt_irrefl _) a (by simp); exact this
      have h2 : a ≤ l.foldl max a := by
        have := (foldl_max_gt a l (l.foldl max a)).1 (lt_irrefl _) a (by simp); exact this
      linarith
    · have hmin : ∀ v ∈ a :: l, l.foldl min a ≤ v := (foldl_min_lt a l _).1 (lt_irrefl _)
      have hmax : ∀ v ∈ a :: l, v ≤ l.foldl max a := (foldl_max_gt a l _).1 (lt_irrefl _)
      rw [← not_iff_not, not_not, sub_eq_zero]
      unfold Varies
      push Not
      constructor
      · intro h v hv w hw
        have := hmin v hv; have := hmax v hv; have := hmin w hw; have := hmax w hw
        linarith
      · intro h
        have : ∀ v ∈ a :: l, v = a := fun v hv => h v hv a (by simp)
        have := (foldl_min_max a l a).2 this
        rw [this.1, this.2]

open Classical in
/-- The names with the property that the column at the same position varies. -/
noncomputable def keepNames (names : List String) (x : List Col) : List String :=
  ((names.zip x).filter fun p => Varies p.2).map (·.1)

theorem pickNames_ok (names : List String) (idx : List ℕ) (h : ∀ i ∈ idx, i < names.length) :
    pickNames names idx = .ok (idx.map fun i => names.getD i "") := by
  unfold pickNames
  rw [mapM_ok_iff]
  induction idx with
  | nil => exact .nil
  | cons i idx ih =>
    refine .cons ?_ (ih fun j hj => h j (List.mem_cons_of_mem _ hj))
    have := h i (by simp)
    rw [List.getElem?_eq_getElem this]
    simp [List.getD, this]

theorem range_filter_map {α β : Type} (names : List α) (x : List β) (p : β → Bool) (q : ℕ → Bool) (d : α)
    (hl : names.length = x.length) (hq : ∀ i (h : i < x.length), q i = p x[i]) :
    ((List.range x.length).filter q).map (fun i => names.getD i d) =
      ((names.zip x).filter fun z => p z.2).map (·.1) := by
  induction x generalizing names q with
  | nil => simp
  | cons b x ih =>
    cases names with
    | nil => simp at hl
    | cons a names =>
      have hl' : names.length = x.length := by simpa using hl
      rw [List.length_cons, List.range_succ_eq_map, List.filter_cons, List.zip_cons_cons, List.filter_cons]
      have h0 : q 0 = p b := hq 0 (by simp)
      have := ih names (fun i => q (i + 1)) hl' (fun i h => by
        have := hq (i + 1) (by simpa using h); simpa using this)
      rw [List.filter_map]
      have e : (List.map (fun i => (a :: names).getD i d)
          (List.map Nat.succ (List.filter (q ∘ Nat.succ) (List.range x.length)))) =
          List.map (fun i => names.getD i d) (List.filter (fun i => q (i+1)) (List.range x.length)) := by
        rw [List.map_map]; rfl
      rw [← h0]
      cases hq0 : q 0 <;> simp only [Bool.false_eq_true, if_false, if_true, List.map_cons] <;>
        rw [e, this]
      · simp

open Classical in
theorem checkConstant_core (n : ℕ) (x : List Col) (justRem : Bool) (hx : ∀ c ∈ x, c ≠ []) :
    ∃ (zero pos : List ℕ), (zero = (List.range x.length).filter (fun i => (x.map ptpV).getD i 1 = 0)) ∧
      (pos = (List.range x.length).filter (fun i => (x.map ptpV).getD i 0 > 0)) ∧
      (∀ i (h : i < x.length), decide ((x.map ptpV).getD i 1 = 0) = decide (¬ Varies x[i])) ∧
      (∀ i (h : i < x.length), decide ((x.map ptpV).getD i 0 > 0) = decide (Varies x[i])) ∧
      ∀ names, checkConstant n x names justRem = (constNames names zero pos).map fun kw =>
        ((if justRem then [] else [List.replicate n 1]) ++ x.filter (fun c => Varies c), kw.1, kw.2) := by
  have hm : x.mapM ptp = .ok (x.map ptpV) := by
    rw [mapM_ok_iff]
    induction x with
    | nil => exact .nil
    | cons a x ih => exact .cons (ptp_ok a (hx a (by simp))).1 (ih fun c hc => hx c (by simp [hc]))
  refine ⟨_, _, rfl, rfl, ?_, ?_, ?_⟩
  · intro i h
    have := (ptp_ok x[i] (hx _ (List.getElem_mem _))).2.2
    simp [List.getD, h]
    rw [← this]; simp
  · intro i h
    obtain ⟨-, h0, h1⟩ := ptp_ok x[i] (hx _ (List.getElem_mem _))
    simp [List.getD, h]
    rw [← h1]
    exact ⟨fun h => h.ne', fun h => lt_of_le_of_ne h0 (Ne.symm h)⟩
  · intro names
    have hxc : ((x.zip (x.map ptpV)).filter fun p => p.2 ≠ 0).map (·.1) = x.filter (fun c => Varies c) := by
      clear hm
      induction x with
      | nil => rfl
      | cons a x ih =>
        have h1 := (ptp_ok a (hx a (by simp))).2.2
        have := ih fun c hc => hx c (by simp [hc])
        rw [List.map_cons, List.zip_cons_cons, List.filter_cons, List.filter_cons]
        by_cases hv : Varies a
        · simp only [h1.2 hv, hv, ne_eq, not_false_iff, decide_true, if_true, List.map_cons]
          rw [← this]
        · have h2 : ptpV a = 0 := by_contra fun h => hv (h1.1 h)
          simp only [h2, hv, ne_eq, not_true, decide_false, if_false, Bool.false_eq_true]
          rw [← this]
    unfold checkConstant
    rw [hm]
    simp only [bind, Except.bind]
    rw [hxc]
    cases constNames names _ _ <;> cases justRem <;> rfl

open Classical in
/-- C51: for a design matrix with at least one row, `check_constant` keeps exactly the columns that vary,
in their order, puts one column of ones in front (unless asked only to remove), and the returned names are
the names of the kept columns, in the same order. It warns exactly when it removed something. -/
theorem C51_check_constant (n : ℕ) (x : List Col) (names : List String) (justRem : Bool)
    (hx : ∀ c ∈ x, c ≠ []) (hl : names.length = x.length) :
    ∃ warn, checkConstant n x (some names) justRem =
      .ok ((if justRem then [] else [List.replicate n 1]) ++ x.filter (fun c => Varies c),
        some (keepNames names x), warn) ∧
      (warn = none ↔ ∀ c ∈ x, Varies c) ∧
      (∀ r, warn = some r → r = .names (((names.zip x).filter fun p => ¬ Varies p.2).map (·.1))) := by
  obtain ⟨zero, pos, hz, hp, hzero, hpos, hd⟩ := checkConstant_core n x justRem hx
  rw [hd]
  have hnz : zero = [] ↔ ∀ c ∈ x, Varies c := by
    rw [hz, List.filter_eq_nil_iff]
    constructor
    · intro h c hc
      obtain ⟨i, hi, rfl⟩ := List.mem_iff_getElem.1 hc
      have := h i (List.mem_range.2 hi)
      rw [hzero i hi] at this
      simpa using this
    · intro h i hi
      rw [hzero i (List.mem_range.1 hi)]
      simpa using h _ (List.getElem_mem _)
  by_cases h0 : zero = []
  · refine ⟨none, ?_, by simpa using hnz.1 h0, by simp⟩
    unfold constNames
    rw [if_neg (not_not_intro h0)]
    have hk : keepNames names x = names := by
      unfold keepNames
      rw [List.filter_eq_self.2 (by
        intro p hp
        have := hnz.1 h0 p.2 (List.of_mem_zip hp).2
        simpa using this)]
      exact List.map_fst_zip hl.le
    rw [hk]; rfl
  · unfold constNames
    rw [if_pos h0]
    have hx0 : x ≠ [] := by
      rintro rfl; exact h0 (by rw [hz]; simp)
    obtain ⟨s, ss, rfl⟩ : ∃ s ss, names = s :: ss := by
      cases names with
      | nil => simp at hl; exact absurd hl.symm (by simpa using hx0)
      | cons s ss => exact ⟨s, ss, rfl⟩
    have hin : ∀ q : ℕ → Bool, ∀ i ∈ (List.range x.length).filter q, i < (s :: ss).length := by
      intro q i hi
      rw [hl]; exact List.mem_range.1 (List.mem_of_mem_filter hi)
    dsimp only
    rw [pickNames_ok _ _ (hz ▸ hin _), pickNames_ok _ _ (hp ▸ hin _)]
    refine ⟨some (.names (zero.map fun i => (s :: ss).getD i "")), ?_, iff_of_false (by simp) (fun h => h0 (hnz.2 h)), ?_⟩
    · have : pos.map (fun i => (s :: ss).getD i "") = keepNames (s :: ss) x := by
        rw [hp]; unfold keepNames
        exact range_filter_map _ _ (fun c => decide (Varies c)) _ "" hl hpos
      rw [← this]; rfl
    · intro r hr
      cases hr
      rw [hz]
      congr 1
      refine (range_filter_map _ _ (fun c => decide (¬ Varies c)) _ "" hl ?_)
      intro i h; rw [hzero i h]

open Classical in
/-- C51: the same without names: the columns that vary are kept; the warning counts those removed. -/
theorem C51_no_names (n : ℕ) (x : List Col) (justRem : Bool) (hx : ∀ c ∈ x, c ≠ []) :
    ∃ warn, checkConstant n x none justRem =
      .ok ((if justRem then [] else [List.replicate n 1]) ++ x.filter (fun c => Varies c), none, warn) ∧
      (warn = none ↔ ∀ c ∈ x, Varies c) ∧
      (∀ r, warn = some r → r = .count (x.filter fun c => ¬ Varies c).length) := by
  obtain ⟨zero, pos, hz, hp, hzero, hpos, hd⟩ := checkConstant_core n x justRem hx
  rw [hd]
  have hlen : zero.length = (x.filter fun c => ¬ Varies c).length := by
    have := range_filter_map x x (fun c => decide (¬ Varies c)) (fun i => decide (i ∈ zero)) [] rfl (by
      intro i h
      have : (i ∈ zero) ↔ ¬ Varies x[i] := by
        rw [hz, List.mem_filter, List.mem_range, hzero i h]
        simp [h]
      simp [this])
    have h2 : (List.range x.length).filter (fun i => decide (i ∈ zero)) = zero := by
      conv_rhs => rw [hz]
      refine List.filter_congr fun i hi => ?_
      rw [hz]; simp [List.mem_filter, List.mem_range.1 hi]
    rw [h2] at this
    have h3 := congrArg List.length this
    rw [List.length_map, List.length_map] at h3
    rw [h3]
    clear * -
    induction x with
    | nil => rfl
    | cons a x ih => 
      rw [List.zip_cons_cons, List.filter_cons, List.filter_cons]
      split <;> simp_all
  have hnz : zero = [] ↔ ∀ c ∈ x, Varies c := by
    rw [← List.length_eq_zero_iff, hlen, List.length_eq_zero_iff, List.filter_eq_nil_iff]
    simp
  by_cases h0 : zero = []
  · exact ⟨none, by unfold constNames; rw [if_neg (not_not_intro h0)]; rfl, by simpa using hnz.1 h0, by simp⟩
  · refine ⟨some (.count zero.length), by unfold constNames; rw [if_pos h0]; rfl,
      iff_of_false (by simp) (fun h => h0 (hnz.2 h)), ?_⟩
    intro r hr; cases hr; rw [hlen]

/-- C51: an `x` without rows is a ValueError. -/
theorem C51_empty (n : ℕ) (x : List Col) (names : Option (List String)) (j : Bool) (h : [] ∈ x) :
    checkConstant n x names j = .error .valueError := by
  unfold checkConstant
  have : x.mapM ptp = .error .valueError := by
    induction x with
    | nil => cases h
    | cons a x ih =>
      rw [List.mapM_cons]
      cases a with
      | nil => rfl
      | cons b l =>
        have h' : [] ∈ x := by simpa using h
        rw [ih h']; rfl
  rw [this]; rfl

open Classical in
/-- C51: after removing once there is nothing left to remove, and names and columns do not change. -/
theorem C51_idempotent (n : ℕ) (x : List Col) (names : List String) (hx : ∀ c ∈ x, c ≠ [])
    (hl : names.length = x.length) (cols : List Col) (nm : Option (List String)) (w : Option CWarn)
    (h : checkConstant n x (some names) true = .ok (cols, nm, w)) :
    checkConstant n cols nm true = .ok (cols, nm, none) := by
  obtain ⟨w1, h1, -, -⟩ := C51_check_constant n x names true hx hl
  rw [h] at h1
  simp only [if_true, List.nil_append] at h1
  cases h1
  have hlen : (keepNames names x).length = (x.filter fun c => Varies c).length := by
    unfold keepNames
    rw [List.length_map]
    clear * - hl
    induction x generalizing names with
    | nil => simp
    | cons a x ih =>
      cases names with
      | nil => simp at hl
      | cons s ss =>
        rw [List.zip_cons_cons, List.filter_cons, List.filter_cons]
        have := ih ss (by simpa using hl)
        split <;> simp_all
  have hv : ∀ c ∈ x.filter (fun c => Varies c), Varies c := fun c hc => by
    simpa using (List.mem_filter.1 hc).2
  obtain ⟨w2, h2, h3, -⟩ := C51_check_constant n _ _ true
    (fun c hc => hx c (List.mem_of_mem_filter hc)) hlen
  rw [h2]
  have hw : w2 = none := h3.2 hv
  subst hw
  simp only [if_true, List.nil_append]
  have e1 : (x.filter (fun c => Varies c)).filter (fun c => Varies c) = x.filter (fun c => Varies c) := by
    rw [List.filter_filter]; simp
  have e2 : keepNames (keepNames names x) (x.filter fun c => Varies c) = keepNames names x := by
    have : ∀ (ns : List String) (l : List Col), ns.length = l.length → (∀ c ∈ l, Varies c) →
        keepNames ns l = ns := by
      intro ns l hh hv
      unfold keepNames
      rw [List.filter_eq_self.2 (by
        intro p hp; have := hv p.2 (List.of_mem_zip hp).2; simpa using this)]
      exact List.map_fst_zip hh.le
    exact this _ _ hlen hv
  rw [e1, e2]

open Classical in
/-- C51: the names shown with the estimates (`set_name_x` after `check_constant`) have one entry per
column of the design matrix: CONSTANT for the ones, then the names of the kept columns; without names,
`var_1, var_2, ...`. -/
theorem C51_names_aligned (n : ℕ) (x : List Col) (names : Option (List String)) (hx : ∀ c ∈ x, c ≠ [])
    (hl : ∀ nm, names = some nm → nm.length = x.length) (cols : List Col) (nm' : Option (List String))
    (w : Option CWarn) (h : checkConstant n x names false = .ok (cols, nm', w)) :
    (setNameX nm' cols.length false).length = cols.length ∧
    (setNameX nm' cols.length false).head? = some "CONSTANT" ∧ cols.head? = some (List.replicate n 1) ∧
    ((∃ nm, names = some nm ∧ (setNameX nm' cols.length false).tail = keepNames nm x) ∨
     (names = none ∧ (setNameX nm' cols.length false).tail =
        (List.range (x.filter fun c => Varies c).length).map fun i => "var_" ++ toString (i + 1))) := by
  have hkl : ∀ nm : List String, nm.length = x.length →
      (keepNames nm x).length = (x.filter fun c => Varies c).length := by
    intro names hl
    unfold keepNames
    rw [List.length_map]
    clear * - hl
    induction x generalizing names with
    | nil => simp
    | cons a x ih =>
      cases names with
      | nil => simp at hl
      | cons s ss =>
        rw [List.zip_cons_cons, List.filter_cons, List.filter_cons]
        have := ih ss (by simpa using hl)
        split <;> simp_all
  cases names with
  | none =>
    obtain ⟨w1, h1, -, -⟩ := C51_no_names n x false hx
    rw [h] at h1
    cases h1
    simp [setNameX]
  | some nm =>
    obtain ⟨w1, h1, -, -⟩ := C51_check_constant n x nm false hx (hl nm rfl)
    rw [h] at h1
    cases h1
    have hk := hkl nm (hl nm rfl)
    have ht : (setNameX (some (keepNames nm x)) ((if false = true then [] else [List.replicate n (1:ℝ)]) ++
        x.filter (fun c => Varies c)).length false) = "CONSTANT" :: keepNames nm x := by
      cases hkn : keepNames nm x with
      | nil =>
        rw [hkn] at hk
        simp [setNameX, ← hk]
      | cons s ss => simp [setNameX]
    rw [ht]
    refine ⟨by simp [hk], rfl, by simp, .inl ⟨nm, rfl, rfl⟩⟩

/-- Non-vacuity for C51: a 2 x 3 matrix with a constant in the middle. -/
example : ∃ w, checkConstant 2 [[1, 2], [5, 5], [3, 1]] (some ["a", "b", "c"]) true =
    .ok ([[1, 2], [3, 1]], some ["a", "c"], w) := by
  obtain ⟨w, h, -, -⟩ := C51_check_constant 2 [[1, 2], [5, 5], [3, 1]] ["a", "b", "c"] true (by simp) rfl
  refine ⟨w, h.trans ?_⟩
  simp [keepNames, Varies, List.filter_cons]

/-- C51 needs names for every column: with too few names and a constant column the call fails with an
IndexError. -/
theorem C51_short_names : checkConstant 2 [[1, 2], [5, 5]] (some ["a"]) true = .error .indexError := by
  have : (2 : ℝ) - 1 ≠ 0 := by norm_num
  simp [checkConstant, ptp, pickNames, List.range_succ, List.filter_cons, bind, Except.bind, pure, Except.pure,
    constNames]
  rw [if_neg this, if_neg this]
  simp [bind, Except.bind]

/-! ### C52 -/

/-- Specification: the text of a list of warnings, empty ones left out. -/
def warnText (l : List (Option String)) : String :=
  l.foldr (fun w acc => match w with
    | none => acc
    | some s => if s = "" then acc else "Warning: " ++ s ++ "\n" ++ acc) ""

/-- C52: after any sequence of `set_warn` calls the attribute is the earlier text followed by all the
warnings in order; it stays unset exactly when it was unset and there was no warning. -/
theorem C52_accumulate (l : List (Option String)) (s : Option String) :
    (l.foldl setWarn s).getD "" = s.getD "" ++ warnText l ∧
    (l.foldl setWarn s = none ↔ s = none ∧ ∀ w ∈ l, w = none ∨ w = some "") := by
  induction l generalizing s with
  | nil => simp [warnText]
  | cons w l ih =>
    rw [List.foldl_cons]
    obtain ⟨h1, h2⟩ := ih (setWarn s w)
    rw [h1, h2]
    have ht : (setWarn s w).getD "" ++ warnText l = s.getD "" ++ warnText (w :: l) := by
      cases w with
      | none => rfl
      | some t =>
        by_cases e : t = ""
        · simp [setWarn, warnText, e]
        · cases s <;> simp [setWarn, warnText, e, String.append_assoc]
    refine ⟨ht, ?_⟩
    cases w with
    | none => simp [setWarn]
    | some t =>
      by_cases e : t = ""
      · simp [setWarn, e]
      · cases s <;> simp [setWarn, e]

example : [some "a", none, some "", some "b"].foldl setWarn none = some "Warning: a\nWarning: b\n" := by
  decide

/-! ### C66 -/

/-- C66: `check_endog` leaves every array that the caller owns unchanged, provided none of those passed is
one-dimensional; otherwise see `C66_violated`. -/
theorem C66_endog_partial (h : Heap) (l : List ERef) (hl : ∀ p, .nd p ∈ l → (h p).shape.length ≠ 1) :
    (checkEndog h l).1 = h := by
  induction l with
  | nil => rfl
  | cons r l ih =>
    have hh : (checkEndog1 h r).1 = h := by
      cases r with
      | none => rfl
      | pd a => rfl
      | nd p =>
        simp only [checkEndog1, if_neg (hl p (by simp)), Function.update_eq_self]
    unfold checkEndog
    cases hc : checkEndog1 h r with
    | mk h' res =>
      rw [hc] at hh
      dsimp only at hh
      subst hh
      cases res with
      | error e => rfl
      | ok a => exact ih fun p hp => hl p (List.mem_cons_of_mem _ hp)

/-- C66: the data of the caller's arrays never change, only shapes; and an address not passed keeps
everything. -/
theorem C66_endog_data (h : Heap) (l : List ERef) (p : ℕ) :
    ((checkEndog h l).1 p).data = (h p).data ∧ ((checkEndog h l).1 p).dtype = (h p).dtype ∧
    (ERef.nd p ∉ l → (checkEndog h l).1 p = h p) := by
  induction l generalizing h with
  | nil => exact ⟨rfl, rfl, fun _ => rfl⟩
  | cons r l ih =>
    have hh : ((checkEndog1 h r).1 p).data = (h p).data ∧ ((checkEndog1 h r).1 p).dtype = (h p).dtype ∧
        (ERef.nd p ≠ r → (checkEndog1 h r).1 p = h p) := by
      cases r with
      | none => exact ⟨rfl, rfl, fun _ => rfl⟩
      | pd a => exact ⟨rfl, rfl, fun _ => rfl⟩
      | nd q =>
        simp only [checkEndog1]
        by_cases e : p = q
        · subst e
          simp only [Function.update_self]
          split <;> simp
        · simp [Function.update_of_ne e]
    unfold checkEndog
    cases hc : checkEndog1 h r with
    | mk h' res =>
      rw [hc] at hh
      cases res with
      | error e =>
        exact ⟨hh.1, hh.2.1, fun hn => hh.2.2 (fun e => hn (by simp [e]))⟩
      | ok a =>
        have := ih h'
        exact ⟨this.1.trans hh.1, this.2.1.trans hh.2.1, fun hn =>
          (this.2.2 (fun hm => hn (List.mem_cons_of_mem _ hm))).trans (hh.2.2 fun e => hn (by simp [e]))⟩

/-- C66 is false in general: a one-dimensional endogenous variable given as a NumPy array comes back to
the caller as a two-dimensional one (its `shape` attribute is assigned). -/
theorem C66_violated : ∃ (h : Heap) (l : List ERef), (∀ p, .nd p ∈ l → (h p).dtype = .number) ∧
    (checkEndog h l).1 ≠ h := by
  refine ⟨fun _ => ⟨[2], [.fin 1, .fin 2], .number⟩, [.nd 0], by simp, fun e => ?_⟩
  have := congrArg (fun f => (f 0).shape) e
  simp [checkEndog, checkEndog1, checkNumericBool, Except.map, FVal.isfinite] at this

example : ∃ (h : Heap) (l : List ERef), l ≠ [] ∧ ∀ p, .nd p ∈ l → (h p).shape.length ≠ 1 :=
  ⟨fun _ => ⟨[2, 1], [.fin 1, .fin 2], .number⟩, [.nd 0], by simp, by simp⟩

end Spreg.Chk
