import Verif.Model.Regimes
import Mathlib.Data.List.Sort
import Mathlib.Tactic.Linarith
import Mathlib.Tactic.Ring
import Mathlib.Algebra.BigOperators.Fin
import Mathlib.Data.List.Perm.Basic
/-
Properties C23-C26, C29, C61-C63: regimes.
-/
namespace Spreg.Regimes
open Spreg

variable {L V : Type} [DecidableEq L]

/-! ### helpers -/

theorem mapM_ok {α β : Type} (f : α → Py β) : ∀ (l : List α) (r : List β),
    l.mapM f = .ok r ↔ List.Forall₂ (fun a b => f a = .ok b) l r := by
  intro l
  induction l with
  | nil =>
    intro r
    simp only [List.mapM_nil]
    constructor
    · intro h; cases h; exact .nil
    · intro h; cases h; rfl
  | cons a t ih =>
    intro r
    rw [List.mapM_cons]
    cases hfa : f a with
    | error e =>
      constructor
      · intro h; cases h
      · intro h; cases h; rename_i hh _; rw [hfa] at hh; cases hh
    | ok b =>
      cases hft : t.mapM f with
      | error e =>
        constructor
        · intro h
          cases h
        · intro h; cases h
          rename_i hh
          rw [(ih _).2 hh] at hft; cases hft
      | ok s =>
        have := (ih s).1 hft
        constructor
        · intro h
          cases h
          exact .cons hfa this
        · intro h; cases h
          rename_i b' t' hb ht
          rw [hfa] at hb; cases hb
          have h2 := (ih _).2 ht
          rw [hft] at h2; cases h2
          rfl

theorem whereEq_append (r : L) (a b : List L) : ∀ off,
    whereEq r (a ++ b) off = whereEq r a off ++ whereEq r b (off + a.length) := by
  induction a with
  | nil => intro off; simp [whereEq]
  | cons h t ih =>
    intro off
    simp only [List.cons_append, whereEq, List.length_cons, ih]
    rw [show off + 1 + t.length = off + (t.length + 1) by omega]
    split <;> simp

theorem whereEq_replicate (r a : L) (k : Nat) : ∀ off,
    whereEq r (List.replicate k a) off = if a = r then List.range' off k else [] := by
  induction k with
  | zero => intro off; simp [whereEq]
  | succ k ih =>
    intro off
    simp only [List.replicate_succ, whereEq, ih, List.range'_succ]
    split <;> rfl

theorem whereEq_none (r : L) (l : List L) : ∀ off, r ∉ l → whereEq r l off = [] := by
  induction l with
  | nil => intro off _; rfl
  | cons h t ih =>
    intro off hr
    simp only [List.mem_cons, not_or] at hr
    simp only [whereEq, if_neg (Ne.symm hr.1), ih _ hr.2]

theorem whereEq_regimeByRow (k : Nat) (r : L) : ∀ (rs : List L) (off a : Nat), rs.Nodup →
    rs[a]? = some r → whereEq r (regimeByRow k rs) off = List.range' (off + a * k) k := by
  intro rs
  induction rs with
  | nil => intro off a _ h; simp at h
  | cons h t ih =>
    intro off a hnd ha
    have hnd' := List.nodup_cons.1 hnd
    have e : regimeByRow k (h :: t) = List.replicate k h ++ regimeByRow k t := rfl
    rw [e, whereEq_append, whereEq_replicate]
    cases a with
    | zero =>
      simp only [List.getElem?_cons_zero, Option.some.injEq] at ha
      subst ha
      have : h ∉ regimeByRow k t := by
        intro hm
        simp only [regimeByRow, List.mem_flatMap, List.mem_replicate] at hm
        obtain ⟨x, hx, _, rfl⟩ := hm
        exact hnd'.1 hx
      rw [whereEq_none _ _ _ this]
      simp
    | succ a =>
      simp only [List.getElem?_cons_succ] at ha
      have hne : h ≠ r := by
        rintro rfl
        exact hnd'.1 (List.mem_of_getElem? ha)
      rw [if_neg hne, List.nil_append, List.length_replicate, ih _ a hnd'.2 ha]
      congr 1
      rw [Nat.succ_mul]; omega

theorem flatten_getElem? {α : Type} (k : Nat) : ∀ (l : List (List α)), (∀ r ∈ l, r.length = k) →
    ∀ i j, j < k → l.flatten[i * k + j]? = (l[i]?).bind fun r => r[j]? := by
  intro l
  induction l with
  | nil => intro _ i j _; simp
  | cons h t ih =>
    intro hl i j hj
    have hh : h.length = k := hl h (by simp)
    rw [List.flatten_cons]
    cases i with
    | zero =>
      rw [Nat.zero_mul, Nat.zero_add, List.getElem?_append_left (by omega)]
      simp
    | succ i =>
      rw [List.getElem?_append_right (by rw [hh, Nat.succ_mul]; omega), hh,
        show (i + 1) * k + j - k = i * k + j by rw [Nat.succ_mul]; omega,
        ih (fun r hr => hl r (by simp [hr])) i j hj]
      simp

theorem sum_map_single {β : Type} [AddCommMonoid β] (n : Nat) (j : Nat) (v : Nat → β) (hj : j < n) :
    ((List.range n).map fun p => if p = j then v p else 0).sum = v j := by
  induction n with
  | zero => omega
  | succ n ih =>
    rw [List.range_succ, List.map_append, List.sum_append]
    simp only [List.map_cons, List.map_nil, List.sum_cons, List.sum_nil, add_zero]
    by_cases h : j = n
    · subst h
      rw [if_pos rfl]
      have : ((List.range j).map fun p => if p = j then v p else 0).sum = 0 := by
        apply List.sum_eq_zero
        intro x hx
        simp only [List.mem_map, List.mem_range] at hx
        obtain ⟨p, hp, rfl⟩ := hx
        rw [if_neg (by omega)]
      rw [this, zero_add]
    · rw [if_neg (fun h' => h h'.symm), add_zero, ih (by omega)]

theorem sum_map_zero {β : Type} [AddCommMonoid β] (n : Nat) (v : Nat → β) (hv : ∀ p, p < n → v p = 0) :
    ((List.range n).map v).sum = 0 := by
  apply List.sum_eq_zero
  intro x hx
  simp only [List.mem_map, List.mem_range] at hx
  obtain ⟨p, hp, rfl⟩ := hx
  exact hv p hp

/-! ### C23 -/

/-- Success and content of the CSR arrays. -/
theorem x2xsp_ok (x : List (List V)) (k : Nat) (regimes rs : List L) (hmem : ∀ r ∈ regimes, r ∈ rs) :
    x2xsp x k regimes rs = .ok
      { data := x.flatten,
        indices := (regimes.map fun r => whereEq r (regimeByRow k rs) 0).flatten,
        indptr := (List.range x.length).map (· * k) ++ [x.length * k] } := by
  have h : regimes.mapM (rowMap k rs) = .ok (regimes.map fun r => whereEq r (regimeByRow k rs) 0) := by
    rw [mapM_ok]
    induction regimes with
    | nil => exact .nil
    | cons a t ih =>
      refine .cons ?_ (ih fun r hr => hmem r (by simp [hr]))
      unfold rowMap; rw [if_pos (hmem a (by simp))]
  unfold x2xsp
  rw [h]
  rfl

theorem indptr_get (n k i : Nat) (hi : i ≤ n) :
    ((List.range n).map (· * k) ++ [n * k]).getD i 0 = i * k := by
  rw [List.getD_eq_getElem?_getD]
  by_cases h : i < n
  · rw [List.getElem?_append_left (by simpa using h)]
    simp [h]
  · have : i = n := by omega
    subst this
    rw [List.getElem?_append_right (by simp)]
    simp

/-- C23: for every matrix `x` (given by its rows, each of length `k`), every labelling of the observations
and every duplicate-free list `rs` of regimes that contains all labels, the assembled sparse matrix has in
row `i` the value `x[i][j]` in column `a*k + j` where `rs[a]` is the regime of `i`, and zero in the columns
of all other regimes. -/
theorem C23_x2xsp [AddCommMonoid V] (x : List (List V)) (k : Nat) (regimes rs : List L)
    (hx : ∀ row ∈ x, row.length = k) (hlen : regimes.length = x.length) (hnd : rs.Nodup)
    (hmem : ∀ r ∈ regimes, r ∈ rs) :
    ∃ m, x2xsp x k regimes rs = .ok m ∧
      ∀ i j a row g r, x[i]? = some row → regimes[i]? = some g → rs[a]? = some r → (hj : j < k) →
        m.entry i (a * k + j) = if g = r then (row[j]?).getD 0 else 0 := by
  refine ⟨_, x2xsp_ok x k regimes rs hmem, ?_⟩
  intro i j a row g r hrow hg hr hj
  have hi : i < x.length := (List.getElem?_eq_some_iff.1 hrow).1
  unfold CSR.entry
  simp only
  rw [indptr_get _ _ _ (by omega), indptr_get _ _ _ (by omega)]
  rw [show (i + 1) * k - i * k = k by rw [Nat.succ_mul]; omega, List.range'_eq_map_range, List.map_map]
  -- position of g in rs
  obtain ⟨b, hb⟩ := List.getElem?_of_mem (hmem g (List.mem_of_getElem? hg))
  have hall : ∀ l ∈ (regimes.map fun r => whereEq r (regimeByRow k rs) 0), l.length = k := by
    intro l hl
    simp only [List.mem_map] at hl
    obtain ⟨r', hr', rfl⟩ := hl
    obtain ⟨b', hb'⟩ := List.getElem?_of_mem (hmem r' hr')
    rw [whereEq_regimeByRow k r' rs 0 b' hnd hb']; simp
  have hterm : ∀ p, p < k →
      ((fun p => if ((regimes.map fun r => whereEq r (regimeByRow k rs) 0).flatten)[p]? = some (a * k + j)
        then (x.flatten[p]?).getD 0 else 0) ∘ fun q => i * k + q) p
      = if b * k + p = a * k + j then (row[p]?).getD 0 else (0 : V) := by
    intro p hp
    simp only [Function.comp]
    rw [flatten_getElem? k _ hall i p hp, flatten_getElem? k x hx i p hp, hrow]
    simp only [List.getElem?_map, hg, Option.map_some, Option.bind_some]
    rw [whereEq_regimeByRow k g rs 0 b hnd hb, List.getElem?_range' (by omega)]
    simp only [Nat.zero_add, Nat.one_mul, Option.some.injEq]
  have hcongr : ((List.range k).map ((fun p => if ((regimes.map fun r => whereEq r (regimeByRow k rs) 0).flatten)[p]? = some (a * k + j)
        then (x.flatten[p]?).getD 0 else 0) ∘ fun q => i * k + q))
      = (List.range k).map fun p => if b * k + p = a * k + j then (row[p]?).getD 0 else (0 : V) := by
    apply List.map_congr_left
    intro p hp
    exact hterm p (List.mem_range.1 hp)
  rw [hcongr]
  by_cases hgr : g = r
  · subst hgr
    have hab : a = b := (hnd.getElem_inj_iff (i := a) (j := b)
      (hi := (List.getElem?_eq_some_iff.1 hr).1) (hj := (List.getElem?_eq_some_iff.1 hb).1)).1 (by
        rw [(List.getElem?_eq_some_iff.1 hr).2, (List.getElem?_eq_some_iff.1 hb).2])
    subst hab
    rw [if_pos rfl]
    have : (fun p => if a * k + p = a * k + j then (row[p]?).getD 0 else (0 : V))
        = fun p => if p = j then (row[p]?).getD 0 else 0 := by
      funext p
      by_cases hp : p = j
      · simp [hp]
      · rw [if_neg (by omega), if_neg hp]
    rw [this, sum_map_single k j (fun p => (row[p]?).getD 0) hj]
  · rw [if_neg hgr]
    apply sum_map_zero
    intro p hp
    rw [if_neg]
    intro he
    apply hgr
    have : b = a := by
      have h1 : (b * k + p) / k = b := by
        rw [Nat.mul_comm, Nat.mul_add_div (by omega), Nat.div_eq_of_lt hp, Nat.add_zero]
      have h2 : (a * k + j) / k = a := by
        rw [Nat.mul_comm, Nat.mul_add_div (by omega), Nat.div_eq_of_lt hj, Nat.add_zero]
      rw [← h1, he, h2]
    rw [this, hr] at hb
    exact (Option.some.inj hb).symm

theorem mapM_error {α β : Type} (f : α → Py β) (e : PyErr) (he : ∀ a e', f a = .error e' → e' = e) :
    ∀ (l : List α) e', l.mapM f = .error e' → e' = e := by
  intro l
  induction l with
  | nil => intro e' h; cases h
  | cons a t ih =>
    intro e' h
    rw [List.mapM_cons] at h
    cases hfa : f a with
    | error e2 => rw [hfa] at h; cases h; exact he a _ hfa
    | ok b =>
      cases hft : t.mapM f with
      | error e2 => rw [hfa, hft] at h; cases h; exact ih _ hft
      | ok s => rw [hfa, hft] at h; cases h

/-- C23: a label that is not in the list of regimes makes the assembly fail with KeyError. -/
theorem C23_unknown_label (x : List (List V)) (k : Nat) (regimes rs : List L) (r : L)
    (hr : r ∈ regimes) (hn : r ∉ rs) : x2xsp x k regimes rs = .error .keyError := by
  unfold x2xsp
  cases hm : regimes.mapM (rowMap k rs) with
  | error e =>
    have : e = .keyError := by
      refine mapM_error (rowMap k rs) .keyError ?_ _ _ hm
      intro a e' h
      unfold rowMap at h
      split at h <;> cases h
      rfl
    rw [this]; rfl
  | ok l =>
    exfalso
    rw [mapM_ok] at hm
    obtain ⟨i, hi⟩ := List.getElem?_of_mem hr
    have hlen := hm.length_eq
    have hi' : i < regimes.length := (List.getElem?_eq_some_iff.1 hi).1
    have := (List.forall₂_iff_get.1 hm).2 i hi' (by omega)
    simp only [List.get_eq_getElem, (List.getElem?_eq_some_iff.1 hi).2] at this
    unfold rowMap at this
    rw [if_neg hn] at this
    cases this

/-- C23: adding up the blocks of a row over all regimes gives back the row of `x`. -/
theorem C23_blocks_sum [AddCommMonoid V] (x : List (List V)) (k : Nat) (regimes rs : List L)
    (hx : ∀ row ∈ x, row.length = k) (hlen : regimes.length = x.length) (hnd : rs.Nodup)
    (hmem : ∀ r ∈ regimes, r ∈ rs) (m : CSR V) (hm : x2xsp x k regimes rs = .ok m)
    (i j : Nat) (row : List V) (hrow : x[i]? = some row) (hj : j < k) :
    ((List.range rs.length).map fun a => m.entry i (a * k + j)).sum = (row[j]?).getD 0 := by
  obtain ⟨m', hm', he⟩ := C23_x2xsp x k regimes rs hx hlen hnd hmem
  rw [hm] at hm'; cases hm'
  have hi : i < regimes.length := by rw [hlen]; exact (List.getElem?_eq_some_iff.1 hrow).1
  obtain ⟨g, hg⟩ : ∃ g, regimes[i]? = some g := ⟨regimes[i], List.getElem?_eq_getElem hi⟩
  obtain ⟨b, hb⟩ := List.getElem?_of_mem (hmem g (List.mem_of_getElem? hg))
  have hbl : b < rs.length := (List.getElem?_eq_some_iff.1 hb).1
  have : ((List.range rs.length).map fun a => m.entry i (a * k + j))
      = (List.range rs.length).map fun a => if a = b then (row[j]?).getD 0 else 0 := by
    apply List.map_congr_left
    intro a ha
    have ha' := List.mem_range.1 ha
    rw [he i j a row g rs[a] hrow hg (List.getElem?_eq_getElem ha') hj]
    by_cases hab : a = b
    · subst hab
      rw [if_pos rfl, if_pos (by
        have := (List.getElem?_eq_some_iff.1 hb).2; rw [this])]
    · rw [if_neg hab, if_neg]
      intro h
      apply hab
      apply (hnd.getElem_inj_iff (hi := ha') (hj := hbl)).1
      rw [(List.getElem?_eq_some_iff.1 hb).2, h]
  rw [this, sum_map_single rs.length b (fun _ => (row[j]?).getD 0) hbl]

/-- Non-vacuity for C23: two regressors, three observations in two regimes. -/
example : ∃ m, x2xsp [[1, 2], [3, 4], [5, (6 : ℤ)]] 2 ["b", "a", "b"] ["a", "b"] = .ok m ∧
    (List.range 3).map (fun i => (List.range 4).map (m.entry i)) =
      [[0, 0, 1, 2], [3, 4, 0, 0], [0, 0, 5, 6]] := ⟨_, rfl, by decide⟩

/-! ### C24 -/

/-- What a column of the regime design is: the variable number `v`, restricted to a regime or not
(`none` = not restricted). -/
abbrev Desc (L : Type) := Option L × Nat

/-- the columns a reader expects, in the documented order -/
def expectedDesc (rs : List L) (mask : List Bool) : List (Desc L) :=
  rs.flatMap (fun r => ((List.range mask.length).filter fun v => mask[v]? = some true).map fun v => (some r, v))
    ++ ((List.range mask.length).filter fun v => mask[v]? = some false).map fun v => (none, v)

theorem select_eq {α : Type} (b : Bool) (d : α) : ∀ (mask : List Bool) (l : List α),
    mask.length = l.length →
    select mask b l = ((List.range mask.length).filter fun v => mask[v]? = some b).map fun v => l.getD v d := by
  intro mask
  induction mask with
  | nil => intro l h; simp [select]
  | cons m t ih =>
    intro l h
    cases l with
    | nil => simp at h
    | cons a l =>
      simp only [List.length_cons, Nat.add_right_cancel_iff] at h
      have ih' := ih l h
      have hr : List.range (t.length + 1) = 0 :: (List.range t.length).map Nat.succ := List.range_succ_eq_map
      simp only [List.length_cons, hr, List.filter_cons, List.getElem?_cons_zero]
      have htail : (((List.range t.length).map Nat.succ).filter fun v => decide ((m :: t)[v]? = some b))
          = ((List.range t.length).filter fun v => decide (t[v]? = some b)).map Nat.succ := by
        rw [List.filter_map]; rfl
      rw [htail]
      unfold select at ih' ⊢
      simp only [List.zip_cons_cons, List.filter_cons]
      by_cases hm : m = b
      · subst hm
        simp only [beq_self_eq_true, if_true, List.map_cons, decide_true, List.getD_cons_zero,
          List.map_map]
        rw [ih']
        congr 1
      · have h1 : (m == b) = false := by simpa using hm
        simp only [h1, Bool.false_eq_true, if_false, Option.some.injEq, hm, decide_false]
        rw [ih', List.map_map]
        rfl

theorem select_all {α : Type} (b : Bool) : ∀ (mask : List Bool) (l : List α), mask.length = l.length →
    (∀ m ∈ mask, m = b) → select mask b l = l ∧ select mask (!b) l = [] := by
  intro mask
  induction mask with
  | nil => intro l h _; cases l with | nil => simp [select] | cons a l => simp at h
  | cons m t ih =>
    intro l h hm
    cases l with
    | nil => simp at h
    | cons a l =>
      simp only [List.length_cons, Nat.add_right_cancel_iff] at h
      have := ih l h (fun m' hm' => hm m' (by simp [hm']))
      have hmb : m = b := hm m (by simp)
      subst hmb
      unfold select at this ⊢
      simp only [List.zip_cons_cons, List.filter_cons, beq_self_eq_true, if_true, List.map_cons]
      refine ⟨by rw [this.1], ?_⟩
      have h1 : (m == !m) = false := by cases m <;> rfl
      rw [if_neg (by simp [h1])]
      exact this.2

/-- The three branches of `regimeX_setup` agree with one formula. -/
theorem regimeXsetup_eq [Zero V] (cols : List (List V)) (regimes : List L) (mask : List Bool) (rs : List L)
    (h : mask.length = cols.length) :
    regimeXsetup cols regimes mask rs
      = x2xspCols (select mask true cols) regimes rs ++ select mask false cols := by
  unfold regimeXsetup
  split
  · next ht =>
    have := select_all true mask cols h ht.2
    rw [this.1]
    simp only [Bool.not_true] at this
    rw [this.2, List.append_nil]
  · split
    · next hf =>
      have := select_all false mask cols h hf.2
      rw [this.1]
      simp only [Bool.not_false] at this
      rw [this.2]
      simp [x2xspCols]
    · rfl

/-- C24: for every selection of varying variables the columns of the regime design, their names, their
types and their regime tags are lists of the same length that describe, position by position, the same
regime and the same variable: the column is the variable restricted to the regime (or the whole variable),
the name is `regime_variable` (or `_Global_variable`). -/
theorem C24_aligned [Zero V] (str : L → String) (cols : List (List V)) (names : List String)
    (types : List VType) (regimes : List L) (mask : List Bool) (rs : List L)
    (hc : mask.length = cols.length) (hn : mask.length = names.length) (ht : mask.length = types.length) :
    regimeXsetup cols regimes mask rs = (expectedDesc rs mask).map (fun d =>
        match d.1 with
        | some r => maskCol regimes r (cols.getD d.2 [])
        | none => cols.getD d.2 []) ∧
    (setNameXRegimes str names mask rs types).1 = (expectedDesc rs mask).map (fun d =>
        match d.1 with
        | some r => str r ++ "_" ++ names.getD d.2 ""
        | none => "_Global_" ++ names.getD d.2 "") ∧
    (setNameXRegimes str names mask rs types).2.1 = (expectedDesc rs mask).map (fun d =>
        types.getD d.2 .o) ∧
    (setNameXRegimes str names mask rs types).2.2 = (expectedDesc rs mask).map (fun d =>
        match d.1 with
        | some r => str r
        | none => "_Global") := by
  rw [regimeXsetup_eq cols regimes mask rs hc]
  unfold x2xspCols setNameXRegimes expectedDesc
  simp only
  rw [select_eq true [] mask cols hc, select_eq false [] mask cols hc,
    select_eq true "" mask names hn, select_eq false "" mask names hn,
    select_eq true VType.o mask types ht, select_eq false VType.o mask types ht]
  simp only [List.map_append, List.map_flatMap, List.map_map, Function.comp_def]
  exact ⟨trivial, trivial, trivial, trivial⟩

/-- C24: the expected list has, once each, every varying variable in every regime and every fixed variable
once. -/
theorem C24_desc (rs : List L) (mask : List Bool) (hnd : rs.Nodup) :
    (expectedDesc rs mask).Nodup ∧
    (∀ r v, (some r, v) ∈ expectedDesc rs mask ↔ r ∈ rs ∧ mask[v]? = some true) ∧
    (∀ v, (none, v) ∈ expectedDesc rs mask ↔ mask[v]? = some false) ∧
    (expectedDesc rs mask).length =
      rs.length * (mask.filter (· = true)).length + (mask.filter (· = false)).length := by
  have hfl : ∀ b : Bool, ((List.range mask.length).filter fun v => mask[v]? = some b).length
      = (mask.filter (· = b)).length := by
    intro b
    have h1 := congrArg List.length (select_eq b false mask mask rfl)
    rw [List.length_map] at h1
    rw [← h1]
    unfold select
    rw [List.length_map]
    clear h1
    induction mask with
    | nil => rfl
    | cons m t ih =>
      simp only [List.zip_cons_cons, List.filter_cons]
      by_cases h : m = b
      · simp [h]
        simpa using ih
      · simp [h]
        simpa using ih
  have hlt : ∀ (v : Nat) (b : Bool), mask[v]? = some b → v < mask.length :=
    fun v b h => (List.getElem?_eq_some_iff.1 h).1
  refine ⟨?_, ?_, ?_, ?_⟩
  · unfold expectedDesc
    rw [List.nodup_append]
    refine ⟨?_, ?_, ?_⟩
    · rw [List.nodup_flatMap]
      refine ⟨fun r _ => ?_, ?_⟩
      · apply List.Nodup.map
        · intro a b h; simpa using h
        · exact List.nodup_range.filter _
      · refine hnd.imp ?_
        intro a b hab x hx hy
        simp only [List.mem_map] at hx hy
        obtain ⟨_, _, rfl⟩ := hx
        obtain ⟨_, _, h⟩ := hy
        simp only [Prod.mk.injEq, Option.some.injEq] at h
        exact hab h.1.symm
    · apply List.Nodup.map
      · intro a b h; simpa using h
      · exact List.nodup_range.filter _
    · intro a ha b hb hab
      subst hab
      simp only [List.mem_flatMap, List.mem_map] at ha hb
      obtain ⟨_, _, _, _, rfl⟩ := ha
      obtain ⟨_, _, h⟩ := hb
      simp at h
  · intro r v
    simp only [expectedDesc, List.mem_append, List.mem_flatMap, List.mem_map, List.mem_filter,
      List.mem_range, decide_eq_true_eq, Prod.mk.injEq, Option.some.injEq]
    constructor
    · rintro (⟨r', hr', v', ⟨_, hv'⟩, rfl, rfl⟩ | ⟨_, _, h, _⟩)
      · exact ⟨hr', hv'⟩
      · simp at h
    · rintro ⟨hr, hv⟩
      exact Or.inl ⟨r, hr, v, ⟨hlt v _ hv, hv⟩, rfl, rfl⟩
  · intro v
    simp only [expectedDesc, List.mem_append, List.mem_flatMap, List.mem_map, List.mem_filter,
      List.mem_range, decide_eq_true_eq, Prod.mk.injEq]
    constructor
    · rintro (⟨r', _, v', _, h, _⟩ | ⟨v', ⟨_, hv'⟩, _, rfl⟩)
      · simp at h
      · exact hv'
    · intro hv
      exact Or.inr ⟨v, ⟨hlt v _ hv, hv⟩, trivial, rfl⟩
  · unfold expectedDesc
    rw [List.length_append, List.length_flatMap, List.length_map, hfl false]
    simp only [List.length_map, hfl true]
    rw [List.map_const', List.sum_replicate, smul_eq_mul]

/-- C24: `Regimes_Frame` as called by the regime models (names given, mask as long as the variables): it
succeeds, prepends the constant to the columns, the names, the types and the mask alike, and the results
are those described in `C24_aligned`; `kr`, `kf` count varying and fixed columns and the number of columns
is `kr * (number of regimes) + kf`. -/
theorem C24_frame [Zero V] [One V] (str : L → String) (cols : List (List V)) (nobs : Nat)
    (regimes : List L) (many : Bool) (mask : List Bool) (names : List String) (rs : List L)
    (hc : mask.length = cols.length) (hn : mask.length = names.length) (hne : names ≠ []) :
    ∃ f, regimesFrame str cols nobs regimes (if many then .many else .one) (.list mask) names rs = .ok f ∧
      f.cols = regimeXsetup (List.replicate nobs 1 :: cols) regimes (many :: mask) rs ∧
      f.names = (setNameXRegimes str ("CONSTANT" :: names) (many :: mask) rs
        (VType.o :: List.replicate cols.length VType.x)).1 ∧
      f.cols.length = f.names.length ∧ f.names.length = f.xtype.length ∧
      f.names.length = f.rlist.length ∧
      f.kr + f.kf = cols.length + 1 ∧ f.cols.length = rs.length * f.kr + f.kf := by
  have htake : mask.take cols.length = mask := by rw [← hc, List.take_length]
  obtain ⟨f, hf, hfc, hfn, hft, hfr, hkr, hkf⟩ : ∃ f : Frame V VType,
      regimesFrame str cols nobs regimes (if many then .many else .one) (.list mask) names rs = .ok f ∧
      f.cols = regimeXsetup (List.replicate nobs 1 :: cols) regimes (many :: mask) rs ∧
      f.names = (setNameXRegimes str ("CONSTANT" :: names) (many :: mask) rs
        (VType.o :: List.replicate cols.length VType.x)).1 ∧
      f.xtype = (setNameXRegimes str ("CONSTANT" :: names) (many :: mask) rs
        (VType.o :: List.replicate cols.length VType.x)).2.1 ∧
      f.rlist = (setNameXRegimes str ("CONSTANT" :: names) (many :: mask) rs
        (VType.o :: List.replicate cols.length VType.x)).2.2 ∧
      f.kr = ((many :: mask).filter (· = true)).length ∧
      f.kf = (many :: mask).length - ((many :: mask).filter (· = true)).length := by
    cases many
    all_goals
      unfold regimesFrame
      simp only [htake, Except.bind, if_neg hne, if_true, if_false, Bool.false_eq_true]
      exact ⟨_, rfl, rfl, rfl, rfl, rfl, rfl, rfl⟩
  have hal := C24_aligned (V := V) str (List.replicate nobs 1 :: cols) ("CONSTANT" :: names)
    (VType.o :: List.replicate cols.length VType.x) regimes (many :: mask) rs (by simp [hc]) (by simp [hn])
    (by simp [hc])
  have hd : (expectedDesc rs (many :: mask)).length =
      rs.length * ((many :: mask).filter (· = true)).length
        + ((many :: mask).filter (· = false)).length := by
    have hfl : ∀ (mask : List Bool) (b : Bool),
        ((List.range mask.length).filter fun v => mask[v]? = some b).length
        = (mask.filter (· = b)).length := by
      intro mask b
      have h1 := congrArg List.length (select_eq b false mask mask rfl)
      rw [List.length_map] at h1
      rw [← h1]
      unfold select
      rw [List.length_map]
      clear h1
      induction mask with
      | nil => rfl
      | cons m t ih =>
        simp only [List.zip_cons_cons, List.filter_cons]
        by_cases h : m = b
        · simp [h]; simpa using ih
        · simp [h]; simpa using ih
    unfold expectedDesc
    rw [List.length_append, List.length_flatMap, List.length_map, hfl]
    simp only [List.length_map, hfl]
    rw [List.map_const', List.sum_replicate, smul_eq_mul]
  have hsplit : ((many :: mask).filter (· = true)).length + ((many :: mask).filter (· = false)).length
      = (many :: mask).length := by
    generalize (many :: mask) = l
    induction l with
    | nil => rfl
    | cons a t ih => cases a <;> simp [List.filter_cons] at ih ⊢ <;> omega
  refine ⟨f, hf, hfc, hfn, ?_, ?_, ?_, ?_, ?_⟩
  · rw [hfc, hfn, hal.1, hal.2.1, List.length_map, List.length_map]
  · rw [hfn, hft, hal.2.1, hal.2.2.1, List.length_map, List.length_map]
  · rw [hfn, hfr, hal.2.1, hal.2.2.2, List.length_map, List.length_map]
  · rw [hkr, hkf, ← hc, ← hsplit]
    have : (many :: mask).length = mask.length + 1 := rfl
    omega
  · rw [hfc, hal.1, List.length_map, hd, hkr, hkf, ← hsplit]; omega

/-- C24, defect: in the multi-regime run the list `name_y` is filled with the characters of the names. -/
theorem C24_name_y_violated :
    accumNameY ["0_HR90", "1_HR90"] ≠ ["0_HR90", "1_HR90"] ∧
    (accumNameY ["0_HR90", "1_HR90"]).length = 12 := by decide

/-- Non-vacuity for C24: constant varying, first variable varying, second fixed. -/
example : (setNameXRegimes id ["CONSTANT", "a", "b"] [true, true, false] ["r0", "r1"] [VType.o, .x, .x]).1
    = ["r0_CONSTANT", "r0_a", "r1_CONSTANT", "r1_a", "_Global_b"] := by decide

end Spreg.Regimes
