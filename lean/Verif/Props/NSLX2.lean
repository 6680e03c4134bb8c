import Verif.Props.NSLX
/-
C112: names of the lagged columns of NSLX. C113: its weights.
-/
namespace Spreg.NSLX
open Matrix Spreg.Lin

/-! ### Weights -/

/-- What a nearest neighbour query without bandwidth returns for `n` units (specification): for each unit a nonempty list of
distinct other units with nonnegative distances, the largest distance last. -/
structure Query (n : ℕ) (query : List (List (Option ℝ × ℕ))) : Prop where
  length : query.length = n
  nonempty : ∀ row ∈ query, row ≠ []
  finite : ∀ row ∈ query, ∀ p ∈ row, ∃ d, p.1 = some d ∧ 0 ≤ d
  unit : ∀ row ∈ query, ∀ p ∈ row, p.2 < n
  nodup : ∀ row ∈ query, (row.map (·.2)).Nodup
  last : ∀ row ∈ query, ∀ q, row.getLast? = some q → ∀ p ∈ row, p.1.getD 0 ≤ q.1.getD 0

/-- The value stored for a neighbour at the fraction `q` of the largest distance (specification): a triangular kernel for `power`, the
fraction itself for `exponential`. -/
noncomputable def stored (t : Transform) (q : ℝ) : ℝ :=
  match t with
  | .power => 1 - q
  | .exponential => q

theorem makeW_some {bounded : Bool} {t : Transform} {n : ℕ} {query : List (List (Option ℝ × ℕ))} {c : Coo}
    (h : makeW bounded t n query = some c) :
    (∀ row ∈ query, (∃ p ∈ row, bounded = false ∨ p.2 ≠ n) → ∃ m, mxrow bounded row = some m ∧ 0 < m) ∧
    c.entries ≠ [] ∧ c.rows = (c.entries.map (·.1)).foldr max 0 + 1 ∧ c.cols = (c.entries.map (·.2.1)).foldr max 0 + 1 ∧
    ∀ e, e ∈ c.entries ↔ ∃ i row, query[i]? = some row ∧ e ∈ rowEntries bounded t n i row := by
  unfold makeW at h
  simp only at h
  split_ifs at h with h1 h2
  obtain rfl := Option.some.inj h
  refine ⟨h1, h2, rfl, rfl, fun e => ?_⟩
  simp only [List.mem_flatten, List.mem_map]
  constructor
  · rintro ⟨l, ⟨⟨row, i⟩, hp, rfl⟩, he⟩
    exact ⟨i, row, List.mem_zipIdx_iff_getElem?.1 hp, he⟩
  · rintro ⟨i, row, hr, he⟩
    exact ⟨_, ⟨(row, i), List.mem_zipIdx_iff_getElem?.2 hr, rfl⟩, he⟩

theorem mxrow_unb (row : List (Option ℝ × ℕ)) : mxrow false row = row.getLast?.bind (·.1) := rfl

theorem mem_rowEntries {t : Transform} {n i : ℕ} {row : List (Option ℝ × ℕ)} {m : ℝ} (hm : mxrow false row = some m) (e : ℕ × ℕ × ℝ) :
    e ∈ rowEntries false t n i row ↔ ∃ p ∈ row, e = (i, p.2, scaled t m (p.1.getD 0)) := by
  unfold rowEntries
  rw [hm]
  simp only [Bool.not_false, Bool.true_or, List.filter_true, List.mem_map]
  exact ⟨fun ⟨p, hp, h⟩ => ⟨p, hp, h.symm⟩, fun ⟨p, hp, h⟩ => ⟨p, hp, h.symm⟩⟩

theorem coo_get {c : Coo} {i j : ℕ} {v : ℝ} (h : (i, j, v) ∈ c.entries) (hu : ∀ v', (i, j, v') ∈ c.entries → v' = v) :
    c.get i j = some v := by
  unfold Coo.get
  cases hf : c.entries.find? fun e => decide (e.1 = i ∧ e.2.1 = j) with
  | none =>
    have := List.find?_eq_none.1 hf _ h
    simp at this
  | some e =>
    have h1 := List.find?_some hf
    have h2 := List.mem_of_find?_eq_some hf
    obtain ⟨a, b, w⟩ := e
    simp only [decide_eq_true_eq] at h1
    obtain ⟨rfl, rfl⟩ := h1
    rw [Option.map_some, hu w h2]

theorem coo_get_mem {c : Coo} {i j : ℕ} {v : ℝ} (h : c.get i j = some v) : (i, j, v) ∈ c.entries := by
  unfold Coo.get at h
  rw [Option.map_eq_some_iff] at h
  obtain ⟨⟨a, b, w⟩, h1, rfl⟩ := h
  have h2 := List.mem_of_find?_eq_some h1
  have h3 := List.find?_some h1
  simp only [decide_eq_true_eq] at h3
  obtain ⟨rfl, rfl⟩ := h3
  exact h2

/-- C113: without bandwidth the stored value for unit `i` and its neighbour `j` at distance `d` is `1 - d/D` (power) or `d/D`
(exponential), where `D` is the largest distance in the row; all values lie in `[0, 1]`, and nothing else is stored. -/
theorem C113_values {t : Transform} {n : ℕ} {query : List (List (Option ℝ × ℕ))} {c : Coo} (hq : Query n query)
    (h : makeW false t n query = some c) (i j : ℕ) (v : ℝ) :
    c.get i j = some v ↔ ∃ row d D k, query[i]? = some row ∧ (some d, j) ∈ row ∧ row.getLast? = some (some D, k) ∧ 0 < D ∧
      v = stored t (d / D) ∧ 0 ≤ v ∧ v ≤ 1 := by
  obtain ⟨hpos, -, -, -, hmem⟩ := makeW_some h
  have hrow : ∀ (i : ℕ) row, query[i]? = some row → ∃ D k, row.getLast? = some (some D, k) ∧ 0 < D ∧ mxrow false row = some D := by
    intro i row hr
    have hin := List.mem_of_getElem? hr
    have hne := hq.nonempty row hin
    obtain ⟨p, hp⟩ := List.exists_mem_of_ne_nil row hne
    obtain ⟨m, hm, hm0⟩ := hpos row hin ⟨p, hp, Or.inl rfl⟩
    have hm' := hm
    rw [mxrow_unb, Option.bind_eq_some_iff] at hm
    obtain ⟨⟨d, k⟩, hl, hd⟩ := hm
    simp only at hd
    exact ⟨m, k, by rw [hl, hd], hm0, hm'⟩
  have hval : ∀ row, row ∈ query → ∀ d D k, (some d, j) ∈ row → row.getLast? = some (some D, k) → 0 < D →
      scaled t D d = stored t (d / D) ∧ 0 ≤ scaled t D d ∧ scaled t D d ≤ 1 := by
    intro row hin d D k hd hl hD
    obtain ⟨d', he, hd0⟩ := hq.finite row hin _ hd
    have he := Option.some.inj he
    subst he
    have hle := hq.last row hin _ hl _ hd
    simp only [Option.getD_some] at hle
    have h1 : 0 ≤ d / D := div_nonneg hd0 hD.le
    have h2 : d / D ≤ 1 := (div_le_one hD).2 hle
    cases t with
    | power => exact ⟨by simp only [scaled, stored]; ring, by simp only [scaled]; linarith, by simp only [scaled]; linarith⟩
    | exponential => exact ⟨rfl, h1, h2⟩
  constructor
  · intro hg
    obtain ⟨i', row, hr, he⟩ := (hmem _).1 (coo_get_mem hg)
    have hin := List.mem_of_getElem? hr
    obtain ⟨D, k, hl, hD, hm⟩ := hrow i' row hr
    obtain ⟨⟨od, j'⟩, hp, he⟩ := (mem_rowEntries hm _).1 he
    obtain ⟨d, hd, -⟩ := hq.finite row hin _ hp
    simp only at hd
    subst hd
    simp only [Option.getD_some, Prod.mk.injEq] at he
    obtain ⟨rfl, rfl, rfl⟩ := he
    obtain ⟨h1, h2, h3⟩ := hval row hin d D k hp hl hD
    exact ⟨row, d, D, k, hr, hp, hl, hD, h1, h2, h3⟩
  · rintro ⟨row, d, D, k, hr, hp, hl, hD, hv, -, -⟩
    have hin := List.mem_of_getElem? hr
    obtain ⟨D', k', hl', -, hm⟩ := hrow i row hr
    rw [hl] at hl'
    have : D = D' := by
      have := Option.some.inj hl'
      exact Option.some.inj (Prod.mk.inj this).1
    subst this
    obtain ⟨h1, -, -⟩ := hval row hin d D k hp hl hD
    rw [hv, ← h1]
    apply coo_get
    · exact (hmem _).2 ⟨i, row, hr, (mem_rowEntries hm _).2 ⟨_, hp, rfl⟩⟩
    · intro v' hv'
      obtain ⟨i2, row2, hr2, he2⟩ := (hmem _).1 hv'
      obtain ⟨D2, k2, hl2, -, hm2⟩ := hrow i2 row2 hr2
      obtain ⟨⟨od, j2⟩, hp2, he2⟩ := (mem_rowEntries hm2 _).1 he2
      simp only [Prod.mk.injEq] at he2
      obtain ⟨rfl, rfl, rfl⟩ := he2
      rw [hr] at hr2
      obtain rfl := Option.some.inj hr2
      rw [hm] at hm2
      obtain rfl := Option.some.inj hm2
      have : (od, j) = (some d, j) := List.inj_on_of_nodup_map (hq.nodup row hin) hp2 hp rfl
      rw [(Prod.mk.inj this).1, Option.getD_some]

/-- C113 fails for the power kernel: the farthest neighbour of every unit is stored with weight 0, so (`C110_power_nan_violated`) the
variance matrix of NSLX with a power kernel is never available. -/
theorem C113_farthest_violated {n : ℕ} {query : List (List (Option ℝ × ℕ))} {c : Coo} (hq : Query n query)
    (h : makeW false .power n query = some c) (i : Fin n) : ∃ j : Fin n, c.get i j = some 0 := by
  obtain ⟨hpos, -, -, -, hmem⟩ := makeW_some h
  have hi : (i : ℕ) < query.length := by rw [hq.length]; exact i.2
  have hr : query[(i : ℕ)]? = some query[(i : ℕ)] := List.getElem?_eq_getElem hi
  generalize query[(i : ℕ)] = row at hr
  have hin := List.mem_of_getElem? hr
  have hne := hq.nonempty row hin
  obtain ⟨⟨od, k⟩, hl⟩ : ∃ q, row.getLast? = some q := ⟨_, List.getLast?_eq_some_getLast hne⟩
  have hlm := List.mem_of_getLast? hl
  obtain ⟨D, hD, -⟩ := hq.finite row hin _ hlm
  simp only at hD
  subst hD
  have hD0 : 0 < D := by
    obtain ⟨m, hm, hm0⟩ := hpos row hin ⟨_, hlm, Or.inl rfl⟩
    rw [mxrow_unb, hl, Option.bind_some] at hm
    rw [Option.some.inj hm]; exact hm0
  refine ⟨⟨k, hq.unit row hin _ hlm⟩, ?_⟩
  rw [C113_values hq h]
  exact ⟨row, D, D, k, hr, hlm, hl, hD0, by simp [stored, div_self hD0.ne'], le_refl _, zero_le_one⟩

/-- The two defects together: with a power kernel made by `make_wnslx` there is no variance matrix, for all data, selections and
parameters. -/
theorem C110_power_never_violated {n : ℕ} [NeZero n] {k h : Type} [Fintype k] [Fintype h] [DecidableEq k] [DecidableEq h]
    {query : List (List (Option ℝ × ℕ))} {c : Coo} (hq : Query n query) (hc : makeW false .power n query = some c)
    (w : h → Sparse (Fin n)) (t : h → Transform) (i : h) (ht : t i = .power) (hw : w i = fun (r j : Fin n) => c.get r j)
    (y : Fin n → ℝ) (x : Matrix (Fin n) k ℝ) (xw : Matrix (Fin n) h ℝ) (b : k → ℝ) (alpha : h → ℝ) (f : Fit (Fin n) k h)
    (hf : baseNSLX w t y x xw b alpha = some f) : f.vm = none := by
  obtain ⟨j, hj⟩ := C113_farthest_violated hq hc 0
  simp only [baseNSLX, Option.bind_eq_some_iff, Option.map_eq_some_iff] at hf
  obtain ⟨_, _, _, _, rfl⟩ := hf
  exact C110_power_nan_violated w t x xw alpha _ i 0 j ht (by rw [hw]; exact hj)

/-- C113: changing the unit of measurement of the coordinates does not change the weights. -/
theorem C113_scale (t : Transform) (n : ℕ) (query : List (List (Option ℝ × ℕ))) (s : ℝ) (hs : 0 < s) :
    makeW false t n (query.map fun row => row.map fun p => (p.1.map (s * ·), p.2)) = makeW false t n query := by
  have hm : ∀ row : List (Option ℝ × ℕ), mxrow false (row.map fun p => (p.1.map (s * ·), p.2)) = (mxrow false row).map (s * ·) := by
    intro row
    rw [mxrow_unb, mxrow_unb, List.getLast?_map]
    cases row.getLast? with
    | none => rfl
    | some p => cases p.1 <;> simp
  have hsc : ∀ m d : ℝ, scaled t (s * m) (s * d) = scaled t m d := by
    intro m d
    unfold scaled
    rw [mul_div_mul_left _ _ hs.ne']
  have he : ∀ i row, rowEntries false t n i (row.map fun p => (p.1.map (s * ·), p.2)) = rowEntries false t n i row := by
    intro i row
    unfold rowEntries
    rw [hm]
    cases mxrow false row with
    | none => rfl
    | some m =>
      simp only [Option.map_some, Bool.not_false, Bool.true_or, List.filter_true, List.map_map]
      refine List.map_congr_left fun p _ => ?_
      simp only [Function.comp]
      cases hp : p.1 with
      | none =>
        simp only [Option.map_none, Option.getD_none]
        have := hsc m 0
        rw [mul_zero] at this
        rw [this]
      | some d => simp only [Option.map_some, Option.getD_some, hsc]
  unfold makeW
  have hz : ((query.map fun row => row.map fun p => (p.1.map (s * ·), p.2)).zipIdx.map fun p => rowEntries false t n p.2 p.1) =
      query.zipIdx.map fun p => rowEntries false t n p.2 p.1 := by
    rw [List.zipIdx_map, List.map_map]
    refine List.map_congr_left fun p _ => ?_
    simp only [Function.comp, Prod.map, id, he]
  have hc : (∀ row ∈ query.map fun row => row.map fun p => (p.1.map (s * ·), p.2), (∃ p ∈ row, false = false ∨ p.2 ≠ n) →
        ∃ m, mxrow false row = some m ∧ 0 < m) ↔
      ∀ row ∈ query, (∃ p ∈ row, false = false ∨ p.2 ≠ n) → ∃ m, mxrow false row = some m ∧ 0 < m := by
    simp only [List.forall_mem_map, hm, true_or, and_true, Option.map_eq_some_iff]
    refine forall₂_congr fun row _ => ?_
    constructor
    · rintro h ⟨p, hp⟩
      obtain ⟨m, ⟨m', h1, rfl⟩, h2⟩ := h ⟨_, List.mem_map_of_mem hp⟩
      exact ⟨m', h1, (mul_pos_iff_of_pos_left hs).1 h2⟩
    · rintro h ⟨p, hp⟩
      obtain ⟨q, hq, -⟩ := List.mem_map.1 hp
      obtain ⟨m, h1, h2⟩ := h ⟨q, hq⟩
      exact ⟨s * m, ⟨m, h1, rfl⟩, mul_pos hs h2⟩
  dsimp only
  rw [hz]
  exact if_congr hc rfl rfl

theorem foldr_max_mem {l : List ℕ} (h : l ≠ []) : l.foldr max 0 ∈ l := by
  induction l with
  | nil => exact absurd rfl h
  | cons a l ih =>
    rw [List.foldr_cons]
    rcases l with - | ⟨b, l⟩
    · simp
    · rcases le_total a ((b :: l).foldr max 0) with h1 | h1
      · rw [max_eq_right h1]; exact List.mem_cons_of_mem _ (ih (by simp))
      · rw [max_eq_left h1]; exact List.mem_cons_self

theorem le_foldr_max {l : List ℕ} {a : ℕ} (h : a ∈ l) : a ≤ l.foldr max 0 := by
  induction l with
  | nil => cases h
  | cons b l ih =>
    rw [List.foldr_cons]
    rcases List.mem_cons.1 h with rfl | h
    · exact le_max_left _ _
    · exact (ih h).trans (le_max_right _ _)

theorem foldr_max_iff {l : List ℕ} {n : ℕ} (h : l ≠ []) (hl : ∀ a ∈ l, a < n) : l.foldr max 0 + 1 = n ↔ n - 1 ∈ l := by
  have h1 := foldr_max_mem h
  have h2 := hl _ h1
  constructor
  · intro e
    have : n - 1 = l.foldr max 0 := by omega
    rw [this]; exact h1
  · intro e
    have := le_foldr_max e
    omega

/-- C113, partial: the weights can be used (have `n` rows and `n` columns) exactly when the last unit is a neighbour of some unit.
Missing: the other case, `C113_shape_violated`. -/
theorem C113_shape_partial {t : Transform} {n : ℕ} {query : List (List (Option ℝ × ℕ))} {c : Coo} (hq : Query n query)
    (h : makeW false t n query = some c) : c.lagOk n ↔ ∃ row ∈ query, ∃ p ∈ row, p.2 = n - 1 := by
  obtain ⟨hpos, hne, hr, hc, hmem⟩ := makeW_some h
  have hrow : ∀ row ∈ query, ∃ m, mxrow false row = some m := by
    intro row hin
    obtain ⟨p, hp⟩ := List.exists_mem_of_ne_nil row (hq.nonempty row hin)
    obtain ⟨m, hm, -⟩ := hpos row hin ⟨p, hp, Or.inl rfl⟩
    exact ⟨m, hm⟩
  have hn : 0 < n := by
    obtain ⟨e, he⟩ := List.exists_mem_of_ne_nil _ hne
    obtain ⟨i, row, hi, -⟩ := (hmem e).1 he
    have := (List.getElem?_eq_some_iff.1 hi).1
    rw [hq.length] at this
    omega
  have hR : c.rows = n := by
    rw [hr, foldr_max_iff (by simpa using hne)]
    · have hl : n - 1 < query.length := by rw [hq.length]; omega
      have h1 : query[n - 1]? = some query[n - 1] := List.getElem?_eq_getElem hl
      generalize query[n - 1] = row at h1
      have hin := List.mem_of_getElem? h1
      obtain ⟨m, hm⟩ := hrow row hin
      obtain ⟨p, hp⟩ := List.exists_mem_of_ne_nil row (hq.nonempty row hin)
      exact List.mem_map.2 ⟨_, (hmem _).2 ⟨n - 1, row, h1, (mem_rowEntries hm _).2 ⟨p, hp, rfl⟩⟩, rfl⟩
    · intro a ha
      obtain ⟨e, he, rfl⟩ := List.mem_map.1 ha
      obtain ⟨i, row, hi, he⟩ := (hmem e).1 he
      obtain ⟨m, hm⟩ := hrow row (List.mem_of_getElem? hi)
      obtain ⟨p, -, rfl⟩ := (mem_rowEntries hm _).1 he
      have := (List.getElem?_eq_some_iff.1 hi).1
      rw [hq.length] at this
      exact this
  unfold Coo.lagOk
  rw [hR, hc, foldr_max_iff (by simpa using hne)]
  · simp only [true_and, List.mem_map]
    constructor
    · rintro ⟨e, he, h1⟩
      obtain ⟨i, row, hi, he⟩ := (hmem e).1 he
      obtain ⟨m, hm⟩ := hrow row (List.mem_of_getElem? hi)
      obtain ⟨p, hp, rfl⟩ := (mem_rowEntries hm _).1 he
      exact ⟨row, List.mem_of_getElem? hi, p, hp, h1⟩
    · rintro ⟨row, hin, p, hp, h1⟩
      obtain ⟨i, hi⟩ := List.mem_iff_getElem?.1 hin
      obtain ⟨m, hm⟩ := hrow row hin
      exact ⟨_, (hmem _).2 ⟨i, row, hi, (mem_rowEntries hm _).2 ⟨p, hp, rfl⟩⟩, h1⟩
  · intro a ha
    obtain ⟨e, he, rfl⟩ := List.mem_map.1 ha
    obtain ⟨i, row, hi, he⟩ := (hmem e).1 he
    have hin := List.mem_of_getElem? hi
    obtain ⟨m, hm⟩ := hrow row hin
    obtain ⟨p, hp, rfl⟩ := (mem_rowEntries hm _).1 he
    exact hq.unit row hin p hp

/-- Nearest neighbours of three points on a line at 0, 1 and 5. -/
def line3 : List (List (Option ℝ × ℕ)) := [[(some 1, 1)], [(some 1, 0)], [(some 4, 1)]]

theorem line3_query : Query 3 line3 := by
  constructor
  · rfl
  · simp [line3]
  · simp [line3]
  · simp [line3]
  · simp [line3]
  · simp [line3]

theorem line3_some (t : Transform) : ∃ c, makeW false t 3 line3 = some c := by
  unfold makeW
  rw [if_pos]
  · rw [if_neg]
    · exact ⟨_, rfl⟩
    · simp [line3, rowEntries, mxrow]
  · simp [line3, mxrow]

/-- C113 fails: for three points on a line at 0, 1 and 5 with one nearest neighbour, the inferred shape is 3 by 2, and NSLX raises. -/
theorem C113_shape_violated (t : Transform) : ∃ c, makeW false t 3 line3 = some c ∧ ¬ c.lagOk 3 := by
  obtain ⟨c, hc⟩ := line3_some t
  refine ⟨c, hc, ?_⟩
  rw [C113_shape_partial line3_query hc]
  simp [line3]

/-- What a nearest neighbour query with a bandwidth returns for `n` units (specification): as `Query`, but a missing neighbour is
reported as unit `n` at an infinite distance. -/
structure BQuery (n : ℕ) (query : List (List (Option ℝ × ℕ))) : Prop where
  length : query.length = n
  found : ∀ row ∈ query, ∀ p ∈ row, (∃ d, p.1 = some d ∧ 0 ≤ d ∧ p.2 < n) ∨ p = (none, n)
  nodup : ∀ row ∈ query, ((row.filter fun p => p.2 ≠ n).map (·.2)).Nodup

/-- `D` is the largest distance of a neighbour that was found (specification). -/
def Largest (row : List (Option ℝ × ℕ)) (D : ℝ) : Prop :=
  (∃ k, (some D, k) ∈ row) ∧ ∀ d k, (some d, k) ∈ row → d ≤ D

theorem foldr_max_largest {n : ℕ} {row : List (Option ℝ × ℕ)}
    (hf : ∀ p ∈ row, (∃ d, p.1 = some d ∧ 0 ≤ d ∧ p.2 < n) ∨ p = (none, n)) (hne : ∃ p ∈ row, p.2 ≠ n) :
    Largest row ((row.map fun p => p.1.getD 0).foldr max 0) := by
  induction row with
  | nil => obtain ⟨p, hp, -⟩ := hne; cases hp
  | cons p row ih =>
    have hf' : ∀ q ∈ row, (∃ d, q.1 = some d ∧ 0 ≤ d ∧ q.2 < n) ∨ q = (none, n) := fun q hq => hf q (List.mem_cons_of_mem _ hq)
    rw [List.map_cons, List.foldr_cons]
    by_cases hr : ∃ q ∈ row, q.2 ≠ n
    · obtain ⟨⟨k, hk⟩, hle⟩ := ih hf' hr
      set M := (row.map fun p => p.1.getD 0).foldr max 0
      rcases hf p List.mem_cons_self with ⟨d, hd, hd0, hpn⟩ | hp
      · obtain ⟨o, k'⟩ := p
        simp only at hd; subst hd
        simp only [Option.getD_some]
        constructor
        · rcases max_choice d M with e | e <;> rw [e]
          · exact ⟨k', List.mem_cons_self⟩
          · exact ⟨k, List.mem_cons_of_mem _ hk⟩
        · intro d' k'' hm
          rcases List.mem_cons.1 hm with he | he
          · obtain ⟨h1, -⟩ := Prod.mk.inj he
            rw [Option.some.inj h1]; exact le_max_left _ _
          · exact (hle _ _ he).trans (le_max_right _ _)
      · subst hp
        simp only [Option.getD_none]
        have hM : 0 ≤ M := by
          rcases hf' _ hk with ⟨d, hd, h0, -⟩ | h0
          · rw [Option.some.inj hd]; exact h0
          · exact absurd (congrArg Prod.fst h0) (by simp)
        rw [max_eq_right hM]
        refine ⟨⟨k, List.mem_cons_of_mem _ hk⟩, fun d' k'' hm => ?_⟩
        rcases List.mem_cons.1 hm with he | he
        · exact absurd (congrArg Prod.fst he) (by simp)
        · exact hle _ _ he
    · have hn : ∀ q ∈ row, q = (none, n) := by
        intro q hq
        rcases hf' q hq with ⟨d, -, -, h0⟩ | h0
        · exact absurd ⟨q, hq, h0.ne⟩ hr
        · exact h0
      have h0 : (row.map fun p => p.1.getD 0).foldr max 0 = (0 : ℝ) := by
        clear ih hf hf' hne hr
        induction row with
        | nil => rfl
        | cons q row ih =>
          rw [List.map_cons, List.foldr_cons, ih fun q hq => hn q (List.mem_cons_of_mem _ hq), hn q List.mem_cons_self]
          simp
      rw [h0]
      rcases hf p List.mem_cons_self with ⟨d, hd, hd0, hpn⟩ | hp
      · obtain ⟨o, k'⟩ := p
        simp only at hd; subst hd
        simp only [Option.getD_some]
        rw [max_eq_left hd0]
        refine ⟨⟨k', List.mem_cons_self⟩, fun d' k'' hm => ?_⟩
        rcases List.mem_cons.1 hm with he | he
        · obtain ⟨h1, -⟩ := Prod.mk.inj he
          rw [Option.some.inj h1]
        · exact absurd (congrArg Prod.fst (hn _ he)) (by simp)
      · obtain ⟨q, hq, hqn⟩ := hne
        rcases List.mem_cons.1 hq with he | he
        · rw [he, hp] at hqn; exact absurd rfl hqn
        · exact absurd ⟨q, he, hqn⟩ hr

/-- C113 with a bandwidth: the stored value for unit `i` and its neighbour `j` at distance `d` is `1 - d/D` (power) or `d/D`
(exponential), where `D` is the largest distance among the neighbours found in the row; all values lie in `[0, 1]`; nothing is
stored for missing neighbours. -/
theorem C113_bandwidth {t : Transform} {n : ℕ} {query : List (List (Option ℝ × ℕ))} {c : Coo} (hq : BQuery n query)
    (h : makeW true t n query = some c) (i j : ℕ) (v : ℝ) :
    c.get i j = some v ↔ ∃ row d D, query[i]? = some row ∧ (some d, j) ∈ row ∧ Largest row D ∧ 0 < D ∧
      v = stored t (d / D) ∧ 0 ≤ v ∧ v ≤ 1 := by
  obtain ⟨hpos, -, -, -, hmem⟩ := makeW_some h
  have hmr : ∀ (i : ℕ) (row : List (Option ℝ × ℕ)) e, e ∈ rowEntries true t n i row ↔
      ∃ p ∈ row, p.2 ≠ n ∧ e = (i, p.2, scaled t ((row.map fun p => p.1.getD 0).foldr max 0) (p.1.getD 0)) := by
    intro i row e
    unfold rowEntries mxrow
    simp only [if_true, List.mem_map, List.mem_filter, Bool.not_true, Bool.false_or, decide_eq_true_eq]
    exact ⟨fun ⟨p, ⟨hp, hn⟩, h⟩ => ⟨p, hp, hn, h.symm⟩, fun ⟨p, hp, hn, h⟩ => ⟨p, ⟨hp, hn⟩, h.symm⟩⟩
  have huniq : ∀ (row : List (Option ℝ × ℕ)) D D', Largest row D → Largest row D' → D = D' := by
    rintro row D D' ⟨⟨k, hk⟩, h1⟩ ⟨⟨k', hk'⟩, h2⟩
    exact le_antisymm (h2 _ _ hk) (h1 _ _ hk')
  have hval : ∀ row ∈ query, ∀ d k, (some d, k) ∈ row → k ≠ n ∧
      Largest row ((row.map fun p => p.1.getD 0).foldr max 0) ∧ 0 < (row.map fun p => p.1.getD 0).foldr max 0 ∧
      scaled t ((row.map fun p => p.1.getD 0).foldr max 0) d = stored t (d / (row.map fun p => p.1.getD 0).foldr max 0) ∧
      0 ≤ scaled t ((row.map fun p => p.1.getD 0).foldr max 0) d ∧ scaled t ((row.map fun p => p.1.getD 0).foldr max 0) d ≤ 1 := by
    intro row hin d k hd
    have hd0 : 0 ≤ d ∧ k < n := by
      rcases hq.found row hin _ hd with ⟨d', h1, h2, h3⟩ | h1
      · rw [Option.some.inj h1]; exact ⟨h2, h3⟩
      · exact absurd (congrArg Prod.fst h1) (by simp)
    have hex : ∃ p ∈ row, p.2 ≠ n := ⟨_, hd, hd0.2.ne⟩
    have hL := foldr_max_largest (hq.found row hin) hex
    obtain ⟨m, hm, hm0⟩ := hpos row hin (by obtain ⟨p, hp, h1⟩ := hex; exact ⟨p, hp, Or.inr h1⟩)
    have hD : 0 < (row.map fun p => p.1.getD 0).foldr max 0 := by
      unfold mxrow at hm
      rw [if_pos rfl] at hm
      rw [Option.some.inj hm]; exact hm0
    generalize (row.map fun p => p.1.getD 0).foldr max 0 = D at hL hD ⊢
    have hle := hL.2 _ _ hd
    have h1 : 0 ≤ d / D := div_nonneg hd0.1 hD.le
    have h2 : d / D ≤ 1 := (div_le_one hD).2 hle
    refine ⟨hd0.2.ne, hL, hD, ?_⟩
    cases t with
    | power => exact ⟨by simp only [scaled, stored]; ring, by simp only [scaled]; linarith, by simp only [scaled]; linarith⟩
    | exponential => exact ⟨rfl, h1, h2⟩
  have hsome : ∀ row ∈ query, ∀ p ∈ row, p.2 ≠ n → ∃ d, p = (some d, p.2) := by
    rintro row hin ⟨o, k⟩ hp hn
    rcases hq.found row hin _ hp with ⟨d, h1, -⟩ | h1
    · exact ⟨d, by simp only at h1; rw [h1]⟩
    · exact absurd (congrArg Prod.snd h1) hn
  constructor
  · intro hg
    obtain ⟨i', row, hr, he⟩ := (hmem _).1 (coo_get_mem hg)
    have hin := List.mem_of_getElem? hr
    obtain ⟨⟨o, k⟩, hp, hn, he⟩ := (hmr _ _ _).1 he
    obtain ⟨d, hd⟩ := hsome row hin _ hp hn
    obtain rfl := (Prod.mk.inj hd).1
    simp only [Option.getD_some, Prod.mk.injEq] at he
    obtain ⟨rfl, rfl, rfl⟩ := he
    obtain ⟨-, hL, hD, h1, h2, h3⟩ := hval row hin d j hp
    exact ⟨row, d, _, hr, hp, hL, hD, h1, h2, h3⟩
  · rintro ⟨row, d, D, hr, hp, hL', hD', hv, -, -⟩
    have hin := List.mem_of_getElem? hr
    obtain ⟨hn, hL, hD, h1, h2, h3⟩ := hval row hin d j hp
    rw [huniq row _ _ hL' hL, ← h1] at hv
    rw [hv]
    apply coo_get
    · exact (hmem _).2 ⟨i, row, hr, (hmr _ _ _).2 ⟨_, hp, hn, rfl⟩⟩
    · intro v' hv'
      obtain ⟨i2, row2, hr2, he2⟩ := (hmem _).1 hv'
      obtain ⟨⟨o, k⟩, hp2, hn2, he2⟩ := (hmr _ _ _).1 he2
      simp only [Prod.mk.injEq] at he2
      obtain ⟨rfl, rfl, rfl⟩ := he2
      rw [hr] at hr2
      obtain rfl := Option.some.inj hr2
      have : (o, j) = (some d, j) := List.inj_on_of_nodup_map (hq.nodup row hin)
        (List.mem_filter.2 ⟨hp2, by simpa using hn2⟩) (List.mem_filter.2 ⟨hp, by simpa using hn⟩) rfl
      rw [(Prod.mk.inj this).1, Option.getD_some]

/-- Two neighbours within a bandwidth of 3 of three points on a line at 0, 1 and 3. -/
def bline3 : List (List (Option ℝ × ℕ)) := [[(some 1, 1), (none, 3)], [(some 1, 0), (some 2, 2)], [(some 2, 1), (none, 3)]]

/-- The hypotheses of `C113_bandwidth` are met. -/
example : BQuery 3 bline3 ∧ ∃ c, makeW true .power 3 bline3 = some c ∧ c.get 1 0 = some (1 / 2) := by
  have hq : BQuery 3 bline3 := by
    constructor
    · rfl
    · intro row hr p hp
      simp only [bline3, List.mem_cons, List.not_mem_nil, or_false] at hr
      rcases hr with rfl | rfl | rfl <;> simp only [List.mem_cons, List.not_mem_nil, or_false] at hp <;>
        rcases hp with rfl | rfl <;> simp
    · simp [bline3]
  obtain ⟨c, hc⟩ : ∃ c, makeW true .power 3 bline3 = some c := by
    unfold makeW
    rw [if_pos]
    · rw [if_neg]
      · exact ⟨_, rfl⟩
      · simp [bline3, rowEntries, mxrow]
    · simp [bline3, mxrow]
  refine ⟨hq, c, hc, ?_⟩
  rw [C113_bandwidth hq hc]
  refine ⟨[(some 1, 0), (some 2, 2)], 1, 2, rfl, by simp, ⟨⟨2, by simp⟩, ?_⟩, by norm_num, by norm_num [stored], by norm_num, by norm_num⟩
  intro d k h
  simp only [List.mem_cons, Prod.mk.injEq, Option.some.injEq, List.not_mem_nil, or_false] at h
  rcases h with ⟨rfl, -⟩ | ⟨rfl, -⟩ <;> norm_num

/-! ### Names -/

/-- The selected columns: all, or those where the mask is true (specification: positions). -/
def selected (names : List String) : Option (List Bool) → List ℕ
  | none => List.range names.length
  | some m => (List.range names.length).filter fun i => m.getD i false

theorem compress_eq {α : Type} (l : List α) (m : List Bool) (hl : m.length = l.length) (d : α) :
    compress l m = ((List.range l.length).filter fun i => m.getD i false).map fun i => l.getD i d := by
  induction l generalizing m with
  | nil => cases m <;> simp [compress]
  | cons a l ih =>
    cases m with
    | nil => simp at hl
    | cons b m =>
      have hl' : m.length = l.length := by simpa using hl
      have ih' := ih m hl'
      rw [List.length_cons, List.range_succ_eq_map, List.filter_cons]
      have e1 : compress (a :: l) (b :: m) = (if b then [a] else []) ++ compress l m := by
        unfold compress
        cases b <;> simp
      have e2 : (List.map Nat.succ (List.range l.length)).filter (fun i => (b :: m).getD i false) =
          ((List.range l.length).filter fun i => m.getD i false).map Nat.succ := by
        rw [List.filter_map]
        congr 1
      rw [e1, ih', e2]
      cases b <;> simp [List.map_map, Function.comp_def]

theorem compress_length {α β : Type} (l : List α) (l' : List β) (m : List Bool) (h : l.length = l'.length) :
    (compress l m).length = (compress l' m).length := by
  induction l generalizing l' m with
  | nil =>
    cases l' with
    | nil => rfl
    | cons => simp at h
  | cons a l ih =>
    cases l' with
    | nil => simp at h
    | cons b l' =>
      cases m with
      | nil => simp [compress]
      | cons c m =>
        have := ih l' m (by simpa using h)
        unfold compress at this ⊢
        cases c <;> simpa using this

/-- First character. -/
def initial (s : String) : String := (s.take 1).toString

/-- The parameters for lagged column `i` (specification): the single one given, that of its regressor if there is one per
regressor, otherwise the `i`-th. -/
def paramOf {P : Type} (params : List P) (names : List String) (slx : Option (List Bool)) (i : ℕ) : Option P :=
  if params.length = 1 then params[0]?
  else if params.length = names.length then (selected names slx)[i]?.bind fun c => params[c]?
  else params[i]?

/-- The parameters of the weights that the estimation uses for lagged column `i`: `nlmod`, nslx.py:484-487. -/
def usedParam {P : Type} (ps : List P) (i : ℕ) : Option P := if ps.length = 1 then ps[0]? else ps[i]?

/-- C112, partial: if there is one set of parameters or at least two remain after the selection, lagged column `i` is named after
its own regressor and its own kernel, and the weights used for it are made from its own parameters. Missing:
`C112_single_violated`. -/
theorem C112_names_partial {P : Type} (tr : P → String) (params : List P) (names : List String) (slx : Option (List Bool))
    (ns : List String) (ps : List P) (h : nslxNames tr params names slx = .ok (ns, ps)) (hg : params.length = 1 ∨ 1 < ps.length) :
    ns.length = (selected names slx).length ∧
    ∀ i c, (selected names slx)[i]? = some c → ∃ p, paramOf params names slx i = some p ∧ usedParam ps i = some p ∧
      ns[i]? = some ("W" ++ initial (tr p) ++ "_" ++ names.getD c "") := by
  obtain ⟨sel, hsel, hpre⟩ : ∃ sel, nslxSelect params names slx = .ok (sel, ps) ∧ nslxPrefix tr params.length ps sel = .ok ns := by
    unfold nslxNames at h
    cases h1 : nslxSelect params names slx with
    | error e => rw [h1] at h; cases h
    | ok q =>
      obtain ⟨sel, ps'⟩ := q
      rw [h1] at h
      simp only at h
      cases h2 : nslxPrefix tr params.length ps' sel with
      | error e => rw [h2] at h; cases h
      | ok ns' =>
        rw [h2] at h
        simp only [Except.ok.injEq, Prod.mk.injEq] at h
        obtain ⟨rfl, rfl⟩ := h
        exact ⟨sel, rfl, h2⟩
  -- selection
  have hS : sel = (selected names slx).map fun i => names.getD i "" := by
    unfold nslxSelect at hsel
    cases slx with
    | none =>
      simp only [Except.ok.injEq, Prod.mk.injEq] at hsel
      rw [← hsel.1]
      refine List.ext_getElem (by simp [selected]) fun i h1 h2 => ?_
      simp [selected, List.getElem?_eq_getElem h1]
    | some m =>
      simp only at hsel
      split_ifs at hsel with a b c d <;> simp only [Except.ok.injEq, Prod.mk.injEq, reduceCtorEq] at hsel <;>
      · rw [← hsel.1, compress_eq names m (not_not.1 a) ""]
        rfl
  have hP : params.length ≠ 1 → ps.length = sel.length → ∀ i c, (selected names slx)[i]? = some c → ps[i]? = paramOf params names slx i := by
    intro hne hlen i c hc
    unfold paramOf
    rw [if_neg hne]
    unfold nslxSelect at hsel
    cases slx with
    | none =>
      simp only [Except.ok.injEq, Prod.mk.injEq] at hsel
      obtain ⟨-, rfl⟩ := hsel
      split_ifs
      · rw [hc, Option.bind_some]
        have : i = c := by
          unfold selected at hc
          obtain ⟨hi, hc⟩ := List.getElem?_eq_some_iff.1 hc
          rw [List.getElem_range] at hc
          exact hc
        rw [this]
      · rfl
    | some m =>
      simp only at hsel
      split_ifs at hsel with a b c' d
      all_goals simp only [Except.ok.injEq, Prod.mk.injEq, reduceCtorEq] at hsel
      · rw [if_pos (c'.trans (not_not.1 a)), ← hsel.2, hc, Option.bind_some]
        have hpos : 0 < params.length := by omega
        obtain ⟨d⟩ : Nonempty P := ⟨params[0]⟩
        rw [compress_eq params m c'.symm d, List.getElem?_map]
        have hs : (List.filter (fun i => m.getD i false) (List.range params.length))[i]? = some c := by
          rw [c', not_not.1 a]; exact hc
        rw [hs, Option.map_some]
        have hcl : c < params.length := by
          have := List.mem_of_getElem? hs
          simpa using (List.mem_filter.1 this).1
        rw [List.getElem?_eq_getElem hcl, List.getD_eq_getElem?_getD, List.getElem?_eq_getElem hcl, Option.getD_some]
      · rw [if_neg (by rw [← not_not.1 a]; exact c'), ← hsel.2]
      · exfalso
        rw [← hsel.2, ← hsel.1] at hlen
        have h0 : params.length = 0 := by omega
        rw [h0] at hlen
        have h3 : sel = [] := by rw [← hsel.1]; exact List.eq_nil_of_length_eq_zero hlen.symm
        rw [h3] at hS
        have h4 : selected names (some m) = [] := by simpa using hS.symm
        rw [h4] at hc
        simp at hc
  unfold nslxPrefix at hpre
  simp only at hpre
  by_cases h1 : params.length = 1
  · rw [if_pos h1] at hpre
    have hpp : ps = params := by
      unfold nslxSelect at hsel
      cases slx with
      | none =>
        simp only [Except.ok.injEq, Prod.mk.injEq] at hsel
        exact hsel.2.symm
      | some m =>
        simp only at hsel
        split_ifs at hsel with a b c' d
        all_goals simp only [Except.ok.injEq, Prod.mk.injEq, reduceCtorEq] at hsel
        all_goals first
          | omega
          | exact hsel.2.symm
    subst hpp
    obtain ⟨p, rfl⟩ := List.length_eq_one_iff.1 h1
    simp only [Except.ok.injEq] at hpre
    refine ⟨by rw [← hpre, List.length_map, hS]; simp, fun i c hc => ⟨p, ?_, ?_, ?_⟩⟩
    · unfold paramOf; rw [if_pos h1]; rfl
    · unfold usedParam; rw [if_pos h1]; rfl
    · rw [← hpre, hS, List.map_map, List.getElem?_map, hc]
      rfl
  · rw [if_neg h1] at hpre
    have hps : 1 < ps.length := hg.resolve_left h1
    rw [if_pos hps] at hpre
    split_ifs at hpre with h2
    have h2 := not_not.1 h2
    simp only [Except.ok.injEq] at hpre
    refine ⟨by rw [← hpre, List.length_map, List.length_zip, h2, hS]; simp, fun i c hc => ?_⟩
    have hi : i < sel.length := by
      have := (List.getElem?_eq_some_iff.1 hc).1
      rw [hS]; simpa using this
    have hi' : i < ps.length := by omega
    refine ⟨ps[i], ?_, ?_, ?_⟩
    · rw [← hP h1 h2 i c hc, List.getElem?_eq_getElem hi']
    · unfold usedParam
      rw [if_neg (by omega), List.getElem?_eq_getElem hi']
    · have hsi : sel[i]? = some (names.getD c "") := by rw [hS, List.getElem?_map, hc]; rfl
      rw [← hpre, List.getElem?_map,
        List.getElem?_zip_eq_some (z := (ps[i], names.getD c "")) |>.2 ⟨List.getElem?_eq_getElem hi', hsi⟩]
      rfl

/-- C112 fails: with one set of parameters per regressor and a single lagged regressor, the lagged column gets the name of the
regressor itself. -/
theorem C112_single_violated {P : Type} (tr : P → String) (params : List P) (names : List String) (m : List Bool)
    (hl : m.length = names.length) (hp : params.length = names.length) (h1 : 1 < names.length) (c : ℕ)
    (hc : selected names (some m) = [c]) :
    ∃ ps, nslxNames tr params names (some m) = .ok ([names.getD c ""], ps) := by
  have hs : compress names m = [names.getD c ""] := by
    rw [compress_eq names m hl ""]
    exact (congrArg (List.map fun i => names.getD i "") hc).trans rfl
  have hps : (compress params m).length = 1 := by rw [compress_length params names m hp, hs]; rfl
  refine ⟨compress params m, ?_⟩
  have e1 : nslxSelect params names (some m) = .ok ([names.getD c ""], compress params m) := by
    unfold nslxSelect
    simp only
    rw [if_neg (by simp [hl]), if_pos (by omega), if_pos (by omega), hs]
  have e2 : nslxPrefix tr params.length (compress params m) [names.getD c ""] = .ok [names.getD c ""] := by
    unfold nslxPrefix
    simp only
    rw [if_neg (by omega), if_neg (by omega)]
  unfold nslxNames
  rw [e1]
  simp only
  rw [e2]

/-- A case of `C112_single_violated`: `NSLX(..., params=[p, p], slx_vars=[True, False])` reports two coefficients named `x1`. -/
example : nslxNames id ["power", "exponential"] ["x1", "x2"] (some [true, false]) = .ok (["x1"], ["power"]) := by
  obtain ⟨ps, h⟩ := C112_single_violated id ["power", "exponential"] ["x1", "x2"] [true, false] rfl rfl (by simp) 0 (by decide)
  rfl

/-- The hypotheses of `C112_names_partial` are met with a selection. -/
example : nslxNames id ["power", "exponential", "power"] ["x1", "x2", "x3"] (some [true, false, true]) =
    .ok (["Wp_x1", "Wp_x3"], ["power", "power"]) := by decide

end Spreg.NSLX
