import Verif.Model.Output
import Verif.Props.Regimes2
import Mathlib.Data.List.Pairwise
import Mathlib.Data.String.Basic
/-
C130: the coefficient table pairs every name with the result of its coefficient.
-/
namespace Spreg.Output
open Spreg Spreg.Regimes

variable {K T C : Type} [LinearOrder K]

/-! ### C130 -/

theorem map_lookup {α β : Type} [DecidableEq α] : ∀ (L : List α) (cs : List β), L.Nodup → L.length = cs.length →
    L.map (fun a => (L.zip cs).lookup a) = cs.map some := by
  intro L
  induction L with
  | nil => intro cs _ h; cases cs with
    | nil => rfl
    | cons c cs => simp at h
  | cons a L ih =>
    intro cs hn h
    cases cs with
    | nil => simp at h
    | cons c cs =>
      rw [List.nodup_cons] at hn
      rw [List.map_cons, List.zip_cons_cons, List.map_cons, ← ih cs hn.2 (by simpa using h)]
      congr 1
      · simp [List.lookup_cons]
      · refine List.map_congr_left fun b hb => ?_
        have : (b == a) = false := by
          rw [beq_eq_false_iff_ne]; rintro rfl; exact hn.1 hb
        rw [List.lookup_cons, this]

theorem lookup_none {α β : Type} [DecidableEq α] (L : List α) (cs : List β) (a : α) (h : a ∉ L) : (L.zip cs).lookup a = none := by
  induction L generalizing cs with
  | nil => rfl
  | cons b L ih =>
    cases cs with
    | nil => rfl
    | cons c cs =>
      rw [List.mem_cons, not_or] at h
      rw [List.zip_cons_cons, List.lookup_cons, beq_eq_false_iff_ne.2 h.1]
      exact ih cs h.2

/-- Rows of an equation. -/
def rowsOf (rows : List (Row K T C)) (m : K) : List (Row K T C) := rows.filter fun r => r.eq = m

/-- The cells that the results of its equation hold for a row. -/
def cellOf (rows : List (Row K T C)) (coefs : K → List C) (r : Row K T C) : Option C :=
  (((rowsOf rows r.eq).map (·.label)).zip (coefs r.eq)).lookup r.label

theorem assign_ok (rows : List (Row K T C)) (m : K) (cs : List C) (hn : (rows.map (·.label)).Nodup)
    (hl : (rowsOf rows m).length = cs.length) :
    assign rows m cs = .ok (rows.map fun r => if r.eq = m then
      { r with cells := (((rowsOf rows m).map (·.label)).zip cs).lookup r.label } else r) := by
  unfold assign
  simp only
  rw [if_neg]
  · congr 1
    refine List.map_congr_left fun r hr => ?_
    change (match (((rowsOf rows m).map (·.label)).zip cs).lookup r.label with
      | some c => { r with cells := some c } | none => r) = _
    by_cases e : r.eq = m
    · rw [if_pos e]
      have h1 := map_lookup ((rowsOf rows m).map (·.label)) cs
        (hn.sublist (List.filter_sublist.map _)) (by rw [List.length_map, hl])
      have h2 : (((rowsOf rows m).map (·.label)).zip cs).lookup r.label ∈ cs.map some := by
        rw [← h1]
        exact List.mem_map.2 ⟨r.label, List.mem_map.2 ⟨r, List.mem_filter.2 ⟨hr, by simpa using e⟩, rfl⟩, rfl⟩
      obtain ⟨c, -, hc⟩ := List.mem_map.1 h2
      rw [← hc]
    · rw [if_neg e]
      have : r.label ∉ (rowsOf rows m).map (·.label) := by
        intro h
        obtain ⟨r', hr', he⟩ := List.mem_map.1 h
        obtain ⟨h1, h2⟩ := List.mem_filter.1 hr'
        have : r' = r := List.inj_on_of_nodup_map hn h1 hr he
        subst this
        exact e (by simpa using h2)
      rw [lookup_none _ _ _ this]
  · rintro (h | h)
    · exact h (by rw [List.length_map]; exact hl)
    · exact h hn

/-- The table after the equations `ms` have been filled in. -/
def filled (rows : List (Row K T C)) (coefs : K → List C) (ms : List K) : List (Row K T C) :=
  rows.map fun r => if r.eq ∈ ms then { r with cells := cellOf rows coefs r } else r

theorem filled_label (rows : List (Row K T C)) (coefs : K → List C) (ms : List K) :
    (filled rows coefs ms).map (·.label) = rows.map (·.label) := by
  unfold filled
  rw [List.map_map]
  refine List.map_congr_left fun r _ => ?_
  simp only [Function.comp]
  split_ifs <;> rfl

theorem filled_rowsOf (rows : List (Row K T C)) (coefs : K → List C) (ms : List K) (m : K) :
    (rowsOf (filled rows coefs ms) m).map (·.label) = (rowsOf rows m).map (·.label) := by
  unfold rowsOf filled
  rw [List.filter_map, List.map_map]
  have : rows.filter ((fun r => decide (r.eq = m)) ∘ fun r => if r.eq ∈ ms then { r with cells := cellOf rows coefs r } else r) =
      rows.filter fun r => decide (r.eq = m) := by
    refine List.filter_congr fun r _ => ?_
    simp only [Function.comp]
    split_ifs <;> rfl
  rw [this]
  refine List.map_congr_left fun r _ => ?_
  simp only [Function.comp]
  split_ifs <;> rfl

theorem foldlM_ok (rows : List (Row K T C)) (coefs : K → List C) (hn : (rows.map (·.label)).Nodup) :
    ∀ (todo dn : List K), (∀ m ∈ todo, (rowsOf rows m).length = (coefs m).length) →
    todo.foldlM (fun rows m => assign rows m (coefs m)) (filled rows coefs dn) = .ok (filled rows coefs (dn ++ todo)) := by
  intro todo
  induction todo with
  | nil => intro dn _; rw [List.append_nil]; rfl
  | cons m todo ih =>
    intro dn h
    have hl : (rowsOf (filled rows coefs dn) m).length = (coefs m).length := by
      rw [← h m List.mem_cons_self, ← List.length_map (·.label), filled_rowsOf, List.length_map]
    rw [List.foldlM_cons, assign_ok _ m _ (by rw [filled_label]; exact hn) hl, filled_rowsOf]
    have e : (filled rows coefs dn).map (fun r => if r.eq = m then
        { r with cells := (((rowsOf rows m).map (·.label)).zip (coefs m)).lookup r.label } else r) = filled rows coefs (dn ++ [m]) := by
      unfold filled
      rw [List.map_map]
      refine List.map_congr_left fun r _ => ?_
      simp only [Function.comp, List.mem_append, List.mem_singleton]
      by_cases h1 : r.eq = m
      · subst h1
        rw [if_pos (Or.inr rfl)]
        by_cases h2 : r.eq ∈ dn
        · rw [if_pos h2, if_pos rfl]; rfl
        · rw [if_neg h2, if_pos rfl]; rfl
      · by_cases h2 : r.eq ∈ dn
        · rw [if_pos h2, if_neg h1, if_pos (Or.inl h2)]
        · rw [if_neg h2, if_neg h1, if_neg (by tauto)]
    rw [e]
    change todo.foldlM _ (filled rows coefs (dn ++ [m])) = _
    rw [ih (dn ++ [m]) fun m' hm' => h m' (List.mem_cons_of_mem _ hm'), List.append_assoc]
    rfl

theorem mem_eqs (l : List K) (a : K) : a ∈ eqs l ↔ a ∈ l := by
  induction l with
  | nil => rfl
  | cons b t ih =>
    rw [eqs, List.mem_cons, List.mem_filter, ih, List.mem_cons]
    by_cases h : a = b <;> simp [h]

theorem le_trans' (a b c : Row K T C) (h1 : le a b = true) (h2 : le b c = true) : le a c = true := by
  unfold le at *
  simp only [decide_eq_true_eq] at *
  rcases h1 with h1 | ⟨h1, h1'⟩ <;> rcases h2 with h2 | ⟨h2, h2'⟩
  · exact Or.inl (h1.trans h2)
  · exact Or.inl (h2 ▸ h1)
  · exact Or.inl (h1 ▸ h2)
  · exact Or.inr ⟨h1.trans h2, h1'.trans h2'⟩

theorem le_total' (a b : Row K T C) : (le a b || le b a) = true := by
  unfold le
  simp only [Bool.or_eq_true, decide_eq_true_eq]
  rcases lt_trichotomy a.eq b.eq with h | h | h
  · exact Or.inl (Or.inl h)
  · rcases le_total a.regime b.regime with h' | h'
    · exact Or.inl (Or.inr ⟨h, h'⟩)
    · exact Or.inr (Or.inr ⟨h.symm, h'⟩)
  · exact Or.inr (Or.inl h)

theorem sort_filter (l : List (Row K T C)) (m g : K) :
    (l.mergeSort le).filter (fun r => r.eq = m ∧ r.regime = g) = l.filter fun r => r.eq = m ∧ r.regime = g := by
  have h1 : (l.filter fun r => decide (r.eq = m ∧ r.regime = g)).Pairwise (fun a b => le a b = true) := by
    refine List.pairwise_of_forall_mem_list fun a ha b hb => ?_
    have ha := (List.mem_filter.1 ha).2
    have hb := (List.mem_filter.1 hb).2
    simp only [decide_eq_true_eq] at ha hb
    unfold le
    simp only [decide_eq_true_eq]
    exact Or.inr ⟨ha.1.trans hb.1.symm, (ha.2.trans hb.2.symm).le⟩
  have h2 := List.sublist_mergeSort le_trans' le_total' h1 List.filter_sublist
  have h3 := h2.filter (fun r => decide (r.eq = m ∧ r.regime = g))
  rw [List.filter_filter] at h3
  simp only [Bool.and_self] at h3
  refine (h3.eq_of_length ?_).symm
  exact ((List.mergeSort_perm l le).filter _).length_eq.symm

/-- C130: whenever the results of every equation have as many rows as the table has for it, `output` succeeds; the table is sorted
by equation and regime; and within an equation and regime it lists, in their order, the names of the rows of the equation, each with
the results of its own coefficient. Nothing is lost. -/
theorem C130_table (rows : List (Row K T C)) (coefs : K → List C) (hn : (rows.map (·.label)).Nodup)
    (hl : ∀ r ∈ rows, (rows.filter fun r' => r'.eq = r.eq).length = (coefs r.eq).length) :
    ∃ out, table rows coefs = .ok out ∧
      out.Pairwise (fun a b => a.eq < b.eq ∨ (a.eq = b.eq ∧ a.regime ≤ b.regime)) ∧ out.length = rows.length ∧
      ∀ m g, (∃ r ∈ rows, r.eq = m) → (out.filter fun r => r.eq = m ∧ r.regime = g).map (fun r => (r.name, r.cells)) =
        (((rows.filter fun r => r.eq = m).zip (coefs m)).filter fun p => p.1.regime = g).map fun p => (p.1.name, some p.2) := by
  have hl' : ∀ m ∈ eqs (rows.map (·.eq)), (rowsOf rows m).length = (coefs m).length := by
    intro m hm
    rw [mem_eqs] at hm
    obtain ⟨r, hr, rfl⟩ := List.mem_map.1 hm
    exact hl r hr
  have h0 : filled rows coefs [] = rows := by
    unfold filled
    simp
  have h1 := foldlM_ok rows coefs hn _ [] hl'
  rw [h0, List.nil_append] at h1
  refine ⟨(filled rows coefs (eqs (rows.map (·.eq)))).mergeSort le, ?_, ?_, ?_, ?_⟩
  · unfold table
    rw [h1]; rfl
  · have := List.pairwise_mergeSort le_trans' le_total' (filled rows coefs (eqs (rows.map (·.eq))))
    refine this.imp fun {a b} h => ?_
    simpa [le] using h
  · rw [List.length_mergeSort, filled, List.length_map]
  · rintro m g ⟨r0, hr0, he0⟩
    rw [sort_filter]
    have hm : m ∈ eqs (rows.map (·.eq)) := (mem_eqs _ _).2 (List.mem_map.2 ⟨r0, hr0, he0⟩)
    have hm' := hl' m hm
    have h2 := map_lookup ((rowsOf rows m).map (·.label)) (coefs m)
        (hn.sublist (List.filter_sublist.map _)) (by rw [List.length_map, hm'])
    have e1 : (filled rows coefs (eqs (rows.map (·.eq)))).filter (fun r => decide (r.eq = m)) =
        List.zipWith (fun r c => { r with cells := some c }) (rowsOf rows m) (coefs m) := by
      unfold filled
      rw [List.filter_map]
      have e3 : rows.filter ((fun r => decide (r.eq = m)) ∘ fun r =>
          if r.eq ∈ eqs (rows.map (·.eq)) then { r with cells := cellOf rows coefs r } else r) = rowsOf rows m := by
        unfold rowsOf
        refine List.filter_congr fun r _ => ?_
        simp only [Function.comp]
        split_ifs <;> rfl
      rw [e3]
      have e4 : (rowsOf rows m).map (fun r => if r.eq ∈ eqs (rows.map (·.eq)) then { r with cells := cellOf rows coefs r } else r) =
          (rowsOf rows m).map fun r => { r with cells := (((rowsOf rows m).map (·.label)).zip (coefs m)).lookup r.label } := by
        refine List.map_congr_left fun r hr => ?_
        have : r.eq = m := by simpa using (List.mem_filter.1 hr).2
        subst this
        rw [if_pos hm]; rfl
      rw [e4]
      rw [List.map_map] at h2
      generalize rowsOf rows m = R at h2 hm'
      generalize ((R.map (·.label)).zip (coefs m)) = Z at h2
      generalize coefs m = cs at h2 hm'
      clear e4 e3 hl' h1
      induction R generalizing cs with
      | nil => rfl
      | cons r R ih =>
        cases cs with
        | nil => simp at hm'
        | cons c cs =>
          rw [List.map_cons, List.map_cons, List.cons.injEq] at h2
          rw [List.map_cons, List.zipWith_cons_cons, ih cs h2.2 (by simpa using hm'), ← h2.1]
          rfl
    have e2 : (filled rows coefs (eqs (rows.map (·.eq)))).filter (fun r => decide (r.eq = m ∧ r.regime = g)) =
        ((filled rows coefs (eqs (rows.map (·.eq)))).filter fun r => decide (r.eq = m)).filter fun r => decide (r.regime = g) := by
      rw [List.filter_filter]
      refine List.filter_congr fun r _ => ?_
      rw [Bool.and_comm, ← Bool.decide_and]
    rw [e2, e1]
    change _ = (((rowsOf rows m).zip (coefs m)).filter _).map _
    generalize rowsOf rows m = R
    generalize coefs m = cs
    clear e1 e2 h2 hm' hl' h1 hm
    induction R generalizing cs with
    | nil => rfl
    | cons r R ih =>
      cases cs with
      | nil => rfl
      | cons c cs =>
        rw [List.zipWith_cons_cons, List.zip_cons_cons, List.filter_cons, List.filter_cons]
        by_cases hg : r.regime = g
        · simp only [hg, decide_true, if_true, List.map_cons]
          rw [ih]
        · simp only [hg, decide_false, Bool.false_eq_true, if_false]
          exact ih cs

theorem foldlM_bad (rows : List (Row K T C)) (coefs : K → List C) (hn : (rows.map (·.label)).Nodup) :
    ∀ (todo dn : List K), (∃ m ∈ todo, (rowsOf rows m).length ≠ (coefs m).length) →
    todo.foldlM (fun rows m => assign rows m (coefs m)) (filled rows coefs dn) = .error .valueError := by
  intro todo
  induction todo with
  | nil => rintro dn ⟨m, hm, -⟩; cases hm
  | cons m todo ih =>
    intro dn h
    have hll : (rowsOf (filled rows coefs dn) m).length = (rowsOf rows m).length := by
      rw [← List.length_map (·.label), filled_rowsOf, List.length_map]
    by_cases hm : (rowsOf rows m).length = (coefs m).length
    · have h1 := foldlM_ok rows coefs hn [m] dn (by simpa using hm)
      have h2 : ∃ m' ∈ todo, (rowsOf rows m').length ≠ (coefs m').length := by
        obtain ⟨m', hm', hb⟩ := h
        rcases List.mem_cons.1 hm' with rfl | hm'
        · exact absurd hm hb
        · exact ⟨m', hm', hb⟩
      simp only [List.foldlM_cons, List.foldlM_nil] at h1
      rw [List.foldlM_cons]
      cases ha : assign (filled rows coefs dn) m (coefs m) with
      | error e => rw [ha] at h1; cases h1
      | ok r =>
        rw [ha] at h1
        have : r = filled rows coefs (dn ++ [m]) := by cases h1; rfl
        rw [this]
        exact ih (dn ++ [m]) h2
    · rw [List.foldlM_cons]
      have : assign (filled rows coefs dn) m (coefs m) = .error .valueError := by
        unfold assign
        simp only
        rw [if_pos]
        refine Or.inl ?_
        rw [List.length_map]
        change (rowsOf (filled rows coefs dn) m).length ≠ _
        rw [hll]; exact hm
      rw [this]; rfl

/-- C130: a table whose number of rows for some equation differs from the number of its coefficients is never reported: ValueError. -/
theorem C130_mismatch (rows : List (Row K T C)) (coefs : K → List C) (hn : (rows.map (·.label)).Nodup) (r : Row K T C) (hr : r ∈ rows)
    (hl : (rows.filter fun r' => r'.eq = r.eq).length ≠ (coefs r.eq).length) : table rows coefs = .error .valueError := by
  have h0 : filled rows coefs [] = rows := by unfold filled; simp
  have h1 := foldlM_bad rows coefs hn (eqs (rows.map (·.eq))) [] ⟨r.eq, (mem_eqs _ _).2 (List.mem_map.2 ⟨r, hr, rfl⟩), hl⟩
  rw [h0] at h1
  unfold table
  rw [h1]; rfl

theorem mapIdx_zip {α β γ : Type} (f : ℕ → α → β) (g : α → γ) (h : β → γ) (hf : ∀ i a, h (f i a) = g a) (l : List α) :
    (l.mapIdx f).map h = l.map g := by
  apply List.ext_getElem
  · simp
  · intro i h1 h2; simp [hf]

theorem frame_label (eq0 : K) (desc : List (String × T × K)) : ((frame eq0 desc : List (Row K T C)).map (·.label)).Nodup := by
  have : (frame eq0 desc : List (Row K T C)).map (·.label) = List.range desc.length := by
    unfold frame
    apply List.ext_getElem
    · simp
    · intro i h1 h2; simp
  rw [this]; exact List.nodup_range

/-- C130, models estimated as one system: the table has the names of the frame, each with the results of the coefficient at the same
position; it is sorted by regime and keeps the order of the coefficients within a regime. -/
theorem C130_single (eq0 : K) (desc : List (String × T × K)) (cs : List C) (hl : desc.length = cs.length) :
    ∃ out, table (frame eq0 desc) (fun _ => cs) = .ok out ∧ out.Pairwise (fun a b => a.regime ≤ b.regime) ∧
      ∀ g, (out.filter fun r => r.regime = g).map (fun r => (r.name, r.cells)) =
        ((desc.zip cs).filter fun p => p.1.2.2 = g).map fun p => (p.1.1, some p.2) := by
  have heq : ∀ r ∈ (frame eq0 desc : List (Row K T C)), r.eq = eq0 := by
    intro r hr
    unfold frame at hr
    obtain ⟨i, hi, rfl⟩ := List.mem_mapIdx.1 hr
    rfl
  have hall : (frame eq0 desc : List (Row K T C)).filter (fun r => decide (r.eq = eq0)) = frame eq0 desc := by
    rw [List.filter_eq_self]; intro r hr; simpa using heq r hr
  have hlen : (frame eq0 desc : List (Row K T C)).length = desc.length := by simp [frame]
  obtain ⟨out, h1, h2, h3, h4⟩ := C130_table (frame eq0 desc) (fun _ => cs) (frame_label eq0 desc) (by
    intro r hr
    rw [heq r hr, hall, hlen, hl])
  by_cases hd : desc = []
  · subst hd
    have : out = [] := List.length_eq_zero_iff.1 (by rw [h3]; rfl)
    subst this
    exact ⟨[], h1, .nil, fun g => rfl⟩
  · have hne : ∃ r ∈ (frame eq0 desc : List (Row K T C)), r.eq = eq0 := by
      obtain ⟨r, hr⟩ := List.exists_mem_of_ne_nil (frame eq0 desc : List (Row K T C)) (by
        intro e; apply hd; rw [← List.length_eq_zero_iff, ← hlen, e]; rfl)
      exact ⟨r, hr, heq r hr⟩
    have hout : ∀ r ∈ out, r.eq = eq0 := by
      have hsum : (out.filter fun r => decide (r.eq = eq0)).length = out.length := by
        have e1 : table (frame eq0 desc) (fun _ => cs) = .ok out := h1
        unfold table at e1
        have h0 := foldlM_ok (frame eq0 desc) (fun _ => cs) (frame_label eq0 desc) (eqs ((frame eq0 desc : List (Row K T C)).map (·.eq))) []
          (by
            intro m hm
            rw [mem_eqs] at hm
            obtain ⟨r, hr, rfl⟩ := List.mem_map.1 hm
            rw [heq r hr]
            unfold rowsOf
            rw [hall, hlen, hl])
        rw [show filled (frame eq0 desc) (fun _ => cs) [] = frame eq0 desc by unfold filled; simp] at h0
        rw [h0] at e1
        have e2 : out = (filled (frame eq0 desc) (fun _ => cs) ([] ++ eqs ((frame eq0 desc : List (Row K T C)).map (·.eq)))).mergeSort le := by
          cases e1; rfl
        rw [List.length_filter_eq_length_iff]
        intro r hr
        rw [e2, List.mem_mergeSort] at hr
        unfold filled at hr
        obtain ⟨r', hr', rfl⟩ := List.mem_map.1 hr
        have := heq r' hr'
        split_ifs <;> simpa using this
      intro r hr
      have := (List.length_filter_eq_length_iff.1 hsum) r hr
      simpa using this
    refine ⟨out, h1, ?_, fun g => ?_⟩
    · refine List.Pairwise.imp_of_mem ?_ h2
      intro a b ha hb h
      rcases h with h | h
      · rw [hout a ha, hout b hb] at h; exact absurd h (lt_irrefl _)
      · exact h.2
    · have := h4 eq0 g hne
      rw [hall] at this
      have e1 : out.filter (fun r => decide (r.eq = eq0 ∧ r.regime = g)) = out.filter fun r => decide (r.regime = g) := by
        refine List.filter_congr fun r hr => ?_
        simp [hout r hr]
      rw [← e1, this]
      unfold frame
      clear this e1 h1 h2 h3 h4 hout hne hd hall heq hlen
      have e2 : ∀ (desc : List (String × T × K)) (cs : List C) (n : ℕ),
          (((desc.mapIdx fun i d => ({ label := n + i, name := d.1, vtype := d.2.1, regime := d.2.2, eq := eq0, cells := none } : Row K T C)).zip
            cs).filter fun p => decide (p.1.regime = g)).map (fun p => (p.1.name, some p.2)) =
          ((desc.zip cs).filter fun p => decide (p.1.2.2 = g)).map fun p => (p.1.1, some p.2) := by
        intro desc
        induction desc with
        | nil => intros; rfl
        | cons d desc ih =>
          intro cs n
          cases cs with
          | nil => simp
          | cons c cs =>
            rw [List.mapIdx_cons, List.zip_cons_cons, List.zip_cons_cons, List.filter_cons, List.filter_cons]
            have := ih cs (n + 1)
            simp only [show ∀ i, n + 1 + i = n + (i + 1) from fun i => by omega] at this
            by_cases hg : d.2.2 = g
            · simp only [hg, decide_true, if_true, List.map_cons]
              rw [this]
            · simp only [hg, decide_false, Bool.false_eq_true, if_false]
              exact this
      have := e2 desc cs 0
      simpa using this

/-! #### Models with one equation per regime -/

theorem frameMulti_label (desc : List (K × List (String × T))) : ((frameMulti desc : List (Row K T C)).map (·.label)).Nodup := by
  have : (frameMulti desc : List (Row K T C)).map (·.label) = List.range (desc.flatMap fun p => p.2.map fun d => (p.1, d)).length := by
    unfold frameMulti
    apply List.ext_getElem
    · simp
    · intro i h1 h2; simp
  rw [this]; exact List.nodup_range

theorem frameMulti_eq (desc : List (K × List (String × T))) : ∀ r ∈ (frameMulti desc : List (Row K T C)), r.eq = r.regime := by
  intro r hr
  unfold frameMulti at hr
  obtain ⟨i, hi, rfl⟩ := List.mem_mapIdx.1 hr
  rfl

theorem filter_mapIdx_names {α : Type} (f : ℕ → α → Row K T C) (g : α → K) (nm : α → String) (hf : ∀ i a, (f i a).eq = g a)
    (hn : ∀ i a, (f i a).name = nm a) (m : K) : ∀ (l : List α),
    ((l.mapIdx f).filter fun r => r.eq = m).map (·.name) = (l.filter fun a => g a = m).map nm := by
  intro l
  induction l generalizing f with
  | nil => rfl
  | cons a l ih =>
    rw [List.mapIdx_cons, List.filter_cons, List.filter_cons, hf]
    have := ih (fun i => f (i + 1)) (fun i a => hf _ _) (fun i a => hn _ _)
    by_cases h : g a = m
    · simp only [h, decide_true, if_true, List.map_cons, hn]
      rw [this]
    · simp only [h, decide_false, Bool.false_eq_true, if_false]
      exact this

theorem frameMulti_names (desc : List (K × List (String × T))) (hnd : (desc.map (·.1)).Nodup) (r : K) (ds : List (String × T))
    (h : (r, ds) ∈ desc) :
    ((frameMulti desc : List (Row K T C)).filter fun a => a.eq = r).map (·.name) = ds.map (·.1) := by
  unfold frameMulti
  rw [filter_mapIdx_names _ (fun d => d.1) (fun d => d.2.1) (fun _ _ => rfl) (fun _ _ => rfl)]
  induction desc with
  | nil => cases h
  | cons p desc ih =>
    rw [List.map_cons, List.nodup_cons] at hnd
    rw [List.flatMap_cons, List.filter_append, List.map_append]
    rcases List.mem_cons.1 h with he | he
    · subst he
      have e1 : (ds.map fun d => (r, d)).filter (fun d => decide (d.1 = r)) = ds.map fun d => (r, d) := by
        rw [List.filter_eq_self]; intro a ha
        obtain ⟨d, -, rfl⟩ := List.mem_map.1 ha
        simp
      have e2 : (desc.flatMap fun p => p.2.map fun d => (p.1, d)).filter (fun d => decide (d.1 = r)) = [] := by
        rw [List.filter_eq_nil_iff]
        intro a ha
        obtain ⟨q, hq, ha⟩ := List.mem_flatMap.1 ha
        obtain ⟨d, -, rfl⟩ := List.mem_map.1 ha
        simp only [decide_eq_true_eq]
        rintro rfl
        exact hnd.1 (List.mem_map.2 ⟨q, hq, rfl⟩)
      rw [e1, e2, List.map_map, List.map_nil, List.append_nil]
      rfl
    · have hne : p.1 ≠ r := by
        rintro rfl
        exact hnd.1 (List.mem_map.2 ⟨_, he, rfl⟩)
      have e1 : (p.2.map fun d => (p.1, d)).filter (fun d => decide (d.1 = r)) = [] := by
        rw [List.filter_eq_nil_iff]
        intro a ha
        obtain ⟨d, -, rfl⟩ := List.mem_map.1 ha
        simpa using hne
      rw [e1, List.map_nil, List.nil_append]
      exact ih hnd.2 he

theorem zip_filter_names (l : List (Row K T C)) (cs : List C) (g : K) (h : ∀ r ∈ l, r.regime = g) :
    ((l.zip cs).filter fun p => p.1.regime = g).map (fun p => (p.1.name, some p.2)) = (l.map (·.name)).zip (cs.map some) := by
  rw [List.filter_eq_self.2]
  · rw [List.zip_map]; rfl
  · rintro ⟨a, b⟩ hp
    simpa using h a (List.of_mem_zip hp).1

/-- The pairing, for rows in any order whose regimes are their equations. -/
theorem multi_pairs (desc : List (K × List (String × T))) (hnd : (desc.map (·.1)).Nodup) (coefs : K → List C)
    (hl : ∀ p ∈ desc, p.2.length = (coefs p.1).length) (rows : List (Row K T C)) (hp : rows.Perm (frameMulti desc)) :
    ∃ out, table rows coefs = .ok out ∧ ∀ p ∈ desc, p.2 ≠ [] → (out.filter fun a => a.eq = p.1 ∧ a.regime = p.1).map (fun a => (a.name, a.cells)) =
      ((rows.filter fun a => a.eq = p.1).map (·.name)).zip ((coefs p.1).map some) := by
  have hreg : ∀ r ∈ rows, r.eq = r.regime := fun r hr => frameMulti_eq desc r (hp.mem_iff.1 hr)
  have hcount : ∀ p ∈ desc, (rows.filter fun a => decide (a.eq = p.1)).length = p.2.length := by
    intro p hp'
    rw [(hp.filter _).length_eq]
    have := congrArg List.length (frameMulti_names (C := C) desc hnd p.1 p.2 hp')
    simpa using this
  have hmem : ∀ r ∈ rows, ∃ p ∈ desc, r.eq = p.1 := by
    intro r hr
    have := hp.mem_iff.1 hr
    unfold frameMulti at this
    obtain ⟨i, hi, rfl⟩ := List.mem_mapIdx.1 this
    have h1 := List.getElem_mem hi
    obtain ⟨q, hq, h2⟩ := List.mem_flatMap.1 h1
    obtain ⟨d, -, h3⟩ := List.mem_map.1 h2
    exact ⟨q, hq, by rw [← h3]⟩
  obtain ⟨out, h1, -, -, h4⟩ := C130_table rows coefs (((hp.map _).nodup_iff).2 (frameMulti_label desc)) (by
    intro r hr
    obtain ⟨p, hp', he⟩ := hmem r hr
    rw [he, hcount p hp', hl p hp'])
  refine ⟨out, h1, fun p hp' hne => ?_⟩
  rw [h4 p.1 p.1, zip_filter_names]
  · intro r hr
    obtain ⟨h5, h6⟩ := List.mem_filter.1 hr
    rw [← hreg r h5]; simpa using h6
  · have hpos : 0 < (rows.filter fun a => decide (a.eq = p.1)).length := by
      rw [hcount p hp']; exact List.length_pos_iff.2 hne
    obtain ⟨r, hr⟩ := List.exists_mem_of_length_pos hpos
    exact ⟨r, (List.mem_filter.1 hr).1, by simpa using (List.mem_filter.1 hr).2⟩

/-- C130, models with one equation per regime: the rows of a regime are its variables, in order, each with the results of its own
coefficient. -/
theorem C130_multi (desc : List (K × List (String × T))) (hnd : (desc.map (·.1)).Nodup) (coefs : K → List C)
    (hl : ∀ p ∈ desc, p.2.length = (coefs p.1).length) :
    ∃ out, table (frameMulti desc) coefs = .ok out ∧ ∀ p ∈ desc, p.2 ≠ [] →
      (out.filter fun a => a.eq = p.1 ∧ a.regime = p.1).map (fun a => (a.name, a.cells)) = (p.2.map (·.1)).zip ((coefs p.1).map some) := by
  obtain ⟨out, h1, h2⟩ := multi_pairs desc hnd coefs hl _ (List.Perm.refl _)
  refine ⟨out, h1, fun p hp hne => ?_⟩
  rw [h2 p hp hne, frameMulti_names desc hnd p.1 p.2 hp]

/-- C130, partial, `TSLS_Regimes` with `regime_err_sep=True`: if the sort by regime that precedes `output` happens to keep the order
of the rows of each regime, the pairing is right. Missing: nothing makes it do so, see `C130_tsls_violated`. -/
theorem C130_tsls_partial (desc : List (K × List (String × T))) (hnd : (desc.map (·.1)).Nodup) (coefs : K → List C)
    (hl : ∀ p ∈ desc, p.2.length = (coefs p.1).length) (rows : List (Row K T C)) (hs : SortedBy (frameMulti desc) rows)
    (hstable : ∀ r, (rows.filter fun a => a.eq = r) = (frameMulti desc).filter fun a => a.eq = r) :
    ∃ out, table rows coefs = .ok out ∧ ∀ p ∈ desc, p.2 ≠ [] →
      (out.filter fun a => a.eq = p.1 ∧ a.regime = p.1).map (fun a => (a.name, a.cells)) = (p.2.map (·.1)).zip ((coefs p.1).map some) := by
  obtain ⟨out, h1, h2⟩ := multi_pairs desc hnd coefs hl rows hs.1
  refine ⟨out, h1, fun p hp hne => ?_⟩
  rw [h2 p hp hne, hstable, frameMulti_names desc hnd p.1 p.2 hp]

/-- Sorting the reversed rows stably by regime. -/
theorem reverse_sorted (rows : List (Row K T C)) (hreg : ∀ r ∈ rows, r.eq = r.regime) : ∃ rows', SortedBy rows rows' ∧
    ∀ g, (rows'.filter fun a => decide (a.eq = g)) = (rows.filter fun a => decide (a.eq = g)).reverse := by
  refine ⟨rows.reverse.mergeSort le, ⟨(List.mergeSort_perm _ _).trans (List.reverse_perm _), ?_⟩, fun g => ?_⟩
  · refine List.Pairwise.imp_of_mem ?_ (List.pairwise_mergeSort le_trans' le_total' rows.reverse)
    intro a b ha hb h
    rw [List.mem_mergeSort, List.mem_reverse] at ha hb
    unfold le at h
    simp only [decide_eq_true_eq] at h
    rw [← hreg a ha, ← hreg b hb] at *
    rcases h with h | h
    · exact h.le
    · exact h.1.le
  · rw [← List.filter_reverse]
    have h := sort_filter rows.reverse g g
    have e : ∀ l : List (Row K T C), (∀ r ∈ l, r.eq = r.regime) →
        (l.filter fun r => decide (r.eq = g ∧ r.regime = g)) = l.filter fun r => decide (r.eq = g) := by
      intro l hl
      refine List.filter_congr fun r hr => ?_
      rw [hl r hr]; simp
    rwa [e, e] at h
    · intro r hr; exact hreg r (List.mem_reverse.1 hr)
    · intro r hr; rw [List.mem_mergeSort] at hr; exact hreg r (List.mem_reverse.1 hr)

/-- C130 fails for `TSLS_Regimes` with `regime_err_sep=True`: the sort by regime (twosls_regimes.py:628) is not stable, and an order
that it may produce pairs, in every regime, the names in reverse order with the coefficients. -/
theorem C130_tsls_violated (desc : List (K × List (String × T))) (hnd : (desc.map (·.1)).Nodup) (coefs : K → List C)
    (hl : ∀ p ∈ desc, p.2.length = (coefs p.1).length) :
    ∃ rows out, SortedBy (frameMulti desc) rows ∧ table rows coefs = .ok out ∧ ∀ p ∈ desc, p.2 ≠ [] →
      (out.filter fun a => a.eq = p.1 ∧ a.regime = p.1).map (fun a => (a.name, a.cells)) =
        (p.2.map (·.1)).reverse.zip ((coefs p.1).map some) := by
  obtain ⟨rows, hs, hf⟩ := reverse_sorted (frameMulti desc : List (Row K T C)) (frameMulti_eq desc)
  obtain ⟨out, h1, h2⟩ := multi_pairs desc hnd coefs hl rows hs.1
  refine ⟨rows, out, hs, h1, fun p hp hne => ?_⟩
  rw [h2 p hp hne, hf, List.map_reverse, frameMulti_names desc hnd p.1 p.2 hp]

/-- The hypotheses are met: two regimes, a constant and a variable each; the wrong table of `C130_tsls_violated` names the
coefficient of the constant `x`. -/
example : ∃ rows out, SortedBy (frameMulti [("a", [("CONSTANT", ()), ("x", ())]), ("b", [("CONSTANT", ()), ("x", ())])]) rows ∧
    table rows (fun _ => [(1 : ℕ), 2]) = .ok out ∧
    (out.filter fun a => a.eq = "a" ∧ a.regime = "a").map (fun a => (a.name, a.cells)) = [("x", some 1), ("CONSTANT", some 2)] := by
  obtain ⟨rows, out, h1, h2, h3⟩ := C130_tsls_violated (T := Unit) [("a", [("CONSTANT", ()), ("x", ())]), ("b", [("CONSTANT", ()), ("x", ())])]
    (by decide) (fun _ => [(1 : ℕ), 2]) (by decide)
  exact ⟨rows, out, h1, h2, by simpa using h3 ("a", [("CONSTANT", ()), ("x", ())]) (by simp) (by simp)⟩

example : ∃ out, table (frame "" [("r1_x", (), "r1"), ("r2_x", (), "r2"), ("_Global_z", (), "_Global")]) (fun _ => [(7 : ℕ), 8, 9]) = .ok out ∧
    (out.filter fun a => a.regime = "r2").map (fun a => (a.name, a.cells)) = [("r2_x", some 8)] := by
  obtain ⟨out, h1, -, h3⟩ := C130_single (T := Unit) "" [("r1_x", (), "r1"), ("r2_x", (), "r2"), ("_Global_z", (), "_Global")] [(7 : ℕ), 8, 9] rfl
  exact ⟨out, h1, by rw [h3]; decide⟩

end Spreg.Output
