import Verif.Model.WRegimes
import Verif.Props.GMRegimes
import Mathlib.Data.List.Perm.Basic
import Mathlib.Tactic
/-
Properties of the trimming of spatial weights by regimes (C146).
-/
namespace Spreg.WReg
open Spreg

variable {ι ρ : Type} [DecidableEq ι] [DecidableEq ρ]

/-! ### Specification -/

/-- A well-formed weights object: ids are unique, neighbours are listed once and are ids. -/
structure WF (w : W ι) : Prop where
  ids : w.ids.Nodup
  nb : ∀ i ∈ w.ids, (w.nb i).Nodup
  mem : ∀ i ∈ w.ids, ∀ j ∈ w.nb i, j ∈ w.ids

/-- The observation with id `i` is in regime `r`. -/
def InReg (w : W ι) (regimes : List ρ) (r : ρ) (i : ι) : Prop := ∃ a : ℕ, w.ids[a]? = some i ∧ regimes[a]? = some r

/-- Two observations are in the same regime. -/
def Same (w : W ι) (regimes : List ρ) (i j : ι) : Prop := ∃ r, InReg w regimes r i ∧ InReg w regimes r j

open Classical in
/-- The given weights without the links between regimes, transformed like the given weights. -/
noncomputable def trimmed (w : W ι) (regimes : List ρ) : W ι :=
  { w with nb := fun i => (w.nb i).filter fun j => decide (Same w regimes i j) }

/-! ### Lemmas -/

omit [DecidableEq ι] [DecidableEq ρ] in
theorem mem_trimmed (w : W ι) (regimes : List ρ) (i j : ι) :
    j ∈ (trimmed w regimes).nb i ↔ j ∈ w.nb i ∧ Same w regimes i j := by
  classical
  rw [trimmed, List.mem_filter, decide_eq_true_iff]

omit [DecidableEq ι] [DecidableEq ρ] in
theorem nodup_trimmed (w : W ι) (hw : WF w) (regimes : List ρ) (i : ι) (hi : i ∈ w.ids) :
    ((trimmed w regimes).nb i).Nodup := by
  classical
  rw [trimmed]
  exact (hw.nb i hi).filter _

/-- Ids of the observations of a regime. -/
def idsOf (w : W ι) (regimes : List ρ) (r : ρ) : List ι := (whereEq r regimes).filterMap fun a => w.ids[a]?

omit [DecidableEq ι] in
theorem idsAt_eq (w : W ι) : ∀ l : List ℕ, (∀ a ∈ l, a < w.ids.length) →
    idsAt w l = .ok (l.filterMap fun a => w.ids[a]?)
  | [], _ => rfl
  | a :: t, h => by
    have ha : w.ids[a]? = some (w.ids[a]'(h a (by simp))) := List.getElem?_eq_getElem _
    rw [idsAt, ha, idsAt_eq w t fun b hb => h b (by simp [hb]), List.filterMap_cons, ha]
    rfl

theorem mem_whereEq (r : ρ) (regimes : List ρ) (a : ℕ) : a ∈ whereEq r regimes ↔ regimes[a]? = some r := by
  rw [whereEq, List.mem_filter, List.mem_range, decide_eq_true_iff]
  constructor
  · exact fun h => h.2
  · intro h
    exact ⟨(List.getElem?_eq_some_iff.1 h).1, h⟩

omit [DecidableEq ι] in
theorem idsAt_where (w : W ι) (regimes : List ρ) (hl : regimes.length = w.ids.length) (r : ρ) :
    idsAt w (whereEq r regimes) = .ok (idsOf w regimes r) :=
  idsAt_eq w _ fun a ha => hl ▸ (List.getElem?_eq_some_iff.1 ((mem_whereEq r regimes a).1 ha)).1

omit [DecidableEq ι] in
theorem mem_idsOf (w : W ι) (regimes : List ρ) (r : ρ) (i : ι) : i ∈ idsOf w regimes r ↔ InReg w regimes r i := by
  rw [idsOf, List.mem_filterMap]
  constructor
  · rintro ⟨a, ha, h⟩
    exact ⟨a, h, (mem_whereEq r regimes a).1 ha⟩
  · rintro ⟨a, h, ha⟩
    exact ⟨a, (mem_whereEq r regimes a).2 ha, h⟩

omit [DecidableEq ι] in
theorem length_idsOf (w : W ι) (regimes : List ρ) (hl : regimes.length = w.ids.length) (r : ρ) :
    (idsOf w regimes r).length = regimes.count r := by
  have h1 : (idsOf w regimes r).length = (whereEq r regimes).length := by
    rw [idsOf]
    have : ∀ l : List ℕ, (∀ a ∈ l, a < w.ids.length) → (l.filterMap fun a => w.ids[a]?).length = l.length := by
      intro l
      induction l with
      | nil => intro _; rfl
      | cons a t ih =>
        intro h
        have ha : w.ids[a]? = some (w.ids[a]'(h a (by simp))) := List.getElem?_eq_getElem _
        rw [List.filterMap_cons, ha]
        simp only [List.length_cons]
        rw [ih fun b hb => h b (by simp [hb])]
    exact this _ fun a ha => hl ▸ (List.getElem?_eq_some_iff.1 ((mem_whereEq r regimes a).1 ha)).1
  rw [h1, whereEq, ← List.countP_eq_length_filter]
  clear h1 hl
  induction regimes with
  | nil => rfl
  | cons s t ih =>
    rw [List.length_cons, List.range_succ_eq_map, List.countP_cons, List.countP_map, List.count_cons]
    have : List.countP ((fun a => decide ((s :: t)[a]? = some r)) ∘ Nat.succ) (List.range t.length) =
        List.countP (fun a => decide (t[a]? = some r)) (List.range t.length) := by
      congr 1
    rw [this, ih]
    simp

omit [DecidableEq ι] [DecidableEq ρ] in
theorem inReg_unique (w : W ι) (h : w.ids.Nodup) (regimes : List ρ) {r s : ρ} {i : ι} (h1 : InReg w regimes r i)
    (h2 : InReg w regimes s i) : r = s := by
  obtain ⟨a, ha, har⟩ := h1
  obtain ⟨b, hb, hbs⟩ := h2
  obtain ⟨la, ea⟩ := List.getElem?_eq_some_iff.1 ha
  obtain ⟨lb, eb⟩ := List.getElem?_eq_some_iff.1 hb
  have : a = b := (h.getElem_inj_iff (hi := la) (hj := lb)).1 (ea.trans eb.symm)
  subst this
  exact Option.some.inj (har.symm.trans hbs)

/-- Weights of a regime. -/
def wOf (w : W ι) (regimes : List ρ) (transform : Bool) (r : ρ) : W ι :=
  { wSubset w (idsOf w regimes r) with tr := if transform then w.tr else .O }

theorem wRegime_eq (w : W ι) (regimes : List ρ) (hl : regimes.length = w.ids.length) (r : ρ) (transform : Bool)
    (minN : Option ℕ) : wRegime w (whereEq r regimes) transform minN =
      if ∃ m, minN = some m ∧ regimes.count r < m then .error .exception
      else .ok (wOf w regimes transform r, (wOf w regimes transform r).hasIslands) := by
  have hn : (wSubset w (idsOf w regimes r)).ids.length = regimes.count r := length_idsOf w regimes hl r
  have hc : checkMin (wSubset w (idsOf w regimes r)) minN =
      if ∃ m, minN = some m ∧ regimes.count r < m then .error .exception else .ok () := by
    cases minN with
    | none =>
      refine Eq.trans ?_ (if_neg ?_).symm
      · rfl
      · rintro ⟨m, h, _⟩
        cases h
    | some m =>
      rw [checkMin.eq_def]
      dsimp only
      rw [hn]
      by_cases hm : regimes.count r < m
      · rw [if_pos ⟨by omega, hm⟩, if_pos ⟨m, rfl, hm⟩]
      · rw [if_neg (fun h => hm h.2), if_neg (by rintro ⟨m', h, h'⟩; cases h; exact hm h')]
  rw [wRegime, idsAt_where w regimes hl r]
  show (checkMin (wSubset w (idsOf w regimes r)) minN >>= fun _ => _) = _
  rw [hc]
  by_cases h : ∃ m, minN = some m ∧ regimes.count r < m
  · rw [if_pos h]
    exact (if_pos h).symm
  · rw [if_neg h]
    refine Eq.trans ?_ (if_neg h).symm
    cases transform <;> rfl

/-- The warning of `w_regimes`: the last regime with islands. -/
def lastIsland (w : W ι) (regimes : List ρ) (rs : List ρ) (init : Option ρ) : Option ρ :=
  rs.foldl (fun acc r => if (wOf w regimes true r).hasIslands then some r else acc) init

theorem islands_tr (w : W ι) (regimes : List ρ) (t : Bool) (r : ρ) :
    (wOf w regimes t r).hasIslands = (wOf w regimes true r).hasIslands := rfl

theorem wRegimesLoop_eq (w : W ι) (regimes : List ρ) (hl : regimes.length = w.ids.length) (transform : Bool)
    (minN : Option ℕ) : ∀ (rs : List ρ) (acc : List (ρ × W ι)) (warn : Option ρ),
    wRegimesLoop w regimes transform minN rs acc warn =
      if ∃ r ∈ rs, ∃ m, minN = some m ∧ regimes.count r < m then .error .exception
      else .ok (acc ++ rs.map fun r => (r, wOf w regimes transform r), lastIsland w regimes rs warn)
  | [], acc, warn => by simp [wRegimesLoop, lastIsland]
  | r :: t, acc, warn => by
    rw [wRegimesLoop, wRegime_eq w regimes hl]
    by_cases hr : ∃ m, minN = some m ∧ regimes.count r < m
    · rw [if_pos hr, if_pos ⟨r, by simp, hr⟩]
      rfl
    · rw [if_neg hr]
      show wRegimesLoop _ _ _ _ _ _ _ = _
      rw [wRegimesLoop_eq w regimes hl transform minN t]
      by_cases ht : ∃ s ∈ t, ∃ m, minN = some m ∧ regimes.count s < m
      · rw [if_pos ht, if_pos]
        obtain ⟨s, hs, h⟩ := ht
        exact ⟨s, by simp [hs], h⟩
      · have hrt : ¬ ∃ s ∈ r :: t, ∃ m, minN = some m ∧ regimes.count s < m := by
          rintro ⟨s, hs, h⟩
          rcases List.mem_cons.1 hs with rfl | hs
          · exact hr h
          · exact ht ⟨s, hs, h⟩
        rw [if_neg ht, if_neg hrt, List.append_assoc]
        rfl

theorem wRegimes_eq (w : W ι) (regimes : List ρ) (hl : regimes.length = w.ids.length) (rs : List ρ) (transform : Bool)
    (minN : Option ℕ) : wRegimes w regimes rs transform minN =
      if ∃ r ∈ rs, ∃ m, minN = some m ∧ regimes.count r < m then .error .exception
      else .ok (rs.map fun r => (r, wOf w regimes transform r), lastIsland w regimes rs none) := by
  have hm : rs.mapM (fun r => idsAt w (whereEq r regimes)) = .ok (rs.map (idsOf w regimes)) := by
    have : (fun r => idsAt w (whereEq r regimes)) = fun r => (pure (idsOf w regimes r) : Py (List ι)) := by
      funext r
      exact idsAt_where w regimes hl r
    rw [this, List.mapM_pure]
    rfl
  rw [wRegimes, hm]
  dsimp only
  rw [wRegimesLoop_eq w regimes hl]
  rfl

omit [DecidableEq ι] in
theorem getW_map (f : ρ → W ι) : ∀ (rs : List ρ) (r : ρ), r ∈ rs → getW (rs.map fun r => (r, f r)) r = .ok (f r)
  | s :: t, r, h => by
    rw [getW, List.map_cons, List.lookup_cons]
    by_cases e : r = s
    · subst e
      simp
    · have : (r == s) = false := by simpa using e
      rw [this]
      have := getW_map f t r ((List.mem_cons.1 h).resolve_left e)
      rw [getW] at this
      exact this

/-- What the union of the weights of the regimes in `S` is. -/
structure IsUnion (w : W ι) (regimes S : List ρ) (u : W ι) : Prop where
  ids : ∀ i, i ∈ u.ids ↔ ∃ r ∈ S, InReg w regimes r i
  nb : ∀ i ∈ u.ids, ∀ j, j ∈ u.nb i ↔ j ∈ w.nb i ∧ ∃ r ∈ S, InReg w regimes r i ∧ InReg w regimes r j
  nodup : ∀ i ∈ u.ids, (u.nb i).Nodup
  wt : u.wt = fun _ _ => 1

omit [DecidableEq ι] [DecidableEq ρ] in
theorem InReg.mem {w : W ι} {regimes : List ρ} {r : ρ} {i : ι} (h : InReg w regimes r i) : i ∈ w.ids := by
  obtain ⟨a, ha, _⟩ := h
  exact List.mem_of_getElem? ha

theorem isUnion_wOf (w : W ι) (hw : WF w) (regimes : List ρ) (t : Bool) (r : ρ) :
    IsUnion w regimes [r] (wOf w regimes t r) where
  ids i := by
    show i ∈ idsOf w regimes r ↔ _
    rw [mem_idsOf]
    simp
  nb i hi j := by
    have hi : i ∈ idsOf w regimes r := hi
    show j ∈ (if i ∈ idsOf w regimes r then (w.nb i).filter (· ∈ idsOf w regimes r) else []) ↔ _
    rw [if_pos hi, List.mem_filter, decide_eq_true_iff, mem_idsOf]
    rw [mem_idsOf] at hi
    simp [hi]
  nodup i hi := by
    have hi : i ∈ idsOf w regimes r := hi
    show (if i ∈ idsOf w regimes r then (w.nb i).filter (· ∈ idsOf w regimes r) else []).Nodup
    rw [if_pos hi]
    exact (hw.nb i ((mem_idsOf w regimes r i).1 hi).mem).filter _
  wt := rfl

omit [DecidableEq ρ] in
theorem isUnion_union (w : W ι) (regimes S T : List ρ) (a b : W ι) (ha : IsUnion w regimes S a)
    (hb : IsUnion w regimes T b) : IsUnion w regimes (S ++ T) (wUnion a b) where
  ids i := by
    show i ∈ a.ids ++ b.ids.filter (· ∉ a.ids) ↔ _
    rw [List.mem_append, List.mem_filter, decide_eq_true_iff]
    have h : (i ∈ a.ids ∨ i ∈ b.ids ∧ i ∉ a.ids) ↔ (i ∈ a.ids ∨ i ∈ b.ids) := by tauto
    rw [h, ha.ids, hb.ids]
    constructor
    · rintro (⟨r, hr, h⟩ | ⟨r, hr, h⟩)
      · exact ⟨r, by simp [hr], h⟩
      · exact ⟨r, by simp [hr], h⟩
    · rintro ⟨r, hr, h⟩
      rcases List.mem_append.1 hr with hr | hr
      · exact .inl ⟨r, hr, h⟩
      · exact .inr ⟨r, hr, h⟩
  nb i hi j := by
    have hi' : i ∈ a.ids ++ b.ids.filter (· ∉ a.ids) := hi
    rw [List.mem_append, List.mem_filter, decide_eq_true_iff] at hi'
    show j ∈ (if i ∈ a.ids then if i ∈ b.ids then a.nb i ++ (b.nb i).filter (· ∉ a.nb i) else a.nb i
      else if i ∈ b.ids then b.nb i else []) ↔ _
    have hS : i ∉ a.ids → ¬ ∃ r ∈ S, InReg w regimes r i ∧ InReg w regimes r j := by
      rintro h ⟨r, hr, h1, _⟩
      exact h ((ha.ids i).2 ⟨r, hr, h1⟩)
    have hT : i ∉ b.ids → ¬ ∃ r ∈ T, InReg w regimes r i ∧ InReg w regimes r j := by
      rintro h ⟨r, hr, h1, _⟩
      exact h ((hb.ids i).2 ⟨r, hr, h1⟩)
    have hor : (∃ r ∈ S ++ T, InReg w regimes r i ∧ InReg w regimes r j) ↔
        (∃ r ∈ S, InReg w regimes r i ∧ InReg w regimes r j) ∨ ∃ r ∈ T, InReg w regimes r i ∧ InReg w regimes r j := by
      constructor
      · rintro ⟨r, hr, h⟩
        rcases List.mem_append.1 hr with hr | hr
        · exact .inl ⟨r, hr, h⟩
        · exact .inr ⟨r, hr, h⟩
      · rintro (⟨r, hr, h⟩ | ⟨r, hr, h⟩)
        · exact ⟨r, by simp [hr], h⟩
        · exact ⟨r, by simp [hr], h⟩
    have na := fun h => ha.nb i h j
    have nb2 := fun h => hb.nb i h j
    rw [hor]
    clear hor ha hb hi hi'
    generalize (∃ r ∈ S, InReg w regimes r i ∧ InReg w regimes r j) = P at *
    generalize (∃ r ∈ T, InReg w regimes r i ∧ InReg w regimes r j) = Q at *
    by_cases h1 : i ∈ a.ids
    · rw [if_pos h1]
      by_cases h2 : i ∈ b.ids
      · rw [if_pos h2, List.mem_append, List.mem_filter, decide_eq_true_iff, na h1, nb2 h2]
        tauto
      · rw [if_neg h2, na h1]
        have := hT h2
        tauto
    · rw [if_neg h1]
      by_cases h2 : i ∈ b.ids
      · rw [if_pos h2, nb2 h2]
        have := hS h1
        tauto
      · have h3 := hS h1
        have h4 := hT h2
        rw [if_neg h2]
        simp [h3, h4]
  nodup i hi := by
    have hi' : i ∈ a.ids ++ b.ids.filter (· ∉ a.ids) := hi
    show (if i ∈ a.ids then if i ∈ b.ids then a.nb i ++ (b.nb i).filter (· ∉ a.nb i) else a.nb i
      else if i ∈ b.ids then b.nb i else []).Nodup
    by_cases h1 : i ∈ a.ids
    · rw [if_pos h1]
      by_cases h2 : i ∈ b.ids
      · rw [if_pos h2]
        refine List.Nodup.append (ha.nodup i h1) ((hb.nodup i h2).filter _) ?_
        intro j hj hj'
        rw [List.mem_filter, decide_eq_true_iff] at hj'
        exact hj'.2 hj
      · rw [if_neg h2]
        exact ha.nodup i h1
    · rw [if_neg h1]
      by_cases h2 : i ∈ b.ids
      · rw [if_pos h2]
        exact hb.nodup i h2
      · rw [if_neg h2]
        exact List.nodup_nil
  wt := rfl

theorem unionLoop_ok (w : W ι) (hw : WF w) (regimes rs : List ρ) (t : Bool) : ∀ (l S : List ρ) (acc : W ι),
    (∀ r ∈ l, r ∈ rs) → IsUnion w regimes S acc →
    ∃ u, unionLoop (rs.map fun r => (r, wOf w regimes t r)) l acc = .ok u ∧ IsUnion w regimes (S ++ l) u
  | [], S, acc, _, h => ⟨acc, rfl, by rwa [List.append_nil]⟩
  | r :: l, S, acc, hl, h => by
    rw [unionLoop, getW_map (wOf w regimes t) rs r (hl r (by simp))]
    show ∃ u, unionLoop _ l _ = _ ∧ _
    obtain ⟨u, hu, hS⟩ := unionLoop_ok w hw regimes rs t l (S ++ [r]) _ (fun s hs => hl s (by simp [hs]))
      (isUnion_union w regimes S [r] acc _ h (isUnion_wOf w hw regimes t r))
    exact ⟨u, hu, by rwa [List.append_assoc] at hS⟩

/-! ### The weights in use -/

/-- Weights in use depend on the neighbours (in any order) and the weights of neighbours. -/
theorem eff_congr (a b : W ι) (hi : a.ids = b.ids) (hn : ∀ i ∈ a.ids, (a.nb i).Perm (b.nb i))
    (hwt : ∀ i ∈ a.ids, ∀ j ∈ a.nb i, a.wt i j = b.wt i j) (ht : a.tr = b.tr) (i : ι) (hii : i ∈ a.ids) (j : ι) :
    a.eff i j = b.eff i j := by
  have hsum : ∀ f g : ι → ι → ℝ, ∀ i ∈ a.ids, (∀ j ∈ a.nb i, f i j = g i j) →
      ((a.nb i).map (f i)).sum = ((b.nb i).map (g i)).sum := by
    intro f g i h hfg
    rw [((hn i h).map (g i)).sum_eq.symm, List.map_congr_left hfg]
  have horig : a.orig i j = b.orig i j := by
    rw [W.orig, W.orig]
    by_cases h : j ∈ a.nb i
    · rw [if_pos h, if_pos ((hn i hii).mem_iff.1 h), hwt i hii j h]
    · rw [if_neg h, if_neg fun h' => h ((hn i hii).mem_iff.2 h')]
  have hnorm : ∀ i ∈ a.ids, a.rowNorm i = b.rowNorm i := by
    intro i h
    rw [W.rowNorm, W.rowNorm, hsum (fun i j => a.wt i j ^ 2) (fun i j => b.wt i j ^ 2) i h
      fun j hj => by rw [hwt i h j hj]]
  have htot : ∀ f g : ι → ι → ℝ, (∀ i ∈ a.ids, ∀ j ∈ a.nb i, f i j = g i j) → a.total f = b.total g := by
    intro f g h
    rw [W.total, W.total, ← hi]
    congr 1
    exact List.map_congr_left fun i h' => hsum f g i h' (h i h')
  rw [W.eff, W.eff, ← ht]
  cases a.tr with
  | O => exact horig
  | B => simp only [(hn i hii).mem_iff]
  | R => simp only [horig, hsum a.wt b.wt i hii (hwt i hii)]
  | D => simp only [horig, htot a.wt b.wt hwt]
  | V =>
    simp only [horig, hnorm i hii, hi]
    rw [htot (fun i j => a.wt i j / a.rowNorm i) (fun i j => b.wt i j / b.rowNorm i)
      fun i h j hj => by rw [hwt i h j hj, hnorm i h]]

/-- For transformations row by row, one row is enough. -/
theorem eff_congr_row (a b : W ι) (i : ι) (hn : (a.nb i).Perm (b.nb i)) (hwt : ∀ j ∈ a.nb i, a.wt i j = b.wt i j)
    (ht : a.tr = b.tr) (hr : a.tr = .O ∨ a.tr = .B ∨ a.tr = .R) (j : ι) : a.eff i j = b.eff i j := by
  have horig : a.orig i j = b.orig i j := by
    rw [W.orig, W.orig]
    by_cases h : j ∈ a.nb i
    · rw [if_pos h, if_pos (hn.mem_iff.1 h), hwt j h]
    · rw [if_neg h, if_neg fun h' => h (hn.mem_iff.2 h')]
  rw [W.eff, W.eff, ← ht]
  rcases hr with h | h | h <;> rw [h]
  · exact horig
  · simp only [hn.mem_iff]
  · simp only [horig]
    rw [(hn.map (b.wt i)).sum_eq.symm, List.map_congr_left hwt]

/-- With weights 1, exactly the neighbours have weights in use. -/
theorem eff_pos (a : W ι) (hw : a.wt = fun _ _ => 1) (i : ι) (hi : i ∈ a.ids) (j : ι) :
    (j ∈ a.nb i → 0 < a.eff i j) ∧ (j ∉ a.nb i → a.eff i j = 0) := by
  have horig : a.orig i j = if j ∈ a.nb i then 1 else 0 := by rw [W.orig, hw]
  have hlen : ∀ i, ((a.nb i).map (a.wt i)).sum = (a.nb i).length := by
    intro i
    rw [hw]
    simp
  constructor
  · intro h
    have h0 : (0 : ℝ) < (a.nb i).length := by
      exact_mod_cast List.length_pos_of_mem h
    have hnorm : ∀ i, a.rowNorm i = Real.sqrt (a.nb i).length := by
      intro i
      rw [W.rowNorm, hw]
      simp
    have htot : ∀ f : ι → ι → ℝ, (∀ i j, 0 ≤ f i j) → 0 < f i j → 0 < a.total f := by
      intro f hf hp
      rw [W.total]
      refine lt_of_lt_of_le ?_ (List.single_le_sum (l := a.ids.map fun i => ((a.nb i).map (f i)).sum) ?_ _
        (List.mem_map_of_mem hi))
      · refine lt_of_lt_of_le hp (List.single_le_sum ?_ _ (List.mem_map_of_mem h))
        intro x hx
        obtain ⟨b, _, rfl⟩ := List.mem_map.1 hx
        exact hf i b
      · intro x hx
        obtain ⟨b, _, rfl⟩ := List.mem_map.1 hx
        refine List.sum_nonneg ?_
        intro x hx
        obtain ⟨c, _, rfl⟩ := List.mem_map.1 hx
        exact hf b c
    rw [W.eff]
    cases a.tr with
    | O => simp only [horig, if_pos h]; norm_num
    | B => simp only [if_pos h]; norm_num
    | R =>
      simp only [horig, if_pos h, hlen]
      positivity
    | D =>
      simp only [horig, if_pos h]
      have := htot a.wt (by intro i j; rw [hw]; norm_num) (by rw [hw]; norm_num)
      positivity
    | V =>
      simp only [horig, if_pos h]
      have hs : 0 < a.rowNorm i := by rw [hnorm]; exact Real.sqrt_pos.2 h0
      have := htot (fun a' b => a.wt a' b / a.rowNorm a')
        (by intro i j; rw [hnorm, hw]; positivity) (by rw [hw]; positivity)
      have hl : (0 : ℝ) < a.ids.length := by exact_mod_cast List.length_pos_of_mem hi
      positivity
  · intro h
    rw [W.eff]
    cases a.tr <;> simp [horig, h]

/-! ### C146 -/

omit [DecidableEq ι] [DecidableEq ρ] in
theorem inReg_exists (w : W ι) (regimes : List ρ) (hl : regimes.length = w.ids.length) (i : ι) (hi : i ∈ w.ids) :
    ∃ r ∈ regimes, InReg w regimes r i := by
  obtain ⟨a, ha, rfl⟩ := List.getElem_of_mem hi
  exact ⟨regimes[a]'(hl ▸ ha), List.getElem_mem _, a, List.getElem?_eq_getElem ha, List.getElem?_eq_getElem _⟩

/-- **C146, union.** With two or more regimes (the list `rs` contains every label) `w_regimes_union` succeeds on the weights by regime, keeps
the order of the observations and the transformation, and the neighbours of an observation are its old neighbours in the
same regime; exactly these have a positive weight, whatever the transformation. -/
theorem C146_links (w : W ι) (hw : WF w) (regimes rs : List ρ) (hl : regimes.length = w.ids.length)
    (hrs : ∀ r ∈ regimes, r ∈ rs) (h2 : 2 ≤ rs.length) (t : Bool) (minN : Option ℕ) (wi : List (ρ × W ι))
    (warn : Option ρ) (hwi : wRegimes w regimes rs t minN = .ok (wi, warn)) :
    ∃ u, wRegimesUnion w wi rs = .ok u ∧ u.ids = w.ids ∧ u.tr = w.tr ∧ WF u ∧ u.wt = (fun _ _ => 1) ∧
      ∀ i ∈ w.ids, ∀ j,
        (j ∈ u.nb i ↔ j ∈ w.nb i ∧ Same w regimes i j) ∧
        (j ∈ w.nb i ∧ Same w regimes i j → 0 < u.eff i j) ∧
        (¬ (j ∈ w.nb i ∧ Same w regimes i j) → u.eff i j = 0) := by
  rw [wRegimes_eq w regimes hl] at hwi
  by_cases hmin : ∃ r ∈ rs, ∃ m, minN = some m ∧ regimes.count r < m
  · rw [if_pos hmin] at hwi
    cases hwi
  rw [if_neg hmin] at hwi
  obtain ⟨rfl, -⟩ := Prod.mk.inj (Except.ok.inj hwi)
  match rs, h2 with
  | r0 :: r1 :: l, _ =>
    obtain ⟨u, hu, hU⟩ := unionLoop_ok w hw regimes (r0 :: r1 :: l) t l ([r0] ++ [r1]) _ (fun s hs => by simp [hs])
      (isUnion_union w regimes [r0] [r1] _ _ (isUnion_wOf w hw regimes t r0) (isUnion_wOf w hw regimes t r1))
    have hall : ∀ r ∈ regimes, r ∈ [r0] ++ [r1] ++ l := by
      intro r hr
      have := hrs r hr
      simpa using this
    have hid : ∀ i ∈ w.ids, i ∈ u.ids := by
      intro i hi
      obtain ⟨r, hr, h⟩ := inReg_exists w regimes hl i hi
      exact (hU.ids i).2 ⟨r, hall r hr, h⟩
    have hnb : ∀ i ∈ w.ids, ∀ j, j ∈ u.nb i ↔ j ∈ w.nb i ∧ Same w regimes i j := by
      intro i hi j
      rw [hU.nb i (hid i hi) j]
      constructor
      · rintro ⟨h, r, -, h'⟩
        exact ⟨h, r, h'⟩
      · rintro ⟨h, r, h'⟩
        refine ⟨h, r, hall r ?_, h'⟩
        obtain ⟨a, _, ha⟩ := h'.1
        exact List.mem_of_getElem? ha
    refine ⟨{ remapIds u w.ids with tr := w.tr }, ?_, rfl, rfl, ⟨hw.ids, fun i hi => hU.nodup i (hid i hi), ?_⟩, hU.wt,
      fun i hi j => ⟨hnb i hi j, ?_, ?_⟩⟩
    · rw [wRegimesUnion, getW_map (wOf w regimes t) (r0 :: r1 :: l) r0 (by simp),
        getW_map (wOf w regimes t) (r0 :: r1 :: l) r1 (by simp)]
      show (unionLoop _ l _ >>= _) = _
      rw [hu]
      rfl
    · intro i hi j hj
      exact hw.mem i hi j ((hnb i hi j).1 hj).1
    · intro h
      exact (eff_pos { remapIds u w.ids with tr := w.tr } hU.wt i hi j).1 ((hnb i hi j).2 h)
    · intro h
      exact (eff_pos { remapIds u w.ids with tr := w.tr } hU.wt i hi j).2 fun h' => h ((hnb i hi j).1 h')

/-- `w_regimes_union` needs two regimes. -/
theorem C146_one_regime (w : W ι) (wi : List (ρ × W ι)) (rs : List ρ) (h : rs.length < 2) :
    wRegimesUnion w wi rs = .error .indexError := by
  match rs, h with
  | [], _ => rfl
  | [_], _ => rfl

/-- The weights of one regime. -/
structure OfRegime (w : W ι) (regimes : List ρ) (t : Bool) (r : ρ) (wr : W ι) : Prop where
  /-- the observations of the regime -/
  ids : ∀ i, i ∈ wr.ids ↔ InReg w regimes r i
  size : wr.ids.length = regimes.count r
  tr : wr.tr = if t then w.tr else .O
  /-- neighbours are the old neighbours in the regime -/
  nb : ∀ i, InReg w regimes r i → ∀ j, j ∈ wr.nb i ↔ j ∈ w.nb i ∧ InReg w regimes r j
  nodup : ∀ i, InReg w regimes r i → (wr.nb i).Nodup
  /-- exactly these have positive weight -/
  pos : ∀ i, InReg w regimes r i → ∀ j, j ∈ wr.nb i → 0 < wr.eff i j
  zero : ∀ i, InReg w regimes r i → ∀ j, j ∉ wr.nb i → wr.eff i j = 0
  wt : wr.wt = fun _ _ => 1

theorem ofRegime_wOf (w : W ι) (hw : WF w) (regimes : List ρ) (hl : regimes.length = w.ids.length) (t : Bool) (r : ρ) :
    OfRegime w regimes t r (wOf w regimes t r) := by
  have h := isUnion_wOf w hw regimes t r
  have hid : ∀ i, i ∈ (wOf w regimes t r).ids ↔ InReg w regimes r i := mem_idsOf w regimes r
  refine ⟨hid, length_idsOf w regimes hl r, rfl, ?_, fun i hi => h.nodup i ((hid i).2 hi),
    fun i hi j hj => (eff_pos _ rfl i ((hid i).2 hi) j).1 hj, fun i hi j hj => (eff_pos _ rfl i ((hid i).2 hi) j).2 hj, rfl⟩
  intro i hi j
  rw [h.nb i ((hid i).2 hi) j]
  simp [hi]

/-- **C146, one regime.** `w_regime` raises exactly when the regime is smaller than `min_n`; otherwise it returns the weights
of that regime, and it warns exactly when some observation has no neighbour within its regime. -/
theorem C146_regime (w : W ι) (hw : WF w) (regimes : List ρ) (hl : regimes.length = w.ids.length) (r : ρ) (t : Bool)
    (minN : Option ℕ) :
    ((∃ e, wRegime w (whereEq r regimes) t minN = .error e) ↔ ∃ m, minN = some m ∧ regimes.count r < m) ∧
    ∀ wr isl, wRegime w (whereEq r regimes) t minN = .ok (wr, isl) →
      OfRegime w regimes t r wr ∧
      (isl = true ↔ ∃ i, InReg w regimes r i ∧ ∀ j ∈ w.nb i, ¬ InReg w regimes r j) := by
  rw [wRegime_eq w regimes hl]
  constructor
  · by_cases h : ∃ m, minN = some m ∧ regimes.count r < m
    · rw [if_pos h]
      exact ⟨fun _ => h, fun _ => ⟨_, rfl⟩⟩
    · rw [if_neg h]
      exact ⟨fun ⟨e, he⟩ => (by cases he), fun h' => absurd h' h⟩
  · intro wr isl h
    by_cases hm : ∃ m, minN = some m ∧ regimes.count r < m
    · rw [if_pos hm] at h
      cases h
    rw [if_neg hm] at h
    obtain ⟨rfl, rfl⟩ := Prod.mk.inj (Except.ok.inj h)
    have ho := ofRegime_wOf w hw regimes hl t r
    refine ⟨ho, ?_⟩
    rw [W.hasIslands, List.any_eq_true]
    constructor
    · rintro ⟨i, hi, he⟩
      have hi := (ho.ids i).1 hi
      refine ⟨i, hi, fun j hj hr => ?_⟩
      have := (ho.nb i hi j).2 ⟨hj, hr⟩
      rw [List.isEmpty_iff.1 he] at this
      cases this
    · rintro ⟨i, hi, h⟩
      refine ⟨i, (ho.ids i).2 hi, List.isEmpty_iff.2 (List.eq_nil_iff_forall_not_mem.2 fun j hj => ?_)⟩
      exact h j ((ho.nb i hi j).1 hj).1 ((ho.nb i hi j).1 hj).2

theorem lastIsland_spec (w : W ι) (regimes : List ρ) : ∀ (rs : List ρ) (init : Option ρ),
    lastIsland w regimes rs init = (rs.reverse.find? fun r => (wOf w regimes true r).hasIslands).or init
  | [], init => by simp [lastIsland]
  | r :: t, init => by
    show lastIsland w regimes t _ = _
    rw [lastIsland_spec w regimes t, List.reverse_cons, List.find?_append, Option.or_assoc]
    congr 1
    by_cases h : (wOf w regimes true r).hasIslands = true
    · simp [h]
    · simp [h]

/-- **C146, all regimes.** `w_regimes` raises exactly when some regime is smaller than `min_n`; otherwise every regime has
its weights, and a warning appears exactly when some observation of some regime has lost all its neighbours. It names one
regime only. -/
theorem C146_regimes (w : W ι) (hw : WF w) (regimes rs : List ρ) (hl : regimes.length = w.ids.length) (t : Bool)
    (minN : Option ℕ) :
    ((∃ e, wRegimes w regimes rs t minN = .error e) ↔ ∃ r ∈ rs, ∃ m, minN = some m ∧ regimes.count r < m) ∧
    ∀ wi warn, wRegimes w regimes rs t minN = .ok (wi, warn) →
      wi.map Prod.fst = rs ∧ (∀ p ∈ wi, OfRegime w regimes t p.1 p.2) ∧
      (warn = none ↔ ∀ r ∈ rs, ∀ i, InReg w regimes r i → ∃ j ∈ w.nb i, InReg w regimes r j) ∧
      (∀ r, warn = some r → r ∈ rs ∧ ∃ i, InReg w regimes r i ∧ ∀ j ∈ w.nb i, ¬ InReg w regimes r j) := by
  have hisl : ∀ r, (wOf w regimes true r).hasIslands = true ↔
      ∃ i, InReg w regimes r i ∧ ∀ j ∈ w.nb i, ¬ InReg w regimes r j := by
    intro r
    refine ((C146_regime w hw regimes hl r true none).2 (wOf w regimes true r) _ ?_).2
    rw [wRegime_eq w regimes hl, if_neg (by rintro ⟨m, h, _⟩; cases h)]
  rw [wRegimes_eq w regimes hl]
  constructor
  · by_cases h : ∃ r ∈ rs, ∃ m, minN = some m ∧ regimes.count r < m
    · rw [if_pos h]
      exact ⟨fun _ => h, fun _ => ⟨_, rfl⟩⟩
    · rw [if_neg h]
      exact ⟨fun ⟨e, he⟩ => (by cases he), fun h' => absurd h' h⟩
  · intro wi warn h
    by_cases hm : ∃ r ∈ rs, ∃ m, minN = some m ∧ regimes.count r < m
    · rw [if_pos hm] at h
      cases h
    rw [if_neg hm] at h
    obtain ⟨rfl, rfl⟩ := Prod.mk.inj (Except.ok.inj h)
    rw [lastIsland_spec, Option.or_none]
    refine ⟨by simp [List.map_map, Function.comp_def], ?_, ?_, ?_⟩
    · intro p hp
      obtain ⟨r, _, rfl⟩ := List.mem_map.1 hp
      exact ofRegime_wOf w hw regimes hl t r
    · rw [List.find?_eq_none]
      constructor
      · intro h r hr i hi
        by_contra hc
        push Not at hc
        exact h r (List.mem_reverse.2 hr) ((hisl r).2 ⟨i, hi, hc⟩)
      · intro h r hr hi
        obtain ⟨i, hi, hc⟩ := (hisl r).1 hi
        obtain ⟨j, hj, hr'⟩ := h r (List.mem_reverse.1 hr) i hi
        exact hc j hj hr'
    · intro r hr
      have h1 := List.mem_of_find?_eq_some hr
      have h2 := List.find?_some hr
      exact ⟨List.mem_reverse.1 h1, (hisl r).1 h2⟩

/-- **C146, lags.** For original, binary and row-standardised weights, the union uses for each observation the weights of its
own regime, so that lags within a regime are the same for both. -/
theorem C146_lag (w : W ι) (hw : WF w) (regimes rs : List ρ) (hl : regimes.length = w.ids.length)
    (hrs : ∀ r ∈ regimes, r ∈ rs) (h2 : 2 ≤ rs.length) (ht : w.tr = .O ∨ w.tr = .B ∨ w.tr = .R) (minN : Option ℕ)
    (wi : List (ρ × W ι)) (warn : Option ρ) (hwi : wRegimes w regimes rs true minN = .ok (wi, warn)) (u : W ι)
    (hu : wRegimesUnion w wi rs = .ok u) (r : ρ) (wr : W ι) (hr : (r, wr) ∈ wi) (i : ι) (hi : InReg w regimes r i) :
    (∀ j, u.eff i j = wr.eff i j) ∧ (∀ j, ¬ InReg w regimes r j → u.eff i j = 0) ∧
    ∀ y : ι → ℝ, (w.ids.map fun j => u.eff i j * y j).sum = (wr.ids.map fun j => wr.eff i j * y j).sum := by
  obtain ⟨u', hu', hids, htr, hwf, hwt, hnb⟩ := C146_links w hw regimes rs hl hrs h2 true minN wi warn hwi
  obtain rfl := Except.ok.inj (hu.symm.trans hu')
  have ho := (((C146_regimes w hw regimes rs hl true minN).2 wi warn hwi).2.1) _ hr
  have ho : OfRegime w regimes true r wr := ho
  have hsame : ∀ j, Same w regimes i j ↔ InReg w regimes r j := by
    intro j
    constructor
    · rintro ⟨s, h1, h3⟩
      obtain rfl := inReg_unique w hw.ids regimes hi h1
      exact h3
    · exact fun h => ⟨r, hi, h⟩
  have hperm : (u.nb i).Perm (wr.nb i) := by
    rw [List.perm_ext_iff_of_nodup (hwf.nb i (hids ▸ hi.mem)) (ho.nodup i hi)]
    intro j
    rw [(hnb i hi.mem j).1, hsame, ho.nb i hi]
  have heff : ∀ j, u.eff i j = wr.eff i j := by
    intro j
    refine eff_congr_row u wr i hperm (fun j _ => by rw [hwt, ho.wt]) ?_ (by rw [htr]; exact ht) j
    rw [htr, ho.tr]
    rfl
  have hz : ∀ j, ¬ InReg w regimes r j → u.eff i j = 0 := by
    intro j hj
    exact (hnb i hi.mem j).2.2 fun h => hj ((hsame j).1 h.2)
  refine ⟨heff, hz, fun y => ?_⟩
  have hp : wr.ids.Perm (w.ids.filter fun j => decide (j ∈ wr.ids)) := by
    rw [List.perm_ext_iff_of_nodup _ (hw.ids.filter _)]
    · intro j
      rw [List.mem_filter, decide_eq_true_iff]
      exact ⟨fun h => ⟨((ho.ids j).1 h).mem, h⟩, fun h => h.2⟩
    · have hwr : wr = wOf w regimes true r := by
        rw [wRegimes_eq w regimes hl] at hwi
        by_cases hm : ∃ r ∈ rs, ∃ m, minN = some m ∧ regimes.count r < m
        · rw [if_pos hm] at hwi
          cases hwi
        rw [if_neg hm] at hwi
        obtain ⟨rfl, -⟩ := Prod.mk.inj (Except.ok.inj hwi)
        obtain ⟨s, _, e⟩ := List.mem_map.1 hr
        obtain ⟨rfl, rfl⟩ := Prod.mk.inj e
        rfl
      rw [hwr]
      show (idsOf w regimes r).Nodup
      refine List.Nodup.filterMap ?_ ?_
      · intro a b j ha hb
        have ha := Option.mem_def.1 ha
        have hb := Option.mem_def.1 hb
        obtain ⟨la, ea⟩ := List.getElem?_eq_some_iff.1 ha
        obtain ⟨lb, eb⟩ := List.getElem?_eq_some_iff.1 hb
        exact (hw.ids.getElem_inj_iff (hi := la) (hj := lb)).1 (ea.trans eb.symm)
      · exact List.nodup_range.filter _
  have hfil : ∀ l : List ι, (∀ j ∈ l, j ∉ wr.ids → u.eff i j = 0) → (l.map fun j => u.eff i j * y j).sum =
      ((l.filter fun j => decide (j ∈ wr.ids)).map fun j => u.eff i j * y j).sum := by
    intro l
    induction l with
    | nil => intro _; rfl
    | cons a l ih =>
      intro h
      rw [List.map_cons, List.sum_cons, ih fun j hj => h j (by simp [hj]), List.filter_cons]
      by_cases ha : a ∈ wr.ids
      · simp [ha]
      · simp [ha, h a (by simp) ha]
  rw [hfil w.ids fun j _ hj => hz j fun h => hj ((ho.ids j).2 h), (hp.map fun j => wr.eff i j * y j).sum_eq]
  congr 1
  exact List.map_congr_left fun j _ => by rw [heff]

/-- **C146, weights (partial).** The weights of the union are the given weights without the links between regimes if the
given weights are binary (all original weights within regimes are 1, or the transformation is `B`). -/
theorem C146_binary_partial (w : W ι) (hw : WF w) (regimes rs : List ρ) (hl : regimes.length = w.ids.length)
    (hrs : ∀ r ∈ regimes, r ∈ rs) (h2 : 2 ≤ rs.length) (t : Bool) (minN : Option ℕ) (wi : List (ρ × W ι))
    (warn : Option ρ) (hwi : wRegimes w regimes rs t minN = .ok (wi, warn)) (u : W ι)
    (hu : wRegimesUnion w wi rs = .ok u)
    (hb : w.tr = .B ∨ ∀ i ∈ w.ids, ∀ j ∈ w.nb i, Same w regimes i j → w.wt i j = 1) :
    ∀ i ∈ w.ids, ∀ j, u.eff i j = (trimmed w regimes).eff i j := by
  intro i hi j
  obtain ⟨u', hu', hids, htr, hwf, hwt, hnb⟩ := C146_links w hw regimes rs hl hrs h2 t minN wi warn hwi
  obtain rfl := Except.ok.inj (hu.symm.trans hu')
  have hmem : ∀ i ∈ w.ids, ∀ j, j ∈ u.nb i ↔ j ∈ (trimmed w regimes).nb i := by
    intro i hi j
    rw [(hnb i hi j).1, mem_trimmed]
  rcases hb with hb | hb
  · have e1 : u.eff i j = if j ∈ u.nb i then 1 else 0 := by rw [W.eff, htr, hb]
    have e2 : (trimmed w regimes).eff i j = if j ∈ (trimmed w regimes).nb i then 1 else 0 := by
      rw [W.eff, show (trimmed w regimes).tr = .B from hb]
    rw [e1, e2]
    simp only [hmem i hi j]
  · refine eff_congr u (trimmed w regimes) hids (fun i hi => ?_) (fun i hi j hj => ?_) htr i (hids ▸ hi) j
    · rw [List.perm_ext_iff_of_nodup (hwf.nb i hi) (nodup_trimmed w hw regimes i (hids ▸ hi))]
      exact hmem i (hids ▸ hi)
    · rw [hwt]
      have := ((hnb i (hids ▸ hi) j).1).1 hj
      exact (hb i (hids ▸ hi) j this.1 this.2).symm

/-- **C146, weights (violated), general form.** For row-standardised positive weights, each neighbour within the regime gets
the same weight; this is the given weight, standardised, exactly for rows that have equal weights already. -/
theorem C146_rows_violated (w : W ι) (hw : WF w) (regimes rs : List ρ) (hl : regimes.length = w.ids.length)
    (hrs : ∀ r ∈ regimes, r ∈ rs) (h2 : 2 ≤ rs.length) (t : Bool) (minN : Option ℕ) (wi : List (ρ × W ι))
    (warn : Option ρ) (hwi : wRegimes w regimes rs t minN = .ok (wi, warn)) (u : W ι)
    (hu : wRegimesUnion w wi rs = .ok u) (ht : w.tr = .R) (hpos : ∀ i ∈ w.ids, ∀ j ∈ w.nb i, 0 < w.wt i j)
    (i : ι) (hi : i ∈ w.ids) :
    (∀ j, u.eff i j = (trimmed w regimes).eff i j) ↔
      ∀ j ∈ w.nb i, Same w regimes i j → ∀ j' ∈ w.nb i, Same w regimes i j' → w.wt i j = w.wt i j' := by
  obtain ⟨u', hu', hids, htr, hwf, hwt, hnb⟩ := C146_links w hw regimes rs hl hrs h2 t minN wi warn hwi
  obtain rfl := Except.ok.inj (hu.symm.trans hu')
  set v := trimmed w regimes with hv
  have hmem : ∀ j, j ∈ v.nb i ↔ j ∈ w.nb i ∧ Same w regimes i j := by
    intro j
    exact mem_trimmed w regimes i j
  have hperm : (u.nb i).Perm (v.nb i) := by
    rw [List.perm_ext_iff_of_nodup (hwf.nb i (hids ▸ hi)) (nodup_trimmed w hw regimes i hi)]
    intro j
    rw [(hnb i hi j).1, hmem]
  have eu : ∀ j, u.eff i j = if j ∈ u.nb i then (1 : ℝ) / ((u.nb i).length : ℝ) else 0 := by
    intro j
    rw [W.eff, htr, ht, W.orig, hwt]
    by_cases h : j ∈ u.nb i <;> simp [h]
  have ev : ∀ j, v.eff i j = if j ∈ v.nb i then w.wt i j / ((v.nb i).map (w.wt i)).sum else 0 := by
    intro j
    rw [W.eff, show v.tr = .R from ht]
    show v.orig i j / ((v.nb i).map (w.wt i)).sum = _
    rw [W.orig]
    by_cases h : j ∈ v.nb i
    · rw [if_pos h, if_pos h]
      rfl
    · rw [if_neg h, if_neg h, zero_div]
  constructor
  · intro h j hj hs j' hj' hs'
    have h1 := h j
    have h3 := h j'
    have m1 := (hmem j).2 ⟨hj, hs⟩
    have m3 := (hmem j').2 ⟨hj', hs'⟩
    rw [eu, ev, if_pos (hperm.mem_iff.2 m1), if_pos m1] at h1
    rw [eu, ev, if_pos (hperm.mem_iff.2 m3), if_pos m3] at h3
    have hS : 0 < ((v.nb i).map (w.wt i)).sum := by
      refine lt_of_lt_of_le (hpos i hi j hj) (List.single_le_sum ?_ _ (List.mem_map_of_mem m1))
      intro x hx
      obtain ⟨b, hb, rfl⟩ := List.mem_map.1 hx
      exact (hpos i hi b ((hmem b).1 hb).1).le
    have := h1.symm.trans h3
    field_simp at this
    exact this
  · intro h j
    rw [eu, ev]
    by_cases hj : j ∈ v.nb i
    · rw [if_pos (hperm.mem_iff.2 hj), if_pos hj]
      have hsum : ((v.nb i).map (w.wt i)).sum = (v.nb i).length * w.wt i j := by
        have : (v.nb i).map (w.wt i) = (v.nb i).map fun _ => w.wt i j := by
          refine List.map_congr_left fun b hb => ?_
          exact h b ((hmem b).1 hb).1 ((hmem b).1 hb).2 j ((hmem j).1 hj).1 ((hmem j).1 hj).2
        rw [this]
        simp
      have h0 : 0 < w.wt i j := hpos i hi j ((hmem j).1 hj).1
      have hn : (0 : ℝ) < (v.nb i).length := by exact_mod_cast List.length_pos_of_mem hj
      rw [hsum, hperm.length_eq]
      field_simp
    · rw [if_neg fun h' => hj (hperm.mem_iff.1 h'), if_neg hj]

/-- The matrix of the weights in use. -/
noncomputable def W.full (w : W ι) {n : ℕ} (e : Fin n → ι) : Matrix (Fin n) (Fin n) ℝ := fun a b => w.eff (e a) (e b)

/-- **C146, no links.** The matrix of the union satisfies the hypothesis of `C144_error_partial` and the other theorems about
joint models: no weight links different regimes. -/
theorem C146_noLinks (w : W ι) (hw : WF w) (regimes rs : List ρ) (hl : regimes.length = w.ids.length)
    (hrs : ∀ r ∈ regimes, r ∈ rs) (h2 : 2 ≤ rs.length) (t : Bool) (minN : Option ℕ) (wi : List (ρ × W ι))
    (warn : Option ρ) (hwi : wRegimes w regimes rs t minN = .ok (wi, warn)) (u : W ι)
    (hu : wRegimesUnion w wi rs = .ok u) :
    GM.NoLinks (fun a : Fin w.ids.length => regimes[(a : ℕ)]'(hl.symm ▸ a.2)) (u.full fun a : Fin w.ids.length => w.ids[a]) := by
  intro a b hab
  obtain ⟨u', hu', hids, htr, hwf, hwt, hnb⟩ := C146_links w hw regimes rs hl hrs h2 t minN wi warn hwi
  obtain rfl := Except.ok.inj (hu.symm.trans hu')
  refine (hnb w.ids[a] (List.getElem_mem _) w.ids[b]).2.2 fun h => hab ?_
  obtain ⟨r, h1, h3⟩ := h.2
  have e1 := inReg_unique w hw.ids regimes (r := regimes[(a : ℕ)]'(hl.symm ▸ a.2))
    ⟨a, List.getElem?_eq_getElem _, List.getElem?_eq_getElem _⟩ h1
  have e3 := inReg_unique w hw.ids regimes (r := regimes[(b : ℕ)]'(hl.symm ▸ b.2))
    ⟨b, List.getElem?_eq_getElem _, List.getElem?_eq_getElem _⟩ h3
  exact e1.trans e3.symm

/-! ### A case -/

/-- Four observations at positions 0, 1, 3 and 4 on a line; row-standardised inverse distances. -/
noncomputable def w4 : W ℕ :=
  { ids := [0, 1, 2, 3]
    nb := fun i => [0, 1, 2, 3].filter fun j => decide (j ≠ i)
    wt := fun i j => if (i, j) = (0, 2) ∨ (i, j) = (2, 0) ∨ (i, j) = (1, 3) ∨ (i, j) = (3, 1) then 1 / 3
      else if (i, j) = (1, 2) ∨ (i, j) = (2, 1) then 1 / 2 else if (i, j) = (0, 3) ∨ (i, j) = (3, 0) then 1 / 4 else 1
    tr := .R }

theorem w4_wf : WF w4 := by
  refine ⟨by decide, fun i _ => List.Nodup.filter _ (by decide), fun i _ j hj => ?_⟩
  exact (List.mem_filter.1 hj).1

/-- **C146, weights (violated).** The first three observations are one regime. The first has its neighbours at distances 1
and 3: the weights should be 3/4 and 1/4, and the code uses 1/2 and 1/2. -/
theorem C146_violated : ∃ wi warn u, wRegimes w4 ["a", "a", "a", "b"] ["a", "b"] true none = .ok (wi, warn) ∧
    warn = some "b" ∧ wRegimesUnion w4 wi ["a", "b"] = .ok u ∧
    u.eff 0 1 = 1 / 2 ∧ u.eff 0 2 = 1 / 2 ∧
    (trimmed w4 ["a", "a", "a", "b"]).eff 0 1 = 3 / 4 ∧ (trimmed w4 ["a", "a", "a", "b"]).eff 0 2 = 1 / 4 := by
  have hl : (["a", "a", "a", "b"] : List String).length = w4.ids.length := rfl
  have hwi : ∃ wi warn, wRegimes w4 ["a", "a", "a", "b"] ["a", "b"] true none = .ok (wi, warn) := by
    rw [wRegimes_eq w4 _ hl, if_neg (by rintro ⟨r, _, m, h, _⟩; cases h)]
    exact ⟨_, _, rfl⟩
  obtain ⟨wi, warn, hwi⟩ := hwi
  obtain ⟨u, hu, hids, htr, hwf, hwt, hnb⟩ := C146_links w4 w4_wf _ _ hl (by decide) (by decide) true none wi warn hwi
  have h0 : (0 : ℕ) ∈ w4.ids := by decide
  have hsame : ∀ j, Same w4 ["a", "a", "a", "b"] 0 j ↔ j = 0 ∨ j = 1 ∨ j = 2 := by
    have hin : ∀ (r : String) j, InReg w4 ["a", "a", "a", "b"] r j ↔
        (r = "a" ∧ (j = 0 ∨ j = 1 ∨ j = 2)) ∨ (r = "b" ∧ j = 3) := by
      intro r j
      constructor
      · rintro ⟨a, ha, hr⟩
        have hlt : a < 4 := (List.getElem?_eq_some_iff.1 ha).1
        interval_cases a
        all_goals
          simp only [w4, List.getElem?_cons_zero, List.getElem?_cons_succ, Option.some.injEq] at ha hr
          subst ha hr
          simp
      · rintro (⟨rfl, rfl | rfl | rfl⟩ | ⟨rfl, rfl⟩)
        · exact ⟨0, rfl, rfl⟩
        · exact ⟨1, rfl, rfl⟩
        · exact ⟨2, rfl, rfl⟩
        · exact ⟨3, rfl, rfl⟩
    intro j
    constructor
    · rintro ⟨r, h1, h2⟩
      rw [hin] at h1 h2
      rcases h1 with ⟨rfl, _⟩ | ⟨_, h⟩
      · rcases h2 with ⟨_, h⟩ | ⟨h, _⟩
        · exact h
        · exact absurd h (by decide)
      · cases h
    · intro h
      exact ⟨"a", (hin _ _).2 (.inl ⟨rfl, .inl rfl⟩), (hin _ _).2 (.inl ⟨rfl, h⟩)⟩
  have hmem : ∀ j, j ∈ w4.nb 0 ∧ Same w4 ["a", "a", "a", "b"] 0 j ↔ j ∈ [1, 2] := by
    intro j
    rw [hsame]
    simp only [w4, List.mem_filter, List.mem_cons, List.not_mem_nil, decide_eq_true_iff, or_false]
    omega
  have pu : (u.nb 0).Perm [1, 2] := by
    rw [List.perm_ext_iff_of_nodup (hwf.nb 0 (hids ▸ h0)) (by decide)]
    intro j
    rw [(hnb 0 h0 j).1, hmem]
  have pt : ((trimmed w4 ["a", "a", "a", "b"]).nb 0).Perm [1, 2] := by
    rw [List.perm_ext_iff_of_nodup (nodup_trimmed w4 w4_wf _ 0 h0) (by decide)]
    intro j
    rw [mem_trimmed, hmem]
  have eu : ∀ j ∈ [1, 2], u.eff 0 j = 1 / 2 := by
    intro j hj
    rw [W.eff, htr, show w4.tr = .R from rfl, W.orig, hwt]
    simp only [pu.mem_iff, if_pos hj, List.map_const', List.sum_replicate, pu.length_eq]
    norm_num
  have et : ∀ j ∈ [1, 2], (trimmed w4 ["a", "a", "a", "b"]).eff 0 j = w4.wt 0 j / (4 / 3) := by
    intro j hj
    rw [W.eff, show (trimmed w4 ["a", "a", "a", "b"]).tr = .R from rfl, W.orig]
    simp only [pt.mem_iff, if_pos hj]
    show w4.wt 0 j / (((trimmed w4 ["a", "a", "a", "b"]).nb 0).map (w4.wt 0)).sum = _
    rw [(pt.map (w4.wt 0)).sum_eq]
    simp [w4]
    norm_num
  refine ⟨wi, warn, u, hwi, ?_, hu, eu 1 (by decide), eu 2 (by decide), ?_, ?_⟩
  · rw [wRegimes_eq w4 _ hl, if_neg (by rintro ⟨r, _, m, h, _⟩; cases h)] at hwi
    obtain ⟨-, rfl⟩ := Prod.mk.inj (Except.ok.inj hwi)
    decide
  · rw [et 1 (by decide)]
    simp [w4]
  · rw [et 2 (by decide)]
    simp [w4]
    norm_num

end Spreg.WReg
