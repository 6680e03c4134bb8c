import Verif.Props.Spsearch
/-
C45: the general-to-specific searches.
-/
namespace Spreg.Search

theorem foldl_max_some (l : List ℝ) (a : ℝ) :
    ∃ M, (l.map some).foldl (fun m b => match m, b with | some x, some y => some (max x y) | _, _ => none)
      (some a) = some M ∧ M ∈ a :: l ∧ ∀ x ∈ a :: l, x ≤ M := by
  induction l generalizing a with
  | nil => exact ⟨a, rfl, by simp, by simp⟩
  | cons b l ih =>
    obtain ⟨M, h1, h2, h3⟩ := ih (max a b)
    refine ⟨M, h1, ?_, ?_⟩
    · rcases List.mem_cons.1 h2 with rfl | h2
      · rcases max_choice a b with h | h <;> rw [h] <;> simp
      · simp [h2]
    · intro x hx
      have hm := h3 (max a b) (by simp)
      rcases List.mem_cons.1 hx with rfl | hx
      · exact (le_max_left _ _).trans hm
      · rcases List.mem_cons.1 hx with rfl | hx
        · exact (le_max_right _ _).trans hm
        · exact h3 x (by simp [hx])

theorem foldl_min_some (l : List ℝ) (a : ℝ) :
    ∃ M, (l.map some).foldl (fun m b => match m, b with | some x, some y => some (min x y) | _, _ => none)
      (some a) = some M ∧ M ∈ a :: l ∧ ∀ x ∈ a :: l, M ≤ x := by
  induction l generalizing a with
  | nil => exact ⟨a, rfl, by simp, by simp⟩
  | cons b l ih =>
    obtain ⟨M, h1, h2, h3⟩ := ih (min a b)
    refine ⟨M, h1, ?_, ?_⟩
    · rcases List.mem_cons.1 h2 with rfl | h2
      · rcases min_choice a b with h | h <;> rw [h] <;> simp
      · simp [h2]
    · intro x hx
      have hm := h3 (min a b) (by simp)
      rcases List.mem_cons.1 hx with rfl | hx
      · exact hm.trans (min_le_left _ _)
      · rcases List.mem_cons.1 hx with rfl | hx
        · exact hm.trans (min_le_right _ _)
        · exact h3 x (by simp [hx])

theorem npMax_some {L : List ℝ} (hL : L ≠ []) :
    ∃ M, npMax (L.map some) = .ok (some M) ∧ M ∈ L ∧ ∀ x ∈ L, x ≤ M := by
  cases L with
  | nil => exact absurd rfl hL
  | cons a l =>
    obtain ⟨M, h1, h2, h3⟩ := foldl_max_some l a
    exact ⟨M, congrArg Except.ok h1, h2, h3⟩

theorem npMin_some {L : List ℝ} (hL : L ≠ []) :
    ∃ M, npMin (L.map some) = .ok (some M) ∧ M ∈ L ∧ ∀ x ∈ L, M ≤ x := by
  cases L with
  | nil => exact absurd rfl hL
  | cons a l =>
    obtain ⟨M, h1, h2, h3⟩ := foldl_min_some l a
    exact ⟨M, congrArg Except.ok h1, h2, h3⟩

/-- `argmax` of numbers: the first position of the largest. -/
theorem argmaxGo_spec (done : List ℝ) (best : ℕ) (m : ℝ) (l : List ℝ)
    (hb : done[best]? = some m) (hle : ∀ x ∈ done, x ≤ m)
    (hlt : ∀ j x, j < best → done[j]? = some x → x < m) :
    ∃ M, (done ++ l)[argmaxGo done.length best (some m) (l.map some)]? = some M ∧
      (∀ x ∈ done ++ l, x ≤ M) ∧
      ∀ j x, j < argmaxGo done.length best (some m) (l.map some) → (done ++ l)[j]? = some x → x < M := by
  induction l generalizing done best m with
  | nil => exact ⟨m, by simpa [argmaxGo] using hb, by simpa using hle, by simpa [argmaxGo] using hlt⟩
  | cons y l ih =>
    have hlen : best < done.length := by
      by_contra h
      rw [List.getElem?_eq_none (by omega)] at hb
      cases hb
    have e : done ++ y :: l = (done ++ [y]) ++ l := by simp
    have hlen' : done.length + 1 = (done ++ [y]).length := by simp
    rw [List.map_cons, argmaxGo]
    split_ifs with h
    · rw [e, hlen']
      apply ih
      · simp
      · intro x hx
        rcases List.mem_append.1 hx with hx | hx
        · exact (hle x hx).trans h.le
        · simp at hx; exact hx.le
      · intro j x hj hx
        rw [List.getElem?_append_left hj] at hx
        exact (hle x (List.mem_of_getElem? hx)).trans_lt h
    · rw [e, hlen']
      apply ih
      · rw [List.getElem?_append_left hlen]; exact hb
      · intro x hx
        rcases List.mem_append.1 hx with hx | hx
        · exact hle x hx
        · simp at hx; rw [hx]; exact not_lt.1 h
      · intro j x hj hx
        rw [List.getElem?_append_left (by omega)] at hx
        exact hlt j x hj hx

theorem argmax_spec {L : List ℝ} (hL : L ≠ []) :
    ∃ c M, argmax (L.map some) = .ok c ∧ L[c]? = some M ∧ (∀ x ∈ L, x ≤ M) ∧
      ∀ j x, j < c → L[j]? = some x → x < M := by
  cases L with
  | nil => exact absurd rfl hL
  | cons a l =>
    obtain ⟨M, h1, h2, h3⟩ := argmaxGo_spec [a] 0 a l rfl (by simp) (by simp)
    exact ⟨_, M, rfl, h1, h2, h3⟩

/-- All of the p-values are significant. -/
def AllSig (L : List ℝ) (p : ℝ) : Prop := ∀ x ∈ L, x < p
/-- None of the p-values is significant. -/
def NoneSig (L : List ℝ) (p : ℝ) : Prop := ∀ x ∈ L, p ≤ x

/-- The three-way split on the largest and smallest p-value. -/
theorem three {α : Type} {L : List ℝ} (hL : L ≠ []) (p : ℝ) (A B : Py α) (C : ℕ → Py α) :
    ∃ c, argmax (L.map some) = .ok c ∧
    (do let mx ← npMax (L.map some)
        let mn ← npMin (L.map some)
        if lt mx p = true then A else if ge mn p = true then B else do
          let c ← argmax (L.map some); C c) =
      open Classical in (if AllSig L p then A else if NoneSig L p then B else C c) := by
  obtain ⟨M, h1, h2, h3⟩ := npMax_some hL
  obtain ⟨m, k1, k2, k3⟩ := npMin_some hL
  obtain ⟨c, _, hc, _⟩ := argmax_spec hL
  refine ⟨c, hc, ?_⟩
  have e1 : lt (some M) p = true ↔ AllSig L p := by
    rw [lt_some, decide_eq_true_eq]
    exact ⟨fun h x hx => (h3 x hx).trans_lt h, fun h => h M h2⟩
  have e2 : ge (some m) p = true ↔ NoneSig L p := by
    rw [ge_some, decide_eq_true_eq]
    exact ⟨fun h x hx => h.trans (k3 x hx), fun h => h m k2⟩
  simp only [h1, k1, hc, bind, Except.bind]
  by_cases a1 : AllSig L p
  · rw [if_pos a1, if_pos (e1.2 a1)]
  · rw [if_neg a1, if_neg (mt e1.1 a1)]
    by_cases a2 : NoneSig L p
    · rw [if_pos a2, if_pos (e2.2 a2)]
    · rw [if_neg a2, if_neg (mt e2.1 a2)]

/-- Position of the largest of `gs ++ [r]`. -/
theorem arg_last {gs : List ℝ} {r : ℝ} {c : ℕ} (hc : argmax ((gs ++ [r]).map some) = .ok c) :
    (c = (gs ++ [r]).length - 1 ↔ ∀ g ∈ gs, g < r) := by
  obtain ⟨c', M, h1, h2, h3, h4⟩ := argmax_spec (L := gs ++ [r]) (by simp)
  rw [hc] at h1
  obtain rfl := Except.ok.inj h1
  have hlen : (gs ++ [r]).length - 1 = gs.length := by simp
  rw [hlen]
  constructor
  · rintro rfl g hg
    have hM : r = M := by simpa using h2
    obtain ⟨j, hj, he⟩ := List.getElem_of_mem hg
    rw [hM]
    exact h4 j g hj (by rw [List.getElem?_append_left hj, ← he, List.getElem?_eq_getElem hj])
  · intro h
    by_contra hne
    have hlt : c < (gs ++ [r]).length := by
      by_contra h'
      rw [List.getElem?_eq_none (by omega)] at h2
      cases h2
    have hlt2 : c < gs.length := by simp at hlt; omega
    rw [List.getElem?_append_left hlt2] at h2
    have := h M (List.mem_of_getElem? h2)
    have := h3 r (by simp)
    linarith

/-- Position of the largest of `gs ++ [r, l]`. -/
theorem arg_last2 {gs : List ℝ} {r l : ℝ} {c : ℕ} (hc : argmax ((gs ++ [r, l]).map some) = .ok c) :
    (c = (gs ++ [r, l]).length - 1 ↔ r < l ∧ ∀ g ∈ gs, g < l) ∧
    (c + 2 = (gs ++ [r, l]).length ↔ l ≤ r ∧ ∀ g ∈ gs, g < r) := by
  obtain ⟨c', M, h1, h2, h3, h4⟩ := argmax_spec (L := gs ++ [r, l]) (by simp)
  rw [hc] at h1
  obtain rfl := Except.ok.inj h1
  have hlt : c < (gs ++ [r, l]).length := by
    by_contra h'
    rw [List.getElem?_eq_none (by omega)] at h2
    cases h2
  have hlen : (gs ++ [r, l]).length = gs.length + 2 := by simp
  rw [hlen] at hlt ⊢
  constructor
  · constructor
    · intro hce
      have hce : c = gs.length + 1 := by omega
      subst hce
      have hM : l = M := by
        rw [List.getElem?_append_right (by omega)] at h2
        simpa using h2
      refine ⟨?_, ?_⟩
      · rw [hM]; exact h4 gs.length r (by omega) (by simp)
      · intro g hg
        obtain ⟨j, hj, he⟩ := List.getElem_of_mem hg
        rw [hM]
        exact h4 j g (by omega) (by rw [List.getElem?_append_left hj, ← he, List.getElem?_eq_getElem hj])
    · rintro ⟨ha, hb⟩
      have hl := h3 l (by simp)
      rcases Nat.lt_trichotomy c gs.length with h | h | h
      · rw [List.getElem?_append_left h] at h2
        have := hb M (List.mem_of_getElem? h2)
        linarith
      · subst h
        have : r = M := by simpa using h2
        linarith
      · omega
  · constructor
    · intro hce
      have hce : c = gs.length := by omega
      subst hce
      have hM : r = M := by simpa using h2
      refine ⟨by rw [hM]; exact h3 l (by simp), ?_⟩
      intro g hg
      obtain ⟨j, hj, he⟩ := List.getElem_of_mem hg
      rw [hM]
      exact h4 j g hj (by rw [List.getElem?_append_left hj, ← he, List.getElem?_eq_getElem hj])
    · rintro ⟨ha, hb⟩
      have hr := h3 r (by simp)
      rcases Nat.lt_trichotomy c gs.length with h | h | h
      · rw [List.getElem?_append_left h] at h2
        have := hb M (List.mem_of_getElem? h2)
        linarith
      · omega
      · have hc' : c = gs.length + 1 := by omega
        subst hc'
        exfalso
        have hM : l = M := by
          rw [List.getElem?_append_right (by omega)] at h2
          simpa using h2
        have := h4 gs.length r (by omega) (by simp)
        linarith

/-! ### gets_gns -/

section
variable {E : World} {p : ℝ}

theorem gns_ols (h : ∀ fm, gnsSel E p fm = .ok (.go "OLS" none)) : Reports E (getsGns E p) (.ols 0) :=
  rep_kept (l := "OLS") rfl (by unfold getsGns; rw [h]; rfl) (by unfold getsGns; rw [h]; rfl) rfl
theorem gns_slx (h : ∀ fm, gnsSel E p fm = .ok (.go "SLX" none)) : Reports E (getsGns E p) (.ols 1) :=
  rep_kept (l := "SLX") rfl (by unfold getsGns; rw [h]; rfl) (by unfold getsGns; rw [h]; rfl) rfl
theorem gns_err (h : ∀ fm, gnsSel E p fm = .ok (.go "ERROR" none)) : Reports E (getsGns E p) (.err 0) :=
  rep_lag (l := "ERROR") (note := "GMM Error parameters outside bounds") rfl
    (by unfold getsGns; rw [h]; rfl) (by unfold getsGns; rw [h]; rfl)
theorem gns_lag (h : ∀ fm, gnsSel E p fm = .ok (.go "LAG" none)) : Reports E (getsGns E p) (.lag 0) :=
  rep_lag (l := "LAG") (note := "GM LAG parameters outside bounds") rfl
    (by unfold getsGns; rw [h]; rfl) (by unfold getsGns; rw [h]; rfl)
theorem gns_kept {l : String} {f : Fit} (hl : l = "GNS" ∨ l = "SDM" ∨ l = "SLX-ERR" ∨ l = "SARSAR")
    (hd : denotes l = some f) (hok : E.ok f = true)
    (h : ∀ fm, gnsSel E p fm = .ok (.go l (keep fm f))) : Reports E (getsGns E p) f := by
  rcases hl with rfl | rfl | rfl | rfl <;>
  exact rep_kept hd (by unfold getsGns; rw [h]; rfl) (by unfold getsGns; rw [h]; rfl) hok
theorem gns_stop {note : String} (h : ∀ fm, gnsSel E p fm = .ok (.stop ("Exception: " ++ note))) :
    Stops (getsGns E p) :=
  ⟨note, fun fm => by unfold getsGns; rw [h]; rfl⟩

end

open Classical in
/-- `gnsSel` on numbers: first stage. -/
theorem gnsSel_eq (E : World) (p : ℝ) (gs : List ℝ) (r l : ℝ)
    (h : E.sarsar 1 = some ((gs ++ [r, l]).map some)) (fm : Bool) :
    gnsSel E p fm =
      if AllSig (gs ++ [r, l]) p then .ok (.go "GNS" (keep fm (.sarsar 1)))
      else if NoneSig (gs ++ [r, l]) p then .ok (.go "OLS" none)
      else if r < l ∧ ∀ g ∈ gs, g < l then
        (match E.lag 1 with
        | none => .ok (.stop "Exception: SDM parameters out of bounds")
        | some m => do
          let mx ← npMax m.spat
          let mn ← npMin m.spat
          if lt mx p = true then
            if lt m.cfh p = true then return .go "SDM" (keep fm (.lag 1))
            else return .go "ERROR" none
          else if ge mn p = true then return .go "OLS" none
          else do
            let c ← argmax m.spat
            if c = m.spat.length - 1 then return .go "SLX" none
            else return .go "LAG" none)
      else if l ≤ r ∧ ∀ g ∈ gs, g < r then
        (match E.err 1 with
        | none => .ok (.stop "Exception: SLX Error parameters out of bounds")
        | some m => do
          let mx ← npMax m
          let mn ← npMin m
          if lt mx p = true then return .go "SLX-ERR" (keep fm (.err 1))
          else if ge mn p = true then return .go "OLS" none
          else do
            let c ← argmax m
            if c = m.length - 1 then return .go "SLX" none
            else return .go "ERROR" none)
      else
        (match E.sarsar 0 with
        | none => .ok (.stop "Exception: SARSAR parameters out of bounds")
        | some m => do
          let mx ← npMax m
          let mn ← npMin m
          if lt mx p = true then return .go "SARSAR" (keep fm (.sarsar 0))
          else if ge mn p = true then return .go "OLS" none
          else do
            let c ← argmax m
            if c = m.length - 1 then return .go "LAG" none
            else return .go "ERROR" none) := by
  unfold gnsSel
  rw [h]
  simp only
  obtain ⟨c, hc, e⟩ := three (L := gs ++ [r, l]) (by simp) p
    (.ok (Sel.go "GNS" (keep fm (.sarsar 1)))) (.ok (Sel.go "OLS" none))
    (fun cand => if cand = ((gs ++ [r, l]).map some).length - 1 then
        (match E.lag 1 with
        | none => .ok (.stop "Exception: SDM parameters out of bounds")
        | some m => do
          let mx ← npMax m.spat
          let mn ← npMin m.spat
          if lt mx p = true then
            if lt m.cfh p = true then return .go "SDM" (keep fm (.lag 1))
            else return .go "ERROR" none
          else if ge mn p = true then return .go "OLS" none
          else do
            let c ← argmax m.spat
            if c = m.spat.length - 1 then return .go "SLX" none
            else return .go "LAG" none)
      else if cand + 2 = ((gs ++ [r, l]).map some).length then
        (match E.err 1 with
        | none => .ok (.stop "Exception: SLX Error parameters out of bounds")
        | some m => do
          let mx ← npMax m
          let mn ← npMin m
          if lt mx p = true then return .go "SLX-ERR" (keep fm (.err 1))
          else if ge mn p = true then return .go "OLS" none
          else do
            let c ← argmax m
            if c = m.length - 1 then return .go "SLX" none
            else return .go "ERROR" none)
      else
        (match E.sarsar 0 with
        | none => .ok (.stop "Exception: SARSAR parameters out of bounds")
        | some m => do
          let mx ← npMax m
          let mn ← npMin m
          if lt mx p = true then return .go "SARSAR" (keep fm (.sarsar 0))
          else if ge mn p = true then return .go "OLS" none
          else do
            let c ← argmax m
            if c = m.length - 1 then return .go "LAG" none
            else return .go "ERROR" none))
  have h1 := (arg_last2 hc).1
  have h2 := (arg_last2 hc).2
  rw [List.length_map] at e
  simp only [h1, h2] at e
  refine Eq.trans ?_ e
  rw [List.length_map]
  rfl

/-- C45 (GETS-GNS): all spatial parameters significant: the GNS model; none significant: OLS. -/
theorem C45_gns_extremes (E : World) (p : ℝ) (gs : List ℝ) (r l : ℝ)
    (h : E.sarsar 1 = some ((gs ++ [r, l]).map some)) :
    (AllSig (gs ++ [r, l]) p → Reports E (getsGns E p) (.sarsar 1)) ∧
    (NoneSig (gs ++ [r, l]) p → Reports E (getsGns E p) (.ols 0)) := by
  constructor
  · intro h1
    refine gns_kept (l := "GNS") (by simp) rfl (by simp [World.ok, h]) fun fm => ?_
    rw [gnsSel_eq E p gs r l h, if_pos h1]
  · intro h1
    have h0 : ¬ AllSig (gs ++ [r, l]) p := fun h2 => by
      have := h1 r (by simp); have := h2 r (by simp); linarith
    refine gns_ols fun fm => ?_
    rw [gnsSel_eq E p gs r l h, if_neg h0, if_pos h1]

/-- C45 (GETS-GNS): when some but not all are significant and lambda has the strictly largest p-value, lambda is
dropped and the decision is made on the Durbin model: Durbin, or error when the common factor hypothesis is not
rejected, if all its spatial parameters are significant; OLS if none is; SLX if rho is the least significant,
otherwise lag. -/
theorem C45_gns_lambda (E : World) (p : ℝ) (gs : List ℝ) (r l : ℝ)
    (h : E.sarsar 1 = some ((gs ++ [r, l]).map some))
    (h1 : ¬ AllSig (gs ++ [r, l]) p) (h2 : ¬ NoneSig (gs ++ [r, l]) p) (h3 : r < l ∧ ∀ g ∈ gs, g < l) :
    (E.lag 1 = none → Stops (getsGns E p)) ∧
    ∀ (m : LagOut) (gs1 : List ℝ) (r1 : ℝ), E.lag 1 = some m → m.spat = (gs1 ++ [r1]).map some →
      (AllSig (gs1 ++ [r1]) p → Sig m.cfh p → Reports E (getsGns E p) (.lag 1)) ∧
      (AllSig (gs1 ++ [r1]) p → ¬ Sig m.cfh p → Reports E (getsGns E p) (.err 0)) ∧
      (NoneSig (gs1 ++ [r1]) p → Reports E (getsGns E p) (.ols 0)) ∧
      (¬ AllSig (gs1 ++ [r1]) p → ¬ NoneSig (gs1 ++ [r1]) p → (∀ g ∈ gs1, g < r1) →
        Reports E (getsGns E p) (.ols 1)) ∧
      (¬ AllSig (gs1 ++ [r1]) p → ¬ NoneSig (gs1 ++ [r1]) p → (∃ g ∈ gs1, r1 ≤ g) →
        Reports E (getsGns E p) (.lag 0)) := by
  have base : ∀ fm, gnsSel E p fm = _ := fun fm => by
    rw [gnsSel_eq E p gs r l h, if_neg h1, if_neg h2, if_pos h3]
  constructor
  · intro hn
    refine gns_stop (note := "SDM parameters out of bounds") fun fm => ?_
    rw [base, hn]; rfl
  · intro m gs1 r1 hm hsp
    have e : ∀ fm, gnsSel E p fm = open Classical in
        if AllSig (gs1 ++ [r1]) p then
          (if lt m.cfh p = true then .ok (.go "SDM" (keep fm (.lag 1))) else .ok (.go "ERROR" none))
        else if NoneSig (gs1 ++ [r1]) p then .ok (.go "OLS" none)
        else if ∀ g ∈ gs1, g < r1 then .ok (.go "SLX" none) else .ok (.go "LAG" none) := by
      intro fm
      rw [base, hm]
      simp only [hsp]
      obtain ⟨c, hc, e⟩ := three (L := gs1 ++ [r1]) (by simp) p
        (if lt m.cfh p = true then .ok (Sel.go "SDM" (keep fm (.lag 1))) else .ok (Sel.go "ERROR" none))
        (.ok (Sel.go "OLS" none))
        (fun c => if c = ((gs1 ++ [r1]).map some).length - 1 then .ok (Sel.go "SLX" none)
          else .ok (Sel.go "LAG" none))
      have h1 := arg_last hc
      rw [List.length_map] at e
      simp only [h1] at e
      refine Eq.trans ?_ e
      rw [List.length_map]
      rfl
    have excl : NoneSig (gs1 ++ [r1]) p → ¬ AllSig (gs1 ++ [r1]) p := fun a b => by
      have := a r1 (by simp); have := b r1 (by simp); linarith
    refine ⟨fun a b => ?_, fun a b => ?_, fun a => ?_, fun a b c => ?_, fun a b c => ?_⟩
    · exact gns_kept (l := "SDM") (by simp) rfl (by simp [World.ok, hm]) fun fm => by
        rw [e, if_pos a, if_pos ((lt_iff_sig _ _).2 b)]
    · exact gns_err fun fm => by rw [e, if_pos a, if_neg (mt (lt_iff_sig _ _).1 b)]
    · exact gns_ols fun fm => by rw [e, if_neg (excl a), if_pos a]
    · exact gns_slx fun fm => by rw [e, if_neg a, if_neg b, if_pos c]
    · exact gns_lag fun fm => by
        rw [e, if_neg a, if_neg b, if_neg]
        intro hh; obtain ⟨g, hg, hr⟩ := c; have := hh g hg; linarith

/-- C45 (GETS-GNS): when rho is the least significant it is dropped and the decision is made on the SLX-error
model. -/
theorem C45_gns_rho (E : World) (p : ℝ) (gs : List ℝ) (r l : ℝ)
    (h : E.sarsar 1 = some ((gs ++ [r, l]).map some))
    (h1 : ¬ AllSig (gs ++ [r, l]) p) (h2 : ¬ NoneSig (gs ++ [r, l]) p) (h3 : l ≤ r ∧ ∀ g ∈ gs, g < r) :
    (E.err 1 = none → Stops (getsGns E p)) ∧
    ∀ (gs1 : List ℝ) (l1 : ℝ), E.err 1 = some ((gs1 ++ [l1]).map some) →
      (AllSig (gs1 ++ [l1]) p → Reports E (getsGns E p) (.err 1)) ∧
      (NoneSig (gs1 ++ [l1]) p → Reports E (getsGns E p) (.ols 0)) ∧
      (¬ AllSig (gs1 ++ [l1]) p → ¬ NoneSig (gs1 ++ [l1]) p → (∀ g ∈ gs1, g < l1) →
        Reports E (getsGns E p) (.ols 1)) ∧
      (¬ AllSig (gs1 ++ [l1]) p → ¬ NoneSig (gs1 ++ [l1]) p → (∃ g ∈ gs1, l1 ≤ g) →
        Reports E (getsGns E p) (.err 0)) := by
  have h3' : ¬ (r < l ∧ ∀ g ∈ gs, g < l) := fun hh => by linarith [hh.1, h3.1]
  have base : ∀ fm, gnsSel E p fm = _ := fun fm => by
    rw [gnsSel_eq E p gs r l h, if_neg h1, if_neg h2, if_neg h3', if_pos h3]
  constructor
  · intro hn
    refine gns_stop (note := "SLX Error parameters out of bounds") fun fm => ?_
    rw [base, hn]; rfl
  · intro gs1 r1 hm
    have e : ∀ fm, gnsSel E p fm = open Classical in
        if AllSig (gs1 ++ [r1]) p then .ok (.go "SLX-ERR" (keep fm (.err 1)))
        else if NoneSig (gs1 ++ [r1]) p then .ok (.go "OLS" none)
        else if ∀ g ∈ gs1, g < r1 then .ok (.go "SLX" none) else .ok (.go "ERROR" none) := by
      intro fm
      rw [base, hm]
      simp only
      obtain ⟨c, hc, e⟩ := three (L := gs1 ++ [r1]) (by simp) p
        (.ok (Sel.go "SLX-ERR" (keep fm (.err 1)))) (.ok (Sel.go "OLS" none))
        (fun c => if c = ((gs1 ++ [r1]).map some).length - 1 then .ok (Sel.go "SLX" none)
          else .ok (Sel.go "ERROR" none))
      have h1 := arg_last hc
      rw [List.length_map] at e
      simp only [h1] at e
      refine Eq.trans ?_ e
      rw [List.length_map]
      rfl
    have excl : NoneSig (gs1 ++ [r1]) p → ¬ AllSig (gs1 ++ [r1]) p := fun a b => by
      have := a r1 (by simp); have := b r1 (by simp); linarith
    refine ⟨fun a => ?_, fun a => ?_, fun a b c => ?_, fun a b c => ?_⟩
    · exact gns_kept (l := "SLX-ERR") (by simp) rfl (by simp [World.ok, hm]) fun fm => by rw [e, if_pos a]
    · exact gns_ols fun fm => by rw [e, if_neg (excl a), if_pos a]
    · exact gns_slx fun fm => by rw [e, if_neg a, if_neg b, if_pos c]
    · exact gns_err fun fm => by
        rw [e, if_neg a, if_neg b, if_neg]
        intro hh; obtain ⟨g, hg, hr⟩ := c; have := hh g hg; linarith

/-- C45 (GETS-GNS): otherwise a WX coefficient is the least significant, all of WX is dropped and the decision is
made on the lag-plus-error model. -/
theorem C45_gns_gamma (E : World) (p : ℝ) (gs : List ℝ) (r l : ℝ)
    (h : E.sarsar 1 = some ((gs ++ [r, l]).map some))
    (h1 : ¬ AllSig (gs ++ [r, l]) p) (h2 : ¬ NoneSig (gs ++ [r, l]) p) (h3 : ∃ g ∈ gs, r ≤ g ∧ l ≤ g) :
    (E.sarsar 0 = none → Stops (getsGns E p)) ∧
    ∀ (r1 l1 : ℝ), E.sarsar 0 = some [some r1, some l1] →
      (r1 < p ∧ l1 < p → Reports E (getsGns E p) (.sarsar 0)) ∧
      (p ≤ r1 ∧ p ≤ l1 → Reports E (getsGns E p) (.ols 0)) ∧
      (r1 < p ∧ p ≤ l1 → Reports E (getsGns E p) (.lag 0)) ∧
      (l1 < p ∧ p ≤ r1 → Reports E (getsGns E p) (.err 0)) := by
  obtain ⟨g, hg, hg1, hg2⟩ := h3
  have h3' : ¬ (r < l ∧ ∀ g ∈ gs, g < l) := fun hh => by linarith [hh.2 g hg]
  have h3'' : ¬ (l ≤ r ∧ ∀ g ∈ gs, g < r) := fun hh => by linarith [hh.2 g hg]
  have base : ∀ fm, gnsSel E p fm = _ := fun fm => by
    rw [gnsSel_eq E p gs r l h, if_neg h1, if_neg h2, if_neg h3', if_neg h3'']
  constructor
  · intro hn
    refine gns_stop (note := "SARSAR parameters out of bounds") fun fm => ?_
    rw [base, hn]; rfl
  · intro r1 l1 hm
    have hm' : E.sarsar 0 = some (([r1] ++ [l1]).map some) := hm
    have e : ∀ fm, gnsSel E p fm = open Classical in
        if AllSig ([r1] ++ [l1]) p then .ok (.go "SARSAR" (keep fm (.sarsar 0)))
        else if NoneSig ([r1] ++ [l1]) p then .ok (.go "OLS" none)
        else if ∀ g ∈ [r1], g < l1 then .ok (.go "LAG" none) else .ok (.go "ERROR" none) := by
      intro fm
      rw [base, hm']
      simp only
      obtain ⟨c, hc, e⟩ := three (L := [r1] ++ [l1]) (by simp) p
        (.ok (Sel.go "SARSAR" (keep fm (.sarsar 0)))) (.ok (Sel.go "OLS" none))
        (fun c => if c = (([r1] ++ [l1]).map some).length - 1 then .ok (Sel.go "LAG" none)
          else .ok (Sel.go "ERROR" none))
      have h1 := arg_last hc
      rw [List.length_map] at e
      simp only [h1] at e
      refine Eq.trans ?_ e
      rw [List.length_map]
      rfl
    have eA : AllSig ([r1] ++ [l1]) p ↔ r1 < p ∧ l1 < p := by simp [AllSig]
    have eN : NoneSig ([r1] ++ [l1]) p ↔ p ≤ r1 ∧ p ≤ l1 := by simp [NoneSig]
    simp only [eA, eN] at e
    refine ⟨fun a => ?_, fun a => ?_, fun a => ?_, fun a => ?_⟩
    · exact gns_kept (l := "SARSAR") (by simp) rfl (by simp [World.ok, hm]) fun fm => by rw [e, if_pos a]
    · exact gns_ols fun fm => by rw [e, if_neg (by intro hh; linarith [hh.1, a.1]), if_pos a]
    · exact gns_lag fun fm => by
        rw [e, if_neg (by intro hh; linarith [hh.2, a.2]), if_neg (by intro hh; linarith [hh.1, a.1]), if_pos]
        simp; linarith [a.1, a.2]
    · exact gns_err fun fm => by
        rw [e, if_neg (by intro hh; linarith [hh.1, a.2]), if_neg (by intro hh; linarith [hh.2, a.1]), if_neg]
        simp; linarith [a.1, a.2]

/-- The exception labels are not models, so a stopped search reports none. -/
theorem Stops.not_reports {E : World} {s : Bool → Py (String × Option Fit)} (h : Stops s) (f : Fit) :
    ¬ Reports E s f := by
  rintro ⟨l, hd, h0, -⟩
  obtain ⟨note, hn⟩ := h
  rw [hn] at h0
  have : "Exception: " ++ note = l := (Prod.mk.inj (Except.ok.inj h0)).1
  rw [← this, denotes_stop] at hd
  cases hd

/-- Decision part common to all totality proofs: `npMax`, `npMin` and `argmax` do not fail on nonempty arrays. -/
theorem np_total {L : List PV} (hL : L ≠ []) :
    ∃ a b c, npMax L = .ok a ∧ npMin L = .ok b ∧ argmax L = .ok c := by
  cases L with
  | nil => exact absurd rfl hL
  | cons x l => exact ⟨_, _, _, rfl, rfl, rfl⟩

/-- C45 (GETS-GNS): for all p-values, including NaN, and any number of regressors the search either stops with an
exception message or reports exactly one specification. -/
theorem C45_gns_total (E : World) (p : ℝ) (h1 : ∀ s L, E.sarsar s = some L → L ≠ [])
    (h2 : ∀ s L, E.err s = some L → L ≠ []) (h3 : ∀ s m, E.lag s = some m → m.spat ≠ []) :
    Stops (getsGns E p) ∨ ∃! f, Reports E (getsGns E p) f := by
  suffices h : Stops (getsGns E p) ∨ ∃ f, Reports E (getsGns E p) f by
    rcases h with h | ⟨f, hf⟩
    · exact Or.inl h
    · exact Or.inr ⟨f, hf, fun g hg => hg.unique hf⟩
  have hsel : (∃ note, ∀ fm, gnsSel E p fm = .ok (.stop ("Exception: " ++ note))) ∨
      (∀ fm, gnsSel E p fm = .ok (.go "OLS" none)) ∨ (∀ fm, gnsSel E p fm = .ok (.go "SLX" none)) ∨
      (∀ fm, gnsSel E p fm = .ok (.go "ERROR" none)) ∨ (∀ fm, gnsSel E p fm = .ok (.go "LAG" none)) ∨
      (∃ l f, (l = "GNS" ∨ l = "SDM" ∨ l = "SLX-ERR" ∨ l = "SARSAR") ∧ denotes l = some f ∧ E.ok f = true ∧
        ∀ fm, gnsSel E p fm = .ok (.go l (keep fm f))) := by
    rcases hS : E.sarsar 1 with _ | L
    · left; exact ⟨"GNS parameters out of bounds", fun fm => by unfold gnsSel; rw [hS]; rfl⟩
    obtain ⟨mx, mn, c, e1, e2, e3⟩ := np_total (h1 1 L hS)
    have base : ∀ fm, gnsSel E p fm = gnsSel E p fm := fun _ => rfl
    conv at base => ext fm; rhs; unfold gnsSel
    simp only [hS, e1, e2, e3, bind, Except.bind] at base
    by_cases c1 : lt mx p = true
    · simp only [c1, if_true] at base
      right; right; right; right; right
      exact ⟨"GNS", _, by simp, rfl, by simp [World.ok, hS], base⟩
    simp only [c1, if_false] at base
    by_cases c2 : ge mn p = true
    · simp only [c2, if_true] at base
      exact Or.inr (Or.inl base)
    simp only [c2, if_false] at base
    by_cases c3 : c = L.length - 1
    · simp only [c3, if_true] at base
      rcases hm : E.lag 1 with _ | m
      · simp only [hm] at base; exact Or.inl ⟨"SDM parameters out of bounds", base⟩
      obtain ⟨mx, mn, c, e1, e2, e3⟩ := np_total (h3 1 m hm)
      simp only [hm, e1, e2, e3] at base
      by_cases d1 : lt mx p = true
      · simp only [d1, if_true] at base
        by_cases d2 : lt m.cfh p = true
        · simp only [d2, if_true] at base
          right; right; right; right; right
          exact ⟨"SDM", _, by simp, rfl, by simp [World.ok, hm], base⟩
        · simp only [d2, if_false] at base
          exact Or.inr (Or.inr (Or.inr (Or.inl base)))
      simp only [d1, if_false] at base
      by_cases d2 : ge mn p = true
      · simp only [d2, if_true] at base
        exact Or.inr (Or.inl base)
      simp only [d2, if_false] at base
      by_cases d3 : c = m.spat.length - 1
      · simp only [d3, if_true] at base
        exact Or.inr (Or.inr (Or.inl base))
      · simp only [d3, if_false] at base
        exact Or.inr (Or.inr (Or.inr (Or.inr (Or.inl base))))
    simp only [c3, if_false] at base
    by_cases c4 : c + 2 = L.length
    · simp only [c4, if_true] at base
      rcases hm : E.err 1 with _ | m
      · simp only [hm] at base; exact Or.inl ⟨"SLX Error parameters out of bounds", base⟩
      obtain ⟨mx, mn, c, e1, e2, e3⟩ := np_total (h2 1 m hm)
      simp only [hm, e1, e2, e3] at base
      by_cases d1 : lt mx p = true
      · simp only [d1, if_true] at base
        right; right; right; right; right
        exact ⟨"SLX-ERR", _, by simp, rfl, by simp [World.ok, hm], base⟩
      simp only [d1, if_false] at base
      by_cases d2 : ge mn p = true
      · simp only [d2, if_true] at base
        exact Or.inr (Or.inl base)
      simp only [d2, if_false] at base
      by_cases d3 : c = m.length - 1
      · simp only [d3, if_true] at base
        exact Or.inr (Or.inr (Or.inl base))
      · simp only [d3, if_false] at base
        exact Or.inr (Or.inr (Or.inr (Or.inl base)))
    · simp only [c4, if_false] at base
      rcases hm : E.sarsar 0 with _ | m
      · simp only [hm] at base; exact Or.inl ⟨"SARSAR parameters out of bounds", base⟩
      obtain ⟨mx, mn, c, e1, e2, e3⟩ := np_total (h1 0 m hm)
      simp only [hm, e1, e2, e3] at base
      by_cases d1 : lt mx p = true
      · simp only [d1, if_true] at base
        right; right; right; right; right
        exact ⟨"SARSAR", _, by simp, rfl, by simp [World.ok, hm], base⟩
      simp only [d1, if_false] at base
      by_cases d2 : ge mn p = true
      · simp only [d2, if_true] at base
        exact Or.inr (Or.inl base)
      simp only [d2, if_false] at base
      by_cases d3 : c = m.length - 1
      · simp only [d3, if_true] at base
        exact Or.inr (Or.inr (Or.inr (Or.inr (Or.inl base))))
      · simp only [d3, if_false] at base
        exact Or.inr (Or.inr (Or.inr (Or.inl base)))
  rcases hsel with ⟨n, h⟩ | h | h | h | h | ⟨l, f, h4, h5, h6, h7⟩
  · exact Or.inl (gns_stop h)
  · exact Or.inr ⟨_, gns_ols h⟩
  · exact Or.inr ⟨_, gns_slx h⟩
  · exact Or.inr ⟨_, gns_err h⟩
  · exact Or.inr ⟨_, gns_lag h⟩
  · exact Or.inr ⟨_, gns_kept h4 h5 h6 h7⟩

end Spreg.Search
