import Verif.Props.Spsearch2
/-
C45: GETS-SDM, and the defect of both general-to-specific searches with several regressors.
-/
namespace Spreg.Search

section
variable {E : World} {p : ℝ}

theorem sdm_err (h : ∀ fm, sdmSel E p fm = .ok (.go "ERROR" none)) : Reports E (getsSdm E p) (.err 0) :=
  rep_lag (l := "ERROR") (note := "GMM Error parameters outside bounds") rfl
    (by unfold getsSdm; rw [h]; rfl) (by unfold getsSdm; rw [h]; rfl)
theorem sdm_sarsar (h : ∀ fm, sdmSel E p fm = .ok (.go "SARSAR" none)) : Reports E (getsSdm E p) (.sarsar 0) :=
  rep_lag (l := "SARSAR") (note := "SARSAR parameters out of bounds") rfl
    (by unfold getsSdm; rw [h]; rfl) (by unfold getsSdm; rw [h]; rfl)
theorem sdm_slxerr (h : ∀ fm, sdmSel E p fm = .ok (.go "SLX-Err" none)) : Reports E (getsSdm E p) (.err 1) :=
  rep_lag (l := "SLX-Err") (note := "SLX Error parameters out of bounds") rfl
    (by unfold getsSdm; rw [h]; rfl) (by unfold getsSdm; rw [h]; rfl)
theorem sdm_gns (h : ∀ fm, sdmSel E p fm = .ok (.go "GNS" none)) : Reports E (getsSdm E p) (.sarsar 1) :=
  rep_lag (l := "GNS") (note := "GNS parameters out of bounds") rfl
    (by unfold getsSdm; rw [h]; rfl) (by unfold getsSdm; rw [h]; rfl)

theorem sdm_kept {l : String} {f : Fit} (hl : l = "SDM" ∨ l = "OLS" ∨ l = "SLX" ∨ l = "LAG")
    (hd : denotes l = some f) (hok : E.ok f = true)
    (h : ∀ fm, sdmSel E p fm = .ok (.go l (keep fm f))) : Reports E (getsSdm E p) f := by
  rcases hl with rfl | rfl | rfl | rfl <;>
  exact rep_kept hd (by unfold getsSdm; rw [h]; rfl) (by unfold getsSdm; rw [h]; rfl) hok

theorem sdm_stop {note : String} (h : ∀ fm, sdmSel E p fm = .ok (.stop ("Exception: " ++ note))) :
    Stops (getsSdm E p) :=
  ⟨note, fun fm => by unfold getsSdm; rw [h]; rfl⟩
end

open Classical in
theorem sdmSel_eq (E : World) (p : ℝ) (m : LagOut) (gs : List ℝ) (r : ℝ) (hm : E.lag 1 = some m)
    (hsp : m.spat = (gs ++ [r]).map some) (fm : Bool) :
    sdmSel E p fm =
      if AllSig (gs ++ [r]) p then
        (if ge m.cfh p = true then .ok (.go "ERROR" none)
        else do
          let a ← m.ak
          if lt a p = true then return .go "GNS" none
          else return .go "SDM" (keep fm (.lag 1)))
      else if NoneSig (gs ++ [r]) p then
        (if lt (E.ols 0).lmError p = true then .ok (.go "ERROR" none) else .ok (.go "OLS" (keep fm (.ols 0))))
      else if ∀ g ∈ gs, g < r then
        (if lt (E.ols 1).lmError p = true then .ok (.go "SLX-Err" none) else .ok (.go "SLX" (keep fm (.ols 1))))
      else
        (match E.lag 0 with
        | none => .ok (.stop "Exception: LAG parameters out of bounds")
        | some l => do
          let a ← l.ak
          if lt a p = true then return .go "SARSAR" none
          else return .go "LAG" (keep fm (.lag 0))) := by
  unfold sdmSel
  rw [hm]
  simp only [hsp]
  obtain ⟨c, hc, e⟩ := three (L := gs ++ [r]) (by simp) p
    (if ge m.cfh p = true then .ok (Sel.go "ERROR" none)
        else do
          let a ← m.ak
          if lt a p = true then return .go "GNS" none
          else return .go "SDM" (keep fm (.lag 1)))
    (if lt (E.ols 0).lmError p = true then .ok (Sel.go "ERROR" none) else .ok (Sel.go "OLS" (keep fm (.ols 0))))
    (fun c => if c = ((gs ++ [r]).map some).length - 1 then
        (if lt (E.ols 1).lmError p = true then .ok (Sel.go "SLX-Err" none)
          else .ok (Sel.go "SLX" (keep fm (.ols 1))))
      else
        (match E.lag 0 with
        | none => .ok (.stop "Exception: LAG parameters out of bounds")
        | some l => do
          let a ← l.ak
          if lt a p = true then return .go "SARSAR" none
          else return .go "LAG" (keep fm (.lag 0))))
  have h1 := arg_last hc
  rw [List.length_map] at e
  simp only [h1] at e
  refine Eq.trans ?_ e
  rw [List.length_map]
  rfl

/-- C45 (GETS-SDM): the decision table of the search. -/
theorem C45_sdm (E : World) (p : ℝ) (m : LagOut) (gs : List ℝ) (r : ℝ) (hm : E.lag 1 = some m)
    (hsp : m.spat = (gs ++ [r]).map some) :
    (AllSig (gs ++ [r]) p → (∃ q, m.cfh = some q ∧ p ≤ q) → Reports E (getsSdm E p) (.err 0)) ∧
    (∀ a, AllSig (gs ++ [r]) p → ¬ (∃ q, m.cfh = some q ∧ p ≤ q) → m.ak = .ok a →
      (Sig a p → Reports E (getsSdm E p) (.sarsar 1)) ∧ (¬ Sig a p → Reports E (getsSdm E p) (.lag 1))) ∧
    (NoneSig (gs ++ [r]) p →
      (Sig (E.ols 0).lmError p → Reports E (getsSdm E p) (.err 0)) ∧
      (¬ Sig (E.ols 0).lmError p → Reports E (getsSdm E p) (.ols 0))) ∧
    (¬ AllSig (gs ++ [r]) p → ¬ NoneSig (gs ++ [r]) p → (∀ g ∈ gs, g < r) →
      (Sig (E.ols 1).lmError p → Reports E (getsSdm E p) (.err 1)) ∧
      (¬ Sig (E.ols 1).lmError p → Reports E (getsSdm E p) (.ols 1))) ∧
    (¬ AllSig (gs ++ [r]) p → ¬ NoneSig (gs ++ [r]) p → (∃ g ∈ gs, r ≤ g) →
      (E.lag 0 = none → Stops (getsSdm E p)) ∧
      ∀ l a, E.lag 0 = some l → l.ak = .ok a →
        (Sig a p → Reports E (getsSdm E p) (.sarsar 0)) ∧ (¬ Sig a p → Reports E (getsSdm E p) (.lag 0))) := by
  have base := fun fm => sdmSel_eq E p m gs r hm hsp fm
  have hge : ge m.cfh p = true ↔ ∃ q, m.cfh = some q ∧ p ≤ q := by
    rcases m.cfh with _ | q <;> simp [ge]
  simp only [hge] at base
  simp only [← lt_iff_sig]
  have excl : NoneSig (gs ++ [r]) p → ¬ AllSig (gs ++ [r]) p := fun a b => by
    have := a r (by simp); have := b r (by simp); linarith
  refine ⟨fun a b => ?_, fun v a b c => ⟨fun d => ?_, fun d => ?_⟩, fun a => ⟨fun d => ?_, fun d => ?_⟩,
    fun a b c => ⟨fun d => ?_, fun d => ?_⟩,
    fun a b c => ⟨fun d => ?_, fun l v d1 d2 => ⟨fun d => ?_, fun d => ?_⟩⟩⟩
  · exact sdm_err fun fm => by rw [base, if_pos a, if_pos b]
  · exact sdm_gns fun fm => by
      rw [base, if_pos a, if_neg b, c]; simp [bind, Except.bind, d]; rfl
  · exact sdm_kept (l := "SDM") (by simp) rfl (by simp [World.ok, hm]) fun fm => by
      rw [base, if_pos a, if_neg b, c]; simp [bind, Except.bind, d]; rfl
  · exact sdm_err fun fm => by rw [base, if_neg (excl a), if_pos a, if_pos d]
  · exact sdm_kept (l := "OLS") (by simp) rfl rfl fun fm => by rw [base, if_neg (excl a), if_pos a, if_neg d]
  · exact sdm_slxerr fun fm => by
      rw [base, if_neg a, if_neg b, if_pos c, if_pos d]
  · exact sdm_kept (l := "SLX") (by simp) rfl rfl fun fm => by
      rw [base, if_neg a, if_neg b, if_pos c, if_neg d]
  all_goals
    have c' : ¬ ∀ g ∈ gs, g < r := fun hh => by obtain ⟨g, hg, hr⟩ := c; have := hh g hg; linarith
  · exact sdm_stop (note := "LAG parameters out of bounds") fun fm => by
      rw [base, if_neg a, if_neg b, if_neg c', d]; rfl
  · exact sdm_sarsar fun fm => by
      rw [base, if_neg a, if_neg b, if_neg c', d1]; simp [bind, Except.bind, d, d2]; rfl
  · exact sdm_kept (l := "LAG") (by simp) rfl (by simp [World.ok, d1]) fun fm => by
      rw [base, if_neg a, if_neg b, if_neg c', d1]; simp [bind, Except.bind, d, d2]; rfl

/-- C45 (GETS-SDM): when the Durbin model cannot be estimated the search stops. -/
theorem C45_sdm_stop (E : World) (p : ℝ) (hm : E.lag 1 = none) : Stops (getsSdm E p) :=
  sdm_stop (note := "SDM parameters out of bounds") fun fm => by unfold sdmSel; rw [hm]; rfl

/-- C45 with one regressor: GETS-SDM keeps the spatial lag of y without WX only if rho was significant and the WX
coefficient was not. -/
theorem C45_sdm_one (E : World) (p : ℝ) (m : LagOut) (g r : ℝ) (hm : E.lag 1 = some m)
    (hsp : m.spat = [some g, some r]) (hak : ∀ s l, E.lag s = some l → ∃ a, l.ak = .ok a)
    (h : Reports E (getsSdm E p) (.lag 0) ∨ Reports E (getsSdm E p) (.sarsar 0)) : r < p ∧ p ≤ g := by
  obtain ⟨t1, t2, t3, t4, t5⟩ := C45_sdm E p m [g] r hm hsp
  have eA : AllSig ([g] ++ [r]) p ↔ g < p ∧ r < p := by simp [AllSig]
  have eN : NoneSig ([g] ++ [r]) p ↔ p ≤ g ∧ p ≤ r := by simp [NoneSig]
  rw [eA] at t1 t2 t4 t5
  rw [eN] at t3 t4 t5
  have no : ∀ f, Reports E (getsSdm E p) f → f ≠ .lag 0 → f ≠ .sarsar 0 → False := by
    intro f hf h1 h2
    rcases h with h | h
    · exact h1 (hf.unique h)
    · exact h2 (hf.unique h)
  by_cases a : g < p ∧ r < p
  · exfalso
    by_cases b : ∃ q, m.cfh = some q ∧ p ≤ q
    · exact no _ (t1 a b) (by simp) (by simp)
    · obtain ⟨v, hv⟩ := hak 1 m hm
      by_cases d : Sig v p
      · exact no _ ((t2 v a b hv).1 d) (by simp) (by simp)
      · exact no _ ((t2 v a b hv).2 d) (by simp) (by simp)
  by_cases b : p ≤ g ∧ p ≤ r
  · exfalso
    by_cases d : Sig (E.ols 0).lmError p
    · exact no _ ((t3 b).1 d) (by simp) (by simp)
    · exact no _ ((t3 b).2 d) (by simp) (by simp)
  by_cases c : g < r
  · exfalso
    have t := t4 a b (by simpa using c)
    by_cases d : Sig (E.ols 1).lmError p
    · exact no _ (t.1 d) (by simp) (by simp)
    · exact no _ (t.2 d) (by simp) (by simp)
  · rcases lt_or_ge r p with h1 | h1
    · exact ⟨h1, by by_contra h2; exact a ⟨not_le.1 h2, h1⟩⟩
    · exact absurd ⟨by linarith [not_lt.1 c], h1⟩ b

/-- C45 fails with two or more regressors: the code compares single p-values and takes "not the last one" for
"WX is not significant". When rho is not significant, a WX coefficient is, and another WX coefficient is even
less significant than rho, GETS-SDM drops all of WX and reports a model with the insignificant rho. -/
theorem C45_sdm_many_violated (E : World) (p : ℝ) (m l : LagOut) (a : PV) (gs : List ℝ) (r : ℝ)
    (hm : E.lag 1 = some m) (hsp : m.spat = (gs ++ [r]).map some)
    (hr : p ≤ r) (hsig : ∃ g ∈ gs, g < p) (hg : ∃ g ∈ gs, r ≤ g) (hl : E.lag 0 = some l) (ha : l.ak = .ok a) :
    Reports E (getsSdm E p) (.lag 0) ∨ Reports E (getsSdm E p) (.sarsar 0) := by
  obtain ⟨g, hg1, hg2⟩ := hsig
  have t := (C45_sdm E p m gs r hm hsp).2.2.2.2
    (fun h => by have := h r (by simp); linarith) (fun h => by have := h g (by simp [hg1]); linarith) hg
  by_cases d : Sig a p
  · exact Or.inr ((t.2 l a hl ha).1 d)
  · exact Or.inl ((t.2 l a hl ha).2 d)

/-- C45 fails with two or more regressors for GETS-GNS as well: after dropping lambda it reports the lag model although
rho is not significant and a WX coefficient is. -/
theorem C45_gns_many_violated (E : World) (p : ℝ) (gs : List ℝ) (r l : ℝ)
    (h : E.sarsar 1 = some ((gs ++ [r, l]).map some))
    (h1 : p ≤ l) (h2 : ∃ g ∈ gs, g < p) (h3 : r < l ∧ ∀ g ∈ gs, g < l)
    (m : LagOut) (gs1 : List ℝ) (r1 : ℝ) (hm : E.lag 1 = some m) (hsp : m.spat = (gs1 ++ [r1]).map some)
    (hr : p ≤ r1) (hsig : ∃ g ∈ gs1, g < p) (hg : ∃ g ∈ gs1, r1 ≤ g) :
    Reports E (getsGns E p) (.lag 0) := by
  obtain ⟨g, hg1, hg2⟩ := h2
  obtain ⟨g', hg1', hg2'⟩ := hsig
  exact ((C45_gns_lambda E p gs r l h (fun h => by have := h l (by simp); linarith)
    (fun h => by have := h g (by simp [hg1]); linarith) h3).2 m gs1 r1 hm hsp).2.2.2.2
    (fun h => by have := h r1 (by simp); linarith) (fun h => by have := h g' (by simp [hg1']); linarith) hg

/-! ### The hypotheses are met -/

/-- A world with two regressors in which rho is not significant and the first WX coefficient is. -/
noncomputable def exWorld : World where
  ols _ := ⟨some 0.001, some 0.002, some 0.5, some 0.005, some 0.001, some 0.002, some 0.3, some 0.004⟩
  lag s := if s = 0 then some ⟨[some 0.001], some 0.5, .ok (some 0.4)⟩
    else some ⟨[some 0.001, some 0.9, some 0.5], some 0.001, .error .linAlgError⟩
  err _ := some [some 0.2, some 0.3]
  sarsar s := if s = 0 then none else some [some 0.001, some 0.2, some 0.5, some 0.8]

example : Reports exWorld (getsSdm exWorld 0.01) (.lag 0) ∨ Reports exWorld (getsSdm exWorld 0.01) (.sarsar 0) :=
  C45_sdm_many_violated exWorld 0.01 _ ⟨[some 0.001], some 0.5, .ok (some 0.4)⟩ (some 0.4) [0.001, 0.9] 0.5 rfl rfl
    (by norm_num) ⟨0.001, by simp, by norm_num⟩ ⟨0.9, by simp, by norm_num⟩ rfl rfl

example : Reports exWorld (getsGns exWorld 0.01) (.lag 0) :=
  C45_gns_many_violated exWorld 0.01 [0.001, 0.2] 0.5 0.8 rfl (by norm_num) ⟨0.001, by simp, by norm_num⟩
    ⟨by norm_num, by intro g hg; simp at hg; rcases hg with rfl | rfl <;> norm_num⟩ _ [0.001, 0.9] 0.5 rfl rfl
    (by norm_num) ⟨0.001, by simp, by norm_num⟩ ⟨0.9, by simp, by norm_num⟩

/-- STGE-Classic on this world: both LM tests significant, only the robust lag test: the lag model. -/
example : Reports exWorld (stgeClassic exWorld 0.01) (.lag 0) :=
  ((C45_classic_partial exWorld 0.01 0.002 0.001 0.005 0.5 rfl rfl rfl rfl).2.2.1).2
    ⟨by norm_num, Or.inr ⟨by norm_num, fun h => by norm_num at h⟩⟩

/-- STGE-Pre on this world: WX tests significant, so the Durbin model. -/
example : Reports exWorld (stgePre exWorld 0.01) (.lag 1) :=
  ((C45_pre_partial exWorld 0.01 0.002 0.001 0.005 0.5 1
    (Or.inl ⟨rfl, ⟨0.001, rfl, by norm_num⟩, 0.002, rfl, by norm_num⟩) rfl rfl rfl rfl
    (by norm_num)).2.2.1).2
    ⟨by norm_num, Or.inr ⟨by norm_num, fun h => by norm_num at h⟩⟩

/-- STGE-KB on this world: only the robust WX test is significant: SLX. -/
example : Reports exWorld (stgeKb exWorld 0.01) (.ols 1) := by
  refine (C45_kb exWorld 0.01).2.2.2.1.2 ⟨?_, ⟨0.002, rfl, by norm_num⟩, ?_⟩
  · rintro ⟨r, hr, h⟩
    have : r = 0.004 := (Option.some.inj hr).symm
    subst this; norm_num at h
  · rintro ⟨r, hr, h⟩
    have : r = 0.3 := (Option.some.inj hr).symm
    subst this; norm_num at h

/-- A world in which STGE-Pre misreports the label: all tests significant and the AK test raises. -/
noncomputable def exWorld2 : World where
  ols _ := ⟨some 0.001, some 0.002, some 0.006, some 0.005, some 0.001, some 0.002, some 0.3, some 0.004⟩
  lag s := some ⟨[some 0.001], some 0.5, .error .linAlgError⟩
  err _ := none
  sarsar s := none

example : stgePre exWorld2 0.01 true = .ok ("LAG", some (.lag 1)) :=
  (C45_pre_label_violated exWorld2 0.01 0.002 0.001 0.005 0.006
    (Or.inl ⟨rfl, ⟨0.001, rfl, by norm_num⟩, 0.002, rfl, by norm_num⟩) rfl rfl rfl rfl
    (by norm_num) (by norm_num) (by norm_num) (by norm_num) (by norm_num)
    (by rintro ⟨m, v, hm, hv⟩; cases Option.some.inj hm; cases hv)).2.1 rfl

end Spreg.Search
