import Verif.Spec.EndogArgs
import Verif.Props.Checks
/-
C190: arguments and failures of the endogenous regimes classes.
-/
namespace Spreg.EndogArgs
open Spreg Spreg.Chk Classical

variable {σ : Type}

theorem zip_snd (names : List String) (x : List Col) (hl : names.length = x.length) (q : Col → Bool) :
    ((names.zip x).filter fun p => q p.2).map (·.2) = x.filter q := by
  induction names generalizing x with
  | nil => cases x with
    | nil => rfl
    | cons a x => simp at hl
  | cons s names ih => cases x with
    | nil => simp at hl
    | cons a x =>
      have := ih x (by simpa using hl)
      rw [List.zip_cons_cons, List.filter_cons, List.filter_cons]
      by_cases hq : q a = true
      · simp only [hq, if_true, List.map_cons, this]
      · simp only [hq, if_false, this, Bool.false_eq_true]

theorem cols_eq (names : List String) (x : List Col) (hl : names.length = x.length) :
    (varying names x).map (·.2) = x.filter (fun c => Varies c) := by
  unfold varying
  rw [← zip_snd names x hl]; rfl

theorem names_eq (names : List String) (x : List Col) : (varying names x).map (·.1) = keepNames names x := rfl

theorem no_const (names : List String) (x : List Col) (hl : names.length = x.length) : constants names x = [] ↔ ∀ c ∈ x, Varies c := by
  unfold constants
  rw [List.map_eq_nil_iff, List.filter_eq_nil_iff]
  constructor
  · intro h c hc
    obtain ⟨i, hi, rfl⟩ := List.mem_iff_getElem.1 hc
    have hi' : i < names.length := hl ▸ hi
    have := h (names[i], x[i]) (by rw [List.mem_iff_getElem]; exact ⟨i, by simp [hi, hi'], by simp⟩)
    simpa [TwoValues, Varies] using this
  · intro h p hp
    have := h p.2 (List.of_mem_zip hp).2
    simpa [TwoValues, Varies] using this

theorem regi_eq (c : Cls) (a : String) (b : Option (List Bool)) (s : Bool) :
    (checkRegiArgs a b s (errFlag c)).toList = if decide (Default c a b s) then [] else [Warn.regi (match c with | .lag => false | _ => true)] := by
  unfold checkRegiArgs Default
  cases c <;> simp only [errFlag, decide_eq_true_eq] <;>
    (by_cases h1 : a = "many" <;> by_cases h2 : b = none <;> cases s <;> simp [h1, h2])

/-- First check, `names` for all columns. -/
theorem first {n : ℕ} (x : List Col) (names : List String) (hx : ∀ c ∈ x, c ≠ []) (hl : names.length = x.length) :
    checkConstant n x (some names) true = .ok ((varying names x).map (·.2), some ((varying names x).map (·.1)),
      if constants names x = [] then none else some (.names (constants names x))) := by
  obtain ⟨w, h, h1, h2⟩ := C51_check_constant n x names true hx hl
  rw [h, cols_eq names x hl, names_eq]
  simp only [if_true, List.nil_append]
  congr 3
  split_ifs with h0
  · exact h1.2 ((no_const names x hl).1 h0)
  · cases w with
    | none => exact absurd ((no_const names x hl).2 (h1.1 rfl)) h0
    | some r => rw [h2 r rfl]; congr 2

theorem set_names (l : List String) (k : ℕ) (h : l ≠ []) : setNameX (some l) k true = l := by
  cases l with
  | nil => exact absurd rfl h
  | cons a l => rfl

theorem varying_ne (names : List String) (x : List Col) (hl : names.length = x.length) (hv : ∃ c ∈ x, Varies c) : varying names x ≠ [] := by
  intro h
  have := cols_eq names x hl
  rw [h] at this
  obtain ⟨c, hc, hv⟩ := hv
  have h2 : c ∈ x.filter (fun c => decide (Varies c)) := List.mem_filter.2 ⟨hc, by simpa using hv⟩
  rw [← this] at h2
  simp at h2

theorem okb {α β : Type} (a : α) (f : α → Py β) : ((Except.ok a : Py α) >>= f) = f a := rfl

theorem quorum_eq (k : ℕ) (q : ℤ) : Endog.quorumOf k q = quorumFor k q := by
  unfold Endog.quorumOf quorumFor
  split_ifs
  · rw [max_comm, mul_comm]
  · rfl

/-- C190 for OLS_Endog_Regimes and TSLS_Endog_Regimes: whatever the options, the search sees the regressors that vary, and if it succeeds the final
model is estimated with the same regressors under their own names, with one warning for removed regressors and one for options
that are ignored. -/
theorem C190_names (c : Cls) (hc : c ≠ .lag) (n : ℕ) (x : List Col) (oneDim : Bool) (names : List String) (hx : ∀ c ∈ x, c ≠ []) (hl : names.length = x.length)
    (hv : ∃ c ∈ x, ∃ a ∈ c, ∃ b ∈ c, a ≠ b) (constantRegi : String) (cols2regi : Option (List Bool)) (regimeErrSep : Bool) (quorum : ℤ) (nClusters : ℕ)
    (search : ℕ → List Col → Except SearchExc σ) :
    endogFit c n x oneDim (some names) constantRegi cols2regi regimeErrSep quorum nClusters search =
      (runSearch n nClusters (quorumFor (varying names x).length quorum) fun q => search q ((varying names x).map (·.2))).map
        (promised c names x (decide (Default c constantRegi cols2regi regimeErrSep)) (quorumFor (varying names x).length quorum)) := by
  have f1 := first (n := n) x names hx hl
  have f2 := C51_idempotent n x names hx hl _ _ _ f1
  unfold endogFit
  rw [f1, okb]
  have hq : quorumArg c (List.map (·.2) (varying names x)).length x.length oneDim quorum = .ok (quorumFor (varying names x).length quorum) := by
    rw [List.length_map, ← quorum_eq]; cases c
    · rfl
    · rfl
    · exact absurd rfl hc
  dsimp only
  rw [hq, okb]
  have hf : finalX c x (List.map (·.2) (varying names x)) = List.map (·.2) (varying names x) := by
    cases c
    · rfl
    · rfl
    · exact absurd rfl hc
  rw [hf, f2]
  cases runSearch n nClusters (quorumFor (varying names x).length quorum) fun q => search q ((varying names x).map (·.2)) with
  | error e => rfl
  | ok s =>
    rw [okb, okb]
    show Except.ok _ = Except.ok _
    congr 1
    dsimp only
    rw [set_names _ _ (by simpa using varying_ne names x hl hv), regi_eq]
    unfold promised
    congr 1
    · split_ifs <;> simp
    · cases c <;> rfl
    
/-- C190 for GM_Lag_Endog_Regimes, if every regressor varies and `x` is two-dimensional. -/
theorem C190_lag_partial (n : ℕ) (x : List Col) (names : List String) (hx : ∀ c ∈ x, c ≠ []) (hl : names.length = x.length) (h0 : x ≠ [])
    (hv : ∀ c ∈ x, ∃ a ∈ c, ∃ b ∈ c, a ≠ b) (constantRegi : String) (cols2regi : Option (List Bool)) (regimeErrSep : Bool) (quorum : ℤ) (nClusters : ℕ)
    (search : ℕ → List Col → Except SearchExc σ) :
    endogFit .lag n x false (some names) constantRegi cols2regi regimeErrSep quorum nClusters search =
      (runSearch n nClusters (quorumFor (varying names x).length quorum) fun q => search q ((varying names x).map (·.2))).map
        (promised .lag names x (decide (Default .lag constantRegi cols2regi regimeErrSep)) (quorumFor (varying names x).length quorum)) := by
  have f1 := first (n := n) x names hx hl
  have f2 := C51_idempotent n x names hx hl _ _ _ f1
  have hne := varying_ne names x hl (by
    cases x with
    | nil => exact absurd rfl h0
    | cons a x => exact ⟨a, by simp, hv a (by simp)⟩)
  have hc : (varying names x).map (·.2) = x := by
    rw [cols_eq names x hl, List.filter_eq_self]
    intro c hc; exact decide_eq_true (hv c hc)
  have hlen : (varying names x).length = x.length := by
    have := congrArg List.length hc
    rwa [List.length_map] at this
  unfold endogFit
  rw [f1, okb]
  dsimp only
  have hq : quorumArg .lag (List.map (·.2) (varying names x)).length x.length false quorum = .ok (quorumFor (varying names x).length quorum) := by
    rw [hlen, ← quorum_eq]
    unfold quorumArg
    simp
  rw [hq, okb]
  have hf : finalX .lag x (List.map (·.2) (varying names x)) = List.map (·.2) (varying names x) := hc.symm
  rw [hf, f2]
  cases runSearch n nClusters (quorumFor (varying names x).length quorum) fun q => search q ((varying names x).map (·.2)) with
  | error e => rfl
  | ok s =>
    rw [okb, okb]
    show Except.ok _ = Except.ok _
    congr 1
    dsimp only
    rw [set_names _ _ (by simpa using hne), regi_eq]
    unfold promised
    congr 1
    · split_ifs <;> simp

theorem pick_fail (l : List String) (idx : List ℕ) (i : ℕ) (hi : i ∈ idx) (h : l.length ≤ i) : pickNames l idx = .error .indexError := by
  unfold pickNames
  induction idx with
  | nil => cases hi
  | cons j idx ih =>
    rw [List.mapM_cons]
    cases hj : l[j]? with
    | none => rfl
    | some s =>
      have hne : i ≠ j := by
        rintro rfl
        rw [List.getElem?_eq_none h] at hj
        cases hj
      have := ih (by
        rcases List.mem_cons.1 hi with h1 | h1
        · exact absurd h1 hne
        · exact h1)
      rw [this]; rfl

/-- C190 fails for GM_Lag_Endog_Regimes: named regressors, one of which is constant (while another varies), never give a model, although the constant
one has been announced as removed; after a search that succeeded the call ends in an IndexError. -/
theorem C190_lag_constant_violated (n : ℕ) (x : List Col) (oneDim : Bool) (names : List String) (hx : ∀ c ∈ x, c ≠ []) (hl : names.length = x.length)
    (hc : ∃ c ∈ x, ∀ a ∈ c, ∀ b ∈ c, a = b)
    (hv : ∃ c ∈ x, ∃ a ∈ c, ∃ b ∈ c, a ≠ b) (constantRegi : String) (cols2regi : Option (List Bool)) (regimeErrSep : Bool) (quorum : ℤ) (nClusters : ℕ)
    (search : ℕ → List Col → Except SearchExc σ) :
    (∀ f, endogFit .lag n x oneDim (some names) constantRegi cols2regi regimeErrSep quorum nClusters search ≠ .ok f) ∧
    ∀ q s, quorumArg .lag (varying names x).length x.length oneDim quorum = .ok q → runSearch n nClusters q (fun q => search q ((varying names x).map (·.2))) = .ok s →
      endogFit .lag n x oneDim (some names) constantRegi cols2regi regimeErrSep quorum nClusters search = .error .indexError := by
  have f1 := first (n := n) x names hx hl
  have hne := varying_ne names x hl hv
  have hbad : checkConstant n x (some ((varying names x).map (·.1))) true = .error .indexError := by
    obtain ⟨zero, pos, hz, hp, hzero, hpos, hd⟩ := checkConstant_core n x true hx
    rw [hd]
    have hlt : (varying names x).length < x.length := by
      have := congrArg List.length (cols_eq names x hl)
      rw [List.length_map] at this
      rw [this]
      refine lt_of_le_of_ne (List.length_filter_le _ _) fun h => ?_
      obtain ⟨c, hc, hcc⟩ := hc
      have := List.filter_eq_self.1 (List.length_filter_eq_length_iff.1 h |> fun h => List.filter_eq_self.2 h) c hc
      rw [decide_eq_true_eq] at this
      obtain ⟨a, ha, b, hb, hab⟩ := this
      exact hab (hcc a ha b hb)
    have hz0 : zero ≠ [] := by
      obtain ⟨c, hc, hcc⟩ := hc
      obtain ⟨i, hi, rfl⟩ := List.mem_iff_getElem.1 hc
      have : i ∈ zero := by
        rw [hz, List.mem_filter, List.mem_range, hzero i hi]
        refine ⟨hi, decide_eq_true fun ⟨a, ha, b, hb, hab⟩ => hab (hcc a ha b hb)⟩
      exact List.ne_nil_of_mem this
    have hlast : x.length - 1 < x.length := by omega
    unfold constNames
    rw [if_pos hz0]
    cases hm : (varying names x).map (·.1) with
    | nil => exact absurd (by simpa using hm) hne
    | cons s ss =>
      dsimp only
      have hle : (s :: ss).length ≤ x.length - 1 := by
        rw [← hm, List.length_map]; omega
      by_cases hvl : Varies x[x.length - 1]
      · have : x.length - 1 ∈ pos := by
          rw [hp, List.mem_filter, List.mem_range, hpos _ hlast]
          exact ⟨hlast, decide_eq_true hvl⟩
        rw [pick_fail _ pos _ this hle]
        cases hpz : pickNames (s :: ss) zero with
        | ok r => rfl
        | error e =>
          have : e = .indexError := by
            by_cases h : ∃ i ∈ zero, (s :: ss).length ≤ i
            · obtain ⟨i, hi, h⟩ := h
              rw [pick_fail _ zero i hi h] at hpz
              cases hpz; rfl
            · push Not at h
              rw [pickNames_ok _ _ h] at hpz
              cases hpz
          rw [this]; rfl
      · have : x.length - 1 ∈ zero := by
          rw [hz, List.mem_filter, List.mem_range, hzero _ hlast]
          exact ⟨hlast, decide_eq_true hvl⟩
        rw [pick_fail _ zero _ this hle]
        rfl
  have main : ∀ q s, quorumArg .lag (varying names x).length x.length oneDim quorum = .ok q → runSearch n nClusters q (fun q => search q ((varying names x).map (·.2))) = .ok s →
      endogFit .lag n x oneDim (some names) constantRegi cols2regi regimeErrSep quorum nClusters search = .error .indexError := by
    intro q s h1 h2
    unfold endogFit
    rw [f1, okb]
    dsimp only
    rw [List.length_map, h1, okb, h2, okb]
    show (checkConstant n x (some ((varying names x).map (·.1))) true >>= _) = _
    rw [hbad]; rfl
  refine ⟨fun f hf => ?_, main⟩
  cases h1 : quorumArg .lag (varying names x).length x.length oneDim quorum with
  | error e =>
    unfold endogFit at hf
    rw [f1, okb] at hf
    dsimp only at hf
    rw [List.length_map, h1] at hf
    cases hf
  | ok q =>
    cases h2 : runSearch n nClusters q (fun q => search q ((varying names x).map (·.2))) with
    | error e =>
      unfold endogFit at hf
      rw [f1, okb] at hf
      dsimp only at hf
      rw [List.length_map, h1, okb, h2] at hf
      cases hf
    | ok s => rw [main q s h1 h2] at hf; cases hf

/-- C190 fails for GM_Lag_Endog_Regimes: without names the removal of the same constant regressors is announced twice. -/
theorem C190_lag_warning_violated (n : ℕ) (x : List Col) (hx : ∀ c ∈ x, c ≠ []) (hc : ∃ c ∈ x, ∀ a ∈ c, ∀ b ∈ c, a = b) (regimeErrSep : Bool) (quorum : ℕ) (nClusters : ℕ)
    (search : ℕ → List Col → Except SearchExc σ) (f : Fit σ)
    (hf : endogFit .lag n x false none "many" none false quorum nClusters search = .ok f) :
    ∃ k, 0 < k ∧ f.warnings = [.const (.count k), .const (.count k)] := by
  obtain ⟨w, h, h1, h2⟩ := C51_no_names n x true hx
  obtain ⟨c, hc, hcc⟩ := hc
  have hnv : ¬ Varies c := fun ⟨a, ha, b, hb, hab⟩ => hab (hcc a ha b hb)
  cases w with
  | none => exact absurd (h1.1 rfl c hc) hnv
  | some r =>
    refine ⟨(x.filter fun c => ¬ Varies c).length, List.length_pos_of_mem (List.mem_filter.2 ⟨hc, decide_eq_true hnv⟩), ?_⟩
    unfold endogFit at hf
    rw [h, okb] at hf
    dsimp only at hf
    cases hq : quorumArg .lag ((if true = true then [] else [List.replicate n 1]) ++ x.filter (fun c => Varies c)).length x.length false quorum with
    | error e => rw [hq] at hf; cases hf
    | ok q =>
      rw [hq, okb] at hf
      cases hs : runSearch n nClusters q fun q => search q ((if true = true then [] else [List.replicate n 1]) ++ x.filter (fun c => Varies c)) with
      | error e => rw [hs] at hf; cases hf
      | ok s =>
        rw [hs, okb] at hf
        have e : finalX .lag x ((if true = true then [] else [List.replicate n 1]) ++ x.filter (fun c => Varies c)) = x := rfl
        rw [e, h, okb] at hf
        cases hf
        rw [h2 r rfl]
        rfl

/-- C190: the options of the final model are always the documented ones, and the warning about options appears exactly if an option was
given another value. -/
theorem C190_options (c : Cls) (n : ℕ) (x : List Col) (oneDim : Bool) (names : Option (List String)) (constantRegi : String)
    (cols2regi : Option (List Bool)) (regimeErrSep : Bool) (quorum : ℤ) (nClusters : ℕ) (search : ℕ → List Col → Except SearchExc σ) (f : Fit σ)
    (hf : endogFit c n x oneDim names constantRegi cols2regi regimeErrSep quorum nClusters search = .ok f) :
    Default c f.constantRegi f.cols2regi f.regimeErrSep ∧
    ((∃ b, Warn.regi b ∈ f.warnings) ↔ ¬ Default c constantRegi cols2regi regimeErrSep) := by
  unfold endogFit at hf
  cases h1 : checkConstant n x names true with
  | error e => rw [h1] at hf; cases hf
  | ok c1 =>
    rw [h1, okb] at hf
    dsimp only at hf
    cases h2 : quorumArg c c1.1.length x.length oneDim quorum with
    | error e => rw [h2] at hf; cases hf
    | ok q =>
      rw [h2, okb] at hf
      cases h3 : runSearch n nClusters q fun q => search q c1.1 with
      | error e => rw [h3] at hf; cases hf
      | ok s =>
        rw [h3, okb] at hf
        cases h4 : checkConstant n (finalX c x c1.1) c1.2.1 true with
        | error e => rw [h4] at hf; cases hf
        | ok c2 =>
          rw [h4, okb] at hf
          cases hf
          refine ⟨?_, ?_⟩
          · cases c <;> exact ⟨rfl, rfl, rfl⟩
          · dsimp only
            rw [regi_eq]
            by_cases hd : Default c constantRegi cols2regi regimeErrSep
            · simp [hd]
            · simp [hd]

/-- C190 fails for all three classes: with `n_clusters` every exception of the search but one (for example the ValueError of `Skater_reg.fit` for a score that
increases) reaches the caller as an UnboundLocalError. -/
theorem C190_failure_violated (n nClusters q : ℕ) (hn : 0 < nClusters) (e : PyErr) (search : ℕ → Except SearchExc σ) (he : search q = .error (.other e)) :
    runSearch n nClusters q search = .error .unboundLocal := by
  unfold runSearch
  rw [if_neg hn.ne', he]

/-- C190 fails for GM_Lag_Endog_Regimes: a single regressor passed as a Series or one-dimensional array gives an IndexError with the default quorum. -/
theorem C190_one_dim_violated (n : ℕ) (c : Col) (hc : c ≠ []) (names : Option (List String)) (hnames : ∀ l, names = some l → l.length = 1)
    (quorum : ℤ) (hq : quorum < 0) (nClusters : ℕ) (search : ℕ → List Col → Except SearchExc σ) (constantRegi : String) (cols2regi : Option (List Bool)) (regimeErrSep : Bool) :
    endogFit .lag n [c] true names constantRegi cols2regi regimeErrSep quorum nClusters search = .error .indexError := by
  have hx : ∀ d ∈ [c], d ≠ [] := by simpa using hc
  have : ∃ r, checkConstant n [c] names true = .ok r := by
    cases names with
    | none => obtain ⟨w, h, -⟩ := C51_no_names n [c] true hx; exact ⟨_, h⟩
    | some l => obtain ⟨w, h, -⟩ := C51_check_constant n [c] l true hx (by rw [hnames l rfl]; rfl); exact ⟨_, h⟩
  obtain ⟨r, h⟩ := this
  unfold endogFit
  rw [h, okb]
  dsimp only
  unfold quorumArg
  simp only
  rw [if_pos ⟨hq, trivial⟩]
  rfl

/-- C190: with `n_clusters`, a search that runs out of observations is reported as a ValueError; without, every exception of the
search reaches the caller as it is (`Exception` for too few observations). -/
theorem C190_failure_partial (n nClusters q : ℕ) (search : ℕ → Except SearchExc σ) :
    (0 < nClusters → search q = .error .tooManyColumns → runSearch n nClusters q search = .error .valueError) ∧
    (∀ e, nClusters = 0 → 0 < q → 2 ≤ 7 * n / (10 * q) → search q = .error (.other e) → runSearch n nClusters q search = .error e) ∧
    (∀ s, 0 < nClusters → search q = .ok s → runSearch n nClusters q search = .ok s) ∧
    (nClusters = 0 → 0 < q → 7 * n / (10 * q) < 2 → runSearch n nClusters q search = .error .valueError) := by
  refine ⟨fun h1 h2 => ?_, fun e h1 h2 h3 h4 => ?_, fun s h1 h2 => ?_, fun h1 h2 h3 => ?_⟩
  · unfold runSearch; rw [if_neg h1.ne', h2]
  · unfold runSearch Endog.nOpt; rw [if_pos h1, if_neg h2.ne', if_neg (by omega), h4]
  · unfold runSearch; rw [if_neg h1.ne', h2]
  · unfold runSearch Endog.nOpt; rw [if_pos h1, if_neg h2.ne', if_pos h3]

/-- A regressor that is constant and one that varies. -/
theorem ex_varying : varying ["one", "a"] [[1, 1, 1], [1, 2, 3]] = [("a", [1, 2, 3])] ∧ constants ["one", "a"] [[1, 1, 1], [1, 2, 3]] = ["one"] := by
  have h1 : ¬ TwoValues [1, 1, 1] := by rintro ⟨a, ha, b, hb, h⟩; simp at ha hb; exact h (ha.trans hb.symm)
  have h2 : TwoValues [1, 2, 3] := ⟨1, by simp, 2, by simp, by norm_num⟩
  constructor
  · simp [varying, h1, h2]
  · simp [constants, h1, h2]

/-- OLS_Endog_Regimes on these regressors: quorum 30, the names of the varying regressor, both warnings. -/
example : endogFit .ols 3 [[1, 1, 1], [1, 2, 3]] false (some ["one", "a"]) "one" none true (-1) 2 (fun q _ => .ok q) =
    .ok ⟨30, 30, [[1, 2, 3]], ["a"], [.const (.names ["one"]), .regi true], "many", none, true⟩ := by
  rw [C190_names .ols (by decide) 3 _ false _ (by simp) rfl ⟨[1, 2, 3], by simp, 1, by simp, 2, by simp, by norm_num⟩, ex_varying.1]
  have : ¬ Default .ols "one" none true := fun h => by simpa using h.1
  rw [decide_eq_false this]
  simp [runSearch, quorumFor, Except.map, promised, ex_varying.1, ex_varying.2]

/-- GM_Lag_Endog_Regimes on the same regressors. -/
example : endogFit .lag 3 [[1, 1, 1], [1, 2, 3]] false (some ["one", "a"]) "many" none false (-1) 2 (fun q _ => .ok q) = .error .indexError :=
  (C190_lag_constant_violated 3 _ false _ (by simp) rfl ⟨[1, 1, 1], by simp, by simp⟩ ⟨[1, 2, 3], by simp, 1, by simp, 2, by simp, by norm_num⟩ _ _ _ _ _ _).2 30 30
    rfl rfl

/-- Without names: the model is estimated, with two warnings. -/
example : ∃ f, endogFit .lag 3 [[1, 1, 1], [1, 2, 3]] false none "many" none false 10 2 (fun q _ => (.ok q : Except SearchExc ℕ)) = .ok f := by
  have hx : ∀ c ∈ ([[1, 1, 1], [1, 2, 3]] : List Col), c ≠ [] := by simp
  obtain ⟨w, h, -⟩ := C51_no_names 3 _ true hx
  unfold endogFit
  rw [h, okb]
  dsimp only
  have e : ∀ z, finalX .lag [[1, 1, 1], [1, 2, 3]] z = [[1, 1, 1], [1, 2, 3]] := fun _ => rfl
  rw [show ∀ k, quorumArg .lag k [[(1 : ℝ), 1, 1], [1, 2, 3]].length false 10 = .ok 10 from fun _ => rfl, okb, show runSearch 3 2 10 (fun q => (.ok q : Except SearchExc ℕ)) = .ok 10 from rfl, okb, e, h, okb]
  exact ⟨_, rfl⟩

end Spreg.EndogArgs
