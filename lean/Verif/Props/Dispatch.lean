import Verif.Props.Regimes2
import Verif.Model.Dispatch
/-
Property C153: an option of a regimes class is honoured, or an exception or a warning says that it is not.
-/
namespace Spreg.Dispatch
open Spreg Spreg.Regimes

/-! ### Specification -/

/-- One flag per variable: `cols2regi`, "all" standing for True everywhere. -/
def flags : Cols2Regi → Nat → List Bool
  | .all, k => List.replicate k true
  | .list l, _ => l

/-- The flags asked for: constant, columns of x, endogenous variables. -/
def Opts.want (o : Opts) : List Bool := o.many :: flags o.c2r (o.kx + o.kend)

/-- The error variance is by regime exactly if asked for, or a warning says that the option was changed, and how. -/
def ErrOk (o : Opts) (d : Done) : Prop :=
  d.errBy = o.errSep ∨ (d.errBy = true ∧ .errOn ∈ d.warns) ∨ (d.errBy = false ∧ .errOff ∈ d.warns)

/-- The coefficients vary as asked for, or a warning says that all of them do. -/
def VaryOk (o : Opts) (d : Done) : Prop :=
  d.vary = o.want ∨ (.colsAll ∈ d.warns ∧ ∀ b ∈ d.vary, b = true)

/-- The spatial lag: coefficient by regime exactly if asked for; by regime, it is a lag within the regime; the reduced form uses the
weights of the estimation. -/
def LagOk (o : Opts) (d : Done) : Prop :=
  ∃ w, d.lag = some ⟨o.lagSep, w, some w⟩ ∧ (w = .trimmed ↔ o.lagSep = true)

/-- Warnings are true: the error variance is (or, after a second warning, is not) as they say, `colsAll` is only issued if some
coefficient was not to vary. -/
def Truthful (o : Opts) (d : Done) : Prop :=
  (.errOn ∈ d.warns → d.errBy = true ∨ .errOff ∈ d.warns) ∧ (.errOff ∈ d.warns → d.errBy = false) ∧
    (.colsAll ∈ d.warns → ∃ b ∈ o.want, b = false)

/-- An exception, or a result that satisfies `P`. -/
def OrRaises (r : Py Done) (P : Done → Prop) : Prop := ∀ d, r = .ok d → P d

/-! ### Lemmas -/

theorem check_eq (o : Opts) (c2r : Cols2Regi) (k : Nat) (ac : Bool) :
    checkCols2regi o.const c2r k ac =
      if (flags c2r k).length = k then .ok ((if ac then [o.many] else []) ++ flags c2r k) else .error .exception := by
  have := C62_check_cols2regi o.many c2r k ac
  cases c2r <;> exact this

theorem check_ok (o : Opts) (c2r : Cols2Regi) (k : Nat) (ac : Bool) (l : List Bool)
    (h : checkCols2regi o.const c2r k ac = .ok l) :
    (flags c2r k).length = k ∧ l = (if ac then [o.many] else []) ++ flags c2r k := by
  rw [check_eq] at h
  by_cases hk : (flags c2r k).length = k
  · rw [if_pos hk] at h; exact ⟨hk, (Except.ok.inj h).symm⟩
  · rw [if_neg hk] at h; cases h

theorem allTrue_iff (l : List Bool) : allTrue l = true ↔ l ≠ [] ∧ l = List.replicate l.length true := by
  unfold allTrue
  rw [decide_eq_true_iff, List.eq_replicate_iff]
  simp

theorem bind_ok {α β : Type} {a : Py α} {f : α → Py β} {b : β} (h : (a >>= f) = .ok b) : ∃ v, a = .ok v ∧ f v = .ok b := by
  cases a with
  | error e => cases h
  | ok v => exact ⟨v, rfl, h⟩

theorem wx_mem (o : Opts) (w : Warn) : w ∈ wxWarn o → w = .wxFull := by
  unfold wxWarn; split <;> simp_all

theorem truthful_of (o : Opts) (d : Done) (h : ∀ w ∈ d.warns, w = .wxFull) : Truthful o d := by
  refine ⟨?_, ?_, ?_⟩ <;> intro hm <;> exact absurd (h _ hm) (by decide)

/-! ### The classes -/

/-- C153: the spatial error classes `GM_Error_Regimes`, `GM_Error_Het_Regimes`, `GM_Error_Hom_Regimes`, `ML_Error_Regimes`. -/
theorem C153_error (o : Opts) (hk : o.kend = 0) :
    OrRaises (errorRegimes o) fun d => d.errBy = o.errSep ∧ d.vary = o.want ∧ Truthful o d := by
  intro d h
  obtain ⟨cols, hc, h⟩ := bind_ok h
  obtain ⟨hl, rfl⟩ := check_ok _ _ _ _ _ hc
  have hw : o.want = [o.many] ++ flags o.c2r o.kx := by unfold Opts.want; rw [hk]; rfl
  simp only [if_true, ← hw] at h
  split at h
  · next he =>
    split at h
    · next ha =>
      obtain rfl := Except.ok.inj h
      refine ⟨he.symm, ?_, truthful_of _ _ (wx_mem o)⟩
      have := ((allTrue_iff _).mp ha).2
      rw [this]
      rw [hw, List.length_append, hl]; rfl
    · cases h
  · next he =>
    obtain rfl := Except.ok.inj h
    exact ⟨by simpa using he, rfl, truthful_of _ _ (wx_mem o)⟩

/-- C153: `GM_Endog_Error_Regimes`, `GM_Endog_Error_Het_Regimes`, `GM_Endog_Error_Hom_Regimes`. -/
theorem C153_endog (o : Opts) :
    OrRaises (endogErrorRegimes o) fun d => d.errBy = o.errSep ∧ d.vary = o.want ∧ Truthful o d := by
  intro d h
  obtain ⟨cols, hc, h⟩ := bind_ok h
  obtain ⟨hl, rfl⟩ := check_ok _ _ _ _ _ hc
  have hw : o.want = [o.many] ++ flags o.c2r (o.kx + o.kend) := rfl
  simp only [if_true, ← hw] at h
  split at h
  · next he =>
    split at h
    · next ha =>
      obtain rfl := Except.ok.inj h
      refine ⟨he.symm, ?_, truthful_of _ _ (by simp)⟩
      have := ((allTrue_iff _).mp ha).2
      rw [this]
      rw [hw, List.length_append, hl]; rfl
    · cases h
  · next he =>
    obtain rfl := Except.ok.inj h
    exact ⟨by simpa using he, rfl, truthful_of _ _ (by simp)⟩

/-- C153: `ML_Lag_Regimes`. -/
theorem C153_mlLag (o : Opts) (hk : o.kend = 0) :
    OrRaises (mlLagRegimes o) fun d => d.errBy = o.lagSep ∧ d.vary = o.want ∧ LagOk o d ∧ Truthful o d := by
  intro d h
  obtain ⟨cols, hc, h⟩ := bind_ok h
  obtain ⟨hl, rfl⟩ := check_ok _ _ _ _ _ hc
  have hw : o.want = o.many :: flags o.c2r o.kx := by unfold Opts.want; rw [hk]; rfl
  simp only [Bool.false_eq_true, if_false, List.nil_append] at h
  split at h
  · next he =>
    split at h
    · cases h
    · next ha =>
      obtain rfl := Except.ok.inj h
      have ha := not_not.mp ha
      refine ⟨he.symm, ?_, ⟨.trimmed, by rw [he], by simp [he]⟩, truthful_of _ _ (wx_mem o)⟩
      have := ((allTrue_iff _).mp ha.1).2
      rw [hl] at this
      rw [hw, ha.2, this]
  · next he =>
    obtain rfl := Except.ok.inj h
    have he : o.lagSep = false := by simpa using he
    exact ⟨he.symm, hw.symm, ⟨.full, by rw [he], by simp [he]⟩, truthful_of _ _ (wx_mem o)⟩

theorem hac_cases (r : Robust) (e : Bool) :
    (hacClause r e = (e, []) ∧ (r = .hac → e = false)) ∨ (hacClause r e = (false, [.errOff]) ∧ e = true ∧ r = .hac) := by
  unfold hacClause
  split
  · next h => exact Or.inr ⟨rfl, h.2, h.1⟩
  · next h =>
    refine Or.inl ⟨rfl, fun hr => ?_⟩
    cases e
    · rfl
    · exact absurd ⟨hr, rfl⟩ h

/-- All that `TSLS_Regimes` decides. -/
theorem tsls_eq (o : Opts) : OrRaises (tslsRegimes o) fun d =>
    d.vary = o.want ∧ (flags o.c2r (o.kx + o.kend)).length = o.kx + o.kend ∧
    d.errBy = (o.errSep && decide (o.robust ≠ .hac) && o.many && allTrue (flags o.c2r (o.kx + o.kend))) ∧
    d.warns = (hacClause o.robust o.errSep).2 ++ wxWarn o := by
  intro d h
  unfold tslsRegimes at h
  rcases hac_cases o.robust o.errSep with ⟨hh, hr⟩ | ⟨hh, he, hr⟩ <;> rw [hh] at h ⊢
  all_goals
    obtain ⟨cols, hc, h⟩ := bind_ok h
    obtain ⟨hl, rfl⟩ := check_ok _ _ _ _ _ hc
    have hw : o.want = o.many :: flags o.c2r (o.kx + o.kend) := rfl
    simp only [Bool.false_eq_true, if_false, List.nil_append] at h
    generalize flags o.c2r (o.kx + o.kend) = fl at *
  · split at h
    · next ha =>
      obtain rfl := Except.ok.inj h
      have := ((allTrue_iff _).mp ha.2.1).2
      rw [hl] at this
      refine ⟨?_, hl, ?_, rfl⟩
      · rw [hw, ha.2.2, this]
      · simp only [ha.1, ha.2.1, ha.2.2, Bool.and_true, Bool.true_and]
        have : o.robust ≠ .hac := fun e => by rw [hr e] at ha; exact absurd ha.1 (by simp)
        simp [this]
    · next ha =>
      obtain rfl := Except.ok.inj h
      refine ⟨hw.symm, hl, ?_, rfl⟩
      cases h1 : o.errSep <;> cases h2 : o.many <;> cases h3 : allTrue fl <;> simp_all
  · obtain rfl := Except.ok.inj h
    refine ⟨hw.symm, hl, ?_, rfl⟩
    simp [hr]

/-- C153: `TSLS_Regimes`. `_partial`: when `regime_err_sep` is asked for, all coefficients must vary (or HAC is used, which warns). -/
theorem C153_tsls_partial (o : Opts) (h : o.errSep = true → o.robust = .hac ∨ ∀ b ∈ o.want, b = true) (hk : o.kx + o.kend ≠ 0) :
    OrRaises (tslsRegimes o) fun d => ErrOk o d ∧ d.vary = o.want ∧ Truthful o d := by
  intro d hd
  obtain ⟨hv, hl, he, hw⟩ := tsls_eq o d hd
  rcases hac_cases o.robust o.errSep with ⟨hh, hr⟩ | ⟨hh, hes, hr⟩
  · rw [hh] at hw
    have : d.errBy = o.errSep := by
      rw [he]
      cases h1 : o.errSep with
      | false => rfl
      | true =>
        have hn : o.robust ≠ .hac := fun e => by rw [hr e] at h1; cases h1
        have hall := (h h1).resolve_left hn
        have hm : o.many = true := hall _ List.mem_cons_self
        have ha : allTrue (flags o.c2r (o.kx + o.kend)) = true := by
          unfold allTrue
          rw [decide_eq_true_iff]
          refine ⟨fun e => hk (by rw [← hl, e]; rfl), fun b hb => hall b (List.mem_cons_of_mem _ hb)⟩
        simp [hn, hm, ha]
    exact ⟨Or.inl this, hv, truthful_of _ _ (by rw [hw]; simpa using fun w hw => wx_mem o w hw)⟩
  · rw [hh] at hw
    have hf : d.errBy = false := by rw [he, hr]; simp
    have hm : Warn.errOff ∈ d.warns := by rw [hw]; simp
    refine ⟨Or.inr (Or.inr ⟨hf, hm⟩), hv, fun _ => Or.inr hm, fun _ => hf, fun hc => ?_⟩
    rw [hw] at hc
    rcases List.mem_append.mp hc with hc | hc
    · simp at hc
    · exact absurd (wx_mem o _ hc) (by decide)

/-- C153 is violated by `TSLS_Regimes`: with a coefficient common to the regimes, `regime_err_sep=True` is dropped without a word. -/
theorem C153_tsls_violated (o : Opts) (he : o.errSep = true) (hr : o.robust ≠ .hac)
    (hl : (flags o.c2r (o.kx + o.kend)).length = o.kx + o.kend) (hf : ∃ b ∈ o.want, b = false) :
    ∃ d, tslsRegimes o = .ok d ∧ d.errBy = false ∧ (∀ w ∈ d.warns, w = .wxFull) ∧ ¬ ErrOk o d := by
  have hh : hacClause o.robust o.errSep = (o.errSep, []) := by
    rcases hac_cases o.robust o.errSep with ⟨hh, -⟩ | ⟨-, -, h⟩
    · exact hh
    · exact absurd h hr
  have hex : ∃ d, tslsRegimes o = .ok d := by
    unfold tslsRegimes
    rw [check_eq, if_pos hl, hh]
    by_cases hc : o.errSep = true ∧ allTrue ([] ++ flags o.c2r (o.kx + o.kend)) = true ∧ o.many = true
    · exact ⟨_, if_pos hc⟩
    · exact ⟨_, if_neg hc⟩
  obtain ⟨d, hd⟩ := hex
  obtain ⟨hv, -, heb, hw⟩ := tsls_eq o d hd
  rw [hh] at hw
  have hwx : ∀ w ∈ d.warns, w = .wxFull := by rw [hw]; simpa using fun w hw => wx_mem o w hw
  have hfalse : d.errBy = false := by
    rw [heb]
    cases hm : o.many with
    | false => simp
    | true =>
      have : allTrue (flags o.c2r (o.kx + o.kend)) = false := by
        cases ha : allTrue (flags o.c2r (o.kx + o.kend)) with
        | false => rfl
        | true =>
          obtain ⟨b, hb, hbf⟩ := hf
          unfold allTrue at ha
          rw [decide_eq_true_iff] at ha
          rcases List.mem_cons.mp hb with hb | hb
          · rw [hm] at hb; rw [hb] at hbf; cases hbf
          · rw [ha.2 b hb] at hbf; cases hbf
      simp [this]
  refine ⟨d, hd, hfalse, hwx, ?_⟩
  rintro (h | h | h)
  · rw [hfalse, he] at h; cases h
  · exact absurd (hwx _ h.2) (by decide)
  · exact absurd (hwx _ h.2) (by decide)

/-- All that `OLS_Regimes` decides. -/
theorem ols_eq (o : Opts) : OrRaises (olsRegimes o) fun d =>
    d.vary = o.many :: flags o.c2r o.kx ∧ (flags o.c2r o.kx).length = o.kx ∧
    d.errBy = (o.errSep && (decide (o.robust = .none) ||
      (decide (o.robust ≠ .hac) && o.many && allTrue (flags o.c2r o.kx)))) ∧
    d.warns = (hacClause o.robust o.errSep).2 ++ wxWarn o := by
  intro d h
  unfold olsRegimes at h
  rcases hac_cases o.robust o.errSep with ⟨hh, hr⟩ | ⟨hh, he, hr⟩ <;> rw [hh] at h ⊢
  all_goals
    obtain ⟨cols, hc, h⟩ := bind_ok h
    obtain ⟨hl, rfl⟩ := check_ok _ _ _ _ _ hc
    simp only [Bool.false_eq_true, if_false, List.nil_append] at h
    generalize flags o.c2r o.kx = fl at *
  · split at h
    · next ha =>
      obtain rfl := Except.ok.inj h
      have := ((allTrue_iff _).mp ha.2.1).2
      rw [hl] at this
      refine ⟨?_, hl, ?_, rfl⟩
      · rw [ha.2.2, this]
      · simp only [ha.1, ha.2.1, ha.2.2, Bool.and_true, Bool.true_and]
        have : o.robust ≠ .hac := fun e => by rw [hr e] at ha; exact absurd ha.1 (by simp)
        simp [this]
    · next ha =>
      obtain rfl := Except.ok.inj h
      refine ⟨rfl, hl, ?_, rfl⟩
      cases h1 : o.errSep <;> cases h2 : o.many <;> cases h3 : allTrue fl <;> simp_all
  · obtain rfl := Except.ok.inj h
    refine ⟨rfl, hl, ?_, rfl⟩
    simp [hr]

/-- C153: `OLS_Regimes`. `_partial`: with `regime_err_sep` and White standard errors all coefficients must vary. -/
theorem C153_ols_partial (o : Opts) (hk : o.kend = 0) (hx : o.kx ≠ 0)
    (h : o.errSep = true → o.robust = .none ∨ o.robust = .hac ∨ ∀ b ∈ o.want, b = true) :
    OrRaises (olsRegimes o) fun d => ErrOk o d ∧ d.vary = o.want ∧ Truthful o d := by
  intro d hd
  obtain ⟨hv, hl, he, hw⟩ := ols_eq o d hd
  have hwant : o.want = o.many :: flags o.c2r o.kx := by unfold Opts.want; rw [hk]; rfl
  rw [← hwant] at hv
  rcases hac_cases o.robust o.errSep with ⟨hh, hr⟩ | ⟨hh, hes, hr⟩
  · rw [hh] at hw
    have : d.errBy = o.errSep := by
      rw [he]
      cases h1 : o.errSep with
      | false => rfl
      | true =>
        have hn : o.robust ≠ .hac := fun e => by rw [hr e] at h1; cases h1
        rcases h h1 with h2 | h2 | hall
        · simp [h2]
        · exact absurd h2 hn
        · have hm : o.many = true := hall _ List.mem_cons_self
          have ha : allTrue (flags o.c2r o.kx) = true := by
            unfold allTrue
            rw [decide_eq_true_iff]
            refine ⟨fun e => hx (by rw [← hl, e]; rfl), fun b hb => hall b ?_⟩
            rw [hwant]
            exact List.mem_cons_of_mem _ hb
          simp [hn, hm, ha]
    exact ⟨Or.inl this, hv, truthful_of _ _ (by rw [hw]; simpa using fun w hw => wx_mem o w hw)⟩
  · rw [hh] at hw
    have hf : d.errBy = false := by rw [he, hr]; simp
    have hm : Warn.errOff ∈ d.warns := by rw [hw]; simp
    refine ⟨Or.inr (Or.inr ⟨hf, hm⟩), hv, fun _ => Or.inr hm, fun _ => hf, fun hc => ?_⟩
    rw [hw] at hc
    rcases List.mem_append.mp hc with hc | hc
    · simp at hc
    · exact absurd (wx_mem o _ hc) (by decide)

/-- C153 is violated by `OLS_Regimes`: one coefficient common to the regimes, White standard errors: `regime_err_sep=True` (the default)
is dropped without a word. -/
theorem C153_ols_violated :
    ∃ d, olsRegimes ⟨true, false, true, .list [true, false], 2, 0, 0, .white⟩ = .ok d ∧
      d.errBy = false ∧ d.warns = [] := ⟨_, rfl, rfl, rfl⟩

/-! ### Spatial lag models -/

/-- After the two clauses the error is by regime exactly if the lag is. -/
theorem sep_eq (lagSep errSep : Bool) : sepClause lagSep errSep =
    (lagSep, if lagSep && !errSep then [Warn.errOn] else if errSep && !lagSep then [Warn.errOff] else []) := by
  cases lagSep <;> cases errSep <;> rfl

theorem sep_mem : ∀ l e, Warn.colsAll ∉ (sepClause l e).2 := by decide

theorem lagCols_ok (o : Opts) (cols : List Bool)
    (h : (if o.slx > 0 then
      match o.c2r with
      | .all => do return (← checkCols2regi o.const o.c2r (o.kx + (o.kend + 1)) false).dropLast
      | .list _ => checkCols2regi o.const o.c2r (o.kx + (o.kend + 1)) false
    else checkCols2regi o.const o.c2r (o.kx + o.kend) false : Py (List Bool)) = .ok cols) :
    (cols = flags o.c2r (o.kx + o.kend) ∧ cols.length = o.kx + o.kend) ∨
      (o.slx > 0 ∧ o.c2r ≠ .all ∧ cols.length = o.kx + o.kend + 1) := by
  split at h
  · next hs =>
    cases hc : o.c2r with
    | all =>
      rw [hc] at h
      obtain ⟨l, hl, h⟩ := bind_ok h
      obtain ⟨-, rfl⟩ := check_ok _ _ _ _ _ hl
      obtain rfl := Except.ok.inj h
      left
      simp [flags, ← Nat.add_assoc, List.dropLast_replicate]
    | list l =>
      rw [hc] at h
      obtain ⟨hl, rfl⟩ := check_ok _ _ _ _ _ h
      right
      exact ⟨hs, by simp, by rw [Nat.add_assoc]; simpa [flags] using hl⟩
  · obtain ⟨hl, rfl⟩ := check_ok _ _ _ _ _ h
    left
    simpa using hl

theorem gmLag_eq (o : Opts) (d : Done) (hd : gmLagRegimes o = .ok d) :
    ∃ e3 w3, hacClause o.robust o.lagSep = (e3, w3) ∧
      (flags o.c2r (o.kx + o.kend)).length = o.kx + o.kend ∧
      (o.slx > 0 → o.c2r = .all) ∧ d.vary = o.want ∧
      d.errBy = (e3 && o.many && allTrue (flags o.c2r (o.kx + o.kend) ++ [o.lagSep])) ∧
      d.lag = some ⟨o.lagSep, if o.lagSep ∧ o.slx = 0 then .trimmed else .full,
        some (if o.lagSep then .trimmed else .full)⟩ ∧
      d.warns = (sepClause o.lagSep o.errSep).2 ++ w3 ++ wxWarn o := by
  unfold gmLagRegimes at hd
  rw [sep_eq] at hd
  rcases hp : hacClause o.robust o.lagSep with ⟨e3, w3⟩
  refine ⟨e3, w3, rfl, ?_⟩
  simp only [hp] at hd
  obtain ⟨cols, hc, hd⟩ := bind_ok hd
  have he3 : e3 = true → o.lagSep = true ∧ o.robust ≠ .hac := by
    intro he
    rcases hac_cases o.robust o.lagSep with ⟨hh, hr⟩ | ⟨hh, -⟩
    · rw [hp] at hh
      have : o.lagSep = true := by rw [← he]; exact (congrArg Prod.fst hh).symm
      exact ⟨this, fun e => by rw [hr e] at this; cases this⟩
    · rw [hp] at hh
      rw [(Prod.mk.inj hh).1] at he; cases he
  have hwn : (hacClause o.robust e3).2 = [] := by
    rcases hac_cases o.robust e3 with ⟨hh, -⟩ | ⟨-, h1, h2⟩
    · rw [hh]
    · exact absurd h2 (he3 h1).2
  rcases lagCols_ok o cols hc with ⟨rfl, hl⟩ | ⟨hs, hne, hl⟩
  · have hs : o.slx > 0 → o.c2r = .all := by
      intro hs
      cases hcc : o.c2r with
      | all => rfl
      | list l =>
        rw [if_pos hs, hcc] at hc
        obtain ⟨hll, -⟩ := check_ok _ _ _ _ _ hc
        rw [hcc] at hl
        simp only [flags] at hl hll
        omega
    refine ⟨hl, hs, ?_⟩
    split at hd
    · next hm =>
      rw [if_neg (by simp [hl])] at hd
      obtain rfl := Except.ok.inj hd
      have hls : o.lagSep = true := (he3 hm.1).1
      have hall : flags o.c2r (o.kx + o.kend) = List.replicate (o.kx + o.kend) true := by
        have := hm.2.1
        unfold allTrue at this
        rw [decide_eq_true_iff] at this
        rw [List.eq_replicate_iff]
        exact ⟨hl, fun b hb => this.2 b (List.mem_append_left _ hb)⟩
      refine ⟨?_, ?_, ?_, ?_⟩
      · show _ = o.many :: flags o.c2r (o.kx + o.kend)
        rw [hm.2.2, hall]
      · rw [hm.1, hm.2.1, hm.2.2]; rfl
      · simp [hls]
      · rw [sep_eq]
    · next hm =>
      obtain ⟨t, ht, hd⟩ := bind_ok hd
      obtain rfl := Except.ok.inj hd
      obtain ⟨hv, -, he, hw⟩ := tsls_eq _ t ht
      have hv : t.vary = o.many :: flags o.c2r (o.kx + o.kend) ++ [o.lagSep] := hv
      have he : t.errBy = (e3 && decide (o.robust ≠ .hac) && o.many && allTrue (flags o.c2r (o.kx + o.kend) ++ [o.lagSep])) := he
      have hw : t.warns = (hacClause o.robust e3).2 ++ [] := hw
      rw [hwn] at hw
      refine ⟨?_, ?_, ?_, ?_⟩
      · show t.vary.dropLast = _
        rw [hv, List.dropLast_concat]; rfl
      · rw [he]
        cases he' : e3 with
        | false => simp
        | true => simp [(he3 he').2]
      · show some (Lag.mk (t.vary.getLast?.getD false) _ _) = _
        rw [hv, List.getLast?_concat]; rfl
      · rw [hw, sep_eq]; simp
  · exfalso
    split at hd
    · rw [if_pos (by simp; omega)] at hd
      cases hd
    · obtain ⟨t, ht, hd⟩ := bind_ok hd
      obtain ⟨-, hl2, -⟩ := tsls_eq _ t ht
      simp [flags] at hl2
      omega

/-- C153: `GM_Lag_Regimes`. `_partial`: for `regime_lag_sep` there must be no lagged regressors, and all coefficients must vary or
HAC be used. (With lagged regressors every flag list raises: `C153_lag_list_violated`.) -/
theorem C153_gmLag_partial (o : Opts)
    (h : o.lagSep = true → o.slx = 0 ∧ (o.robust = .hac ∨ ∀ b ∈ o.want, b = true)) :
    OrRaises (gmLagRegimes o) fun d => ErrOk o d ∧ d.vary = o.want ∧ LagOk o d ∧ Truthful o d := by
  intro d hd
  obtain ⟨e3, w3, hp, hl, hs, hv, he, hlag, hw⟩ := gmLag_eq o d hd
  have hL : LagOk o d := by
    cases hls : o.lagSep with
    | true => exact ⟨.trimmed, by rw [hlag, hls]; simp [(h hls).1], by simp [hls]⟩
    | false => exact ⟨.full, by rw [hlag, hls]; simp, by simp [hls]⟩
  have hnc : Warn.colsAll ∉ d.warns := by
    rw [hw]
    have : w3 = [] ∨ w3 = [.errOff] := by
      rcases hac_cases o.robust o.lagSep with ⟨hh, -⟩ | ⟨hh, -⟩ <;> rw [hp] at hh
      · exact Or.inl (congrArg Prod.snd hh)
      · exact Or.inr (congrArg Prod.snd hh)
    have hx : Warn.colsAll ∉ wxWarn o := fun h => absurd (wx_mem o _ h) (by decide)
    have hse := sep_mem o.lagSep o.errSep
    simp only [List.mem_append, not_or]
    refine ⟨⟨hse, ?_⟩, hx⟩
    rcases this with rfl | rfl <;> simp
  have hxOn : Warn.errOn ∉ wxWarn o := fun h => absurd (wx_mem o _ h) (by decide)
  have hxOff : Warn.errOff ∉ wxWarn o := fun h => absurd (wx_mem o _ h) (by decide)
  suffices H : ErrOk o d ∧ (Warn.errOn ∈ d.warns → d.errBy = true ∨ .errOff ∈ d.warns) ∧
      (.errOff ∈ d.warns → d.errBy = false) from ⟨H.1, hv, hL, H.2.1, H.2.2, fun hm => absurd hm hnc⟩
  rcases hac_cases o.robust o.lagSep with ⟨hh, hr⟩ | ⟨hh, hls, hr⟩ <;> rw [hp] at hh
  · have h3 : w3 = [] := congrArg Prod.snd hh
    have h1 : e3 = o.lagSep := congrArg Prod.fst hh
    subst h3
    cases hls : o.lagSep with
    | true =>
      have hn : o.robust ≠ .hac := fun e => by rw [hr e] at hls; cases hls
      have hall := (h hls).2.resolve_left hn
      have hm : o.many = true := hall _ List.mem_cons_self
      have ha : allTrue (flags o.c2r (o.kx + o.kend) ++ [o.lagSep]) = true := by
        unfold allTrue
        rw [decide_eq_true_iff]
        refine ⟨by simp, fun b hb => ?_⟩
        rcases List.mem_append.mp hb with hb | hb
        · exact hall b (List.mem_cons_of_mem _ hb)
        · rw [List.mem_singleton.mp hb, hls]
      rw [ha, hm, h1, hls] at he
      rw [sep_eq, hls] at hw
      unfold ErrOk
      rw [he, hw]
      cases o.errSep <;> simp [hxOff, hxOn]
    | false =>
      rw [h1, hls] at he
      rw [sep_eq, hls] at hw
      unfold ErrOk
      rw [he, hw]
      cases o.errSep <;> simp [hxOff, hxOn]
  · have h3 : w3 = [.errOff] := congrArg Prod.snd hh
    have h1 : e3 = false := congrArg Prod.fst hh
    subst h3
    rw [h1] at he
    rw [sep_eq, hls] at hw
    unfold ErrOk
    rw [he, hw]
    cases o.errSep <;> simp [hxOff, hxOn]

/-- C153 is violated by `GM_Lag_Regimes` with `regime_lag_sep=True` and lagged regressors: whenever there is a result, the lag among
the regressors is that of the full weights, the reduced form uses the trimmed ones, and no warning tells. -/
theorem C153_gmLag_violated (o : Opts) (hl : o.lagSep = true) (hs : o.slx > 0) :
    OrRaises (gmLagRegimes o) fun d => d.lag = some ⟨true, .full, some .trimmed⟩ ∧ ¬ LagOk o d := by
  intro d hd
  obtain ⟨e3, w3, hp, -, -, -, -, hlag, hw⟩ := gmLag_eq o d hd
  have : d.lag = some ⟨true, .full, some .trimmed⟩ := by
    rw [hlag, hl]; simp; omega
  refine ⟨this, ?_⟩
  rintro ⟨w, h1, h2⟩
  rw [this] at h1
  simp only [Option.some.injEq, Lag.mk.injEq] at h1
  obtain ⟨-, rfl, h3⟩ := h1
  cases h3

/-- Such a result exists. -/
example : (gmLagRegimes ⟨true, true, true, .all, 4, 0, 1, .white⟩).isOk = true := by decide +kernel

/-- C153 is violated by `GM_Lag_Regimes` with `regime_lag_sep=True` and a coefficient common to the regimes: the only warning says that
`regime_err_sep` was set to True, but the errors are not by regime. -/
theorem C153_gmLag_warning_violated :
    ∃ d, gmLagRegimes ⟨false, true, true, .list [true, false], 2, 0, 0, .white⟩ = .ok d ∧
      d.errBy = false ∧ d.warns = [.errOn] := ⟨_, rfl, rfl, rfl⟩

/-- C153 is violated by `GM_Lag_Regimes` with lagged regressors: a list `cols2regi` raises, whatever its length. -/
theorem C153_lag_list_violated (o : Opts) (l : List Bool) (hc : o.c2r = .list l) (hs : o.slx > 0) :
    ∃ e, gmLagRegimes o = .error e := by
  cases hd : gmLagRegimes o with
  | error e => exact ⟨e, rfl⟩
  | ok d =>
    obtain ⟨_, _, _, _, h, _⟩ := gmLag_eq o d hd
    rw [hc] at h
    cases h hs

theorem endog_facts (o : Opts) : OrRaises (endogErrorRegimes o) fun d =>
    d.warns = [] ∧ (o.errSep = true → ∀ b ∈ d.vary, b = true) := by
  intro d h
  obtain ⟨cols, hc, h⟩ := bind_ok h
  split at h
  · split at h
    · obtain rfl := Except.ok.inj h
      exact ⟨rfl, fun _ b hb => (List.mem_replicate.mp hb).2⟩
    · cases h
  · next he =>
    obtain rfl := Except.ok.inj h
    exact ⟨rfl, fun h => absurd h he⟩

/-- C153: `GM_Combo_Regimes`, `GM_Combo_Het_Regimes`, `GM_Combo_Hom_Regimes`. `_partial`: the spatial lag by regime is what was asked
for without lagged regressors only; the warning on `cols2regi` is true unless `cols2regi` is the default. -/
theorem C153_gmCombo_partial (o : Opts) :
    OrRaises (gmComboRegimes o) fun d => ErrOk o d ∧ VaryOk o d ∧ ((o.lagSep = true → o.slx = 0) → LagOk o d) ∧
      ((o.lagSep = true → o.c2r ≠ .all) → Truthful o d) := by
  intro d hd
  unfold gmComboRegimes at hd
  rw [sep_eq] at hd
  cases hls : o.lagSep with
  | false =>
    rw [hls] at hd
    simp only [Bool.false_and, Bool.false_eq_true, false_and, if_false] at hd
    obtain ⟨cols, hc, hd⟩ := bind_ok hd
    obtain ⟨hl, rfl⟩ := check_ok _ _ _ _ _ hc
    obtain ⟨t, ht, hd⟩ := bind_ok hd
    obtain rfl := Except.ok.inj hd
    obtain ⟨h1, h2, -⟩ := C153_endog _ t ht
    obtain ⟨h3, -⟩ := endog_facts _ t ht
    have h1 : t.errBy = false := h1
    have h2 : t.vary = o.want ++ [false] := h2
    refine ⟨?_, Or.inl ?_, fun _ => ⟨.full, ?_, by simp [hls]⟩, fun _ => ?_⟩
    · unfold ErrOk
      simp only [h1, h3]
      cases o.errSep <;> simp
    · show t.vary.dropLast = _
      rw [h2, List.dropLast_concat]
    · show some (Lag.mk (t.vary.getLast?.getD false) _ _) = _
      rw [h2, List.getLast?_concat, hls]; rfl
    · unfold Truthful
      simp only [h1, h3]
      cases o.errSep <;> simp
  | true =>
    rw [hls] at hd
    simp only [Bool.true_and, Bool.not_true, Bool.and_false, Bool.false_eq_true, if_false, true_and, if_true] at hd
    have key : ∀ (c2r : Cols2Regi) (w3 : List Warn),
        ((someNot o.c2r = true ∧ c2r = .all ∧ w3 = [.colsAll]) ∨ (someNot o.c2r = false ∧ c2r = o.c2r ∧ w3 = [])) →
        ∀ cols, checkCols2regi o.const c2r (o.kx + o.kend) false = .ok cols →
        ∀ t, endogErrorRegimes (.mk true o.lagSep o.many (.list (if o.slx = 0 then cols else cols ++ [true])) o.kx (if o.slx = 0 then o.kend else o.kend + 1) o.slx o.robust) = .ok t →
        ∀ w1, (w1 = if !o.errSep then [Warn.errOn] else []) →
        ∀ lag, (o.slx = 0 → lag = Lag.mk true .trimmed (some .trimmed)) →
        d = ⟨t.errBy, if o.slx = 0 then t.vary else t.vary.dropLast, some lag, w1 ++ w3 ++ t.warns⟩ →
        ErrOk o d ∧ VaryOk o d ∧ ((true = true → o.slx = 0) → LagOk o d) ∧
          ((true = true → o.c2r ≠ .all) → Truthful o d) := by
      rintro c2r w3 hcase cols hc t ht w1 rfl lag hlag rfl
      obtain ⟨hl, rfl⟩ := check_ok _ _ _ _ _ hc
      obtain ⟨h1, h2, -⟩ := C153_endog _ t ht
      obtain ⟨h3, h4⟩ := endog_facts _ t ht
      have h1 : t.errBy = true := h1
      have h4 := h4 rfl
      have h2 : t.vary = o.many :: (if o.slx = 0 then flags c2r (o.kx + o.kend) else flags c2r (o.kx + o.kend) ++ [true]) := h2
      have hv : (if o.slx = 0 then t.vary else t.vary.dropLast) = o.many :: flags c2r (o.kx + o.kend) := by
        rw [h2]
        by_cases hs : o.slx = 0
        · rw [if_pos hs, if_pos hs]
        · rw [if_neg hs, if_neg hs, ← List.cons_append, List.dropLast_concat]
      have hsub : ∀ b ∈ o.many :: flags c2r (o.kx + o.kend), b = true := by
        intro b hb
        apply h4
        rw [h2]
        rcases List.mem_cons.mp hb with hb | hb
        · rw [hb]; exact List.mem_cons_self
        · refine List.mem_cons_of_mem _ ?_
          by_cases hs : o.slx = 0
          · rwa [if_pos hs]
          · rw [if_neg hs]; exact List.mem_append_left _ hb
      rw [hv, h1, h3]
      rcases hcase with ⟨hsn, rfl, rfl⟩ | ⟨hsn, rfl, rfl⟩
      · refine ⟨?_, Or.inr ⟨by simp, hsub⟩, fun h => ⟨.trimmed, by rw [hlag (h rfl), hls], by simp [hls]⟩, fun h => ?_⟩
        · unfold ErrOk; cases o.errSep <;> simp
        · refine ⟨fun _ => Or.inl rfl, fun hm => ?_, fun _ => ?_⟩
          · exfalso; revert hm; cases o.errSep <;> simp
          · cases hcc : o.c2r with
            | all => exact absurd hcc (h rfl)
            | list l =>
              rw [hcc] at hsn
              obtain ⟨b, hb, hbf⟩ := of_decide_eq_true hsn
              refine ⟨b, ?_, hbf⟩
              unfold Opts.want
              rw [hcc]
              exact List.mem_cons_of_mem _ hb
      · refine ⟨?_, Or.inl rfl, fun h => ⟨.trimmed, by rw [hlag (h rfl), hls], by simp [hls]⟩, fun h => ?_⟩
        · unfold ErrOk; cases o.errSep <;> simp
        · refine ⟨fun _ => Or.inl rfl, fun hm => ?_, fun hm => ?_⟩ <;>
            (exfalso; revert hm; cases o.errSep <;> simp)
    cases hsn : someNot o.c2r with
    | true =>
      rw [hsn] at hd
      simp only [if_true] at hd
      obtain ⟨cols, hc, hd⟩ := bind_ok hd
      obtain ⟨t, ht, hd⟩ := bind_ok hd
      exact key .all [.colsAll] (Or.inl ⟨hsn, rfl, rfl⟩) cols hc t ht _ rfl _ (fun h => by simp [h]) (Except.ok.inj hd).symm
    | false =>
      rw [hsn] at hd
      simp only [Bool.false_eq_true, if_false] at hd
      obtain ⟨cols, hc, hd⟩ := bind_ok hd
      obtain ⟨t, ht, hd⟩ := bind_ok hd
      exact key o.c2r [] (Or.inr ⟨hsn, rfl, rfl⟩) cols hc t ht _ rfl _ (fun h => by simp [h]) (Except.ok.inj hd).symm

/-- C153 is violated by the combo classes with `regime_lag_sep=True` and the default `cols2regi="all"`: the warning says that flags
were changed which already were as it says. -/
theorem C153_gmCombo_warning_violated (o : Opts) (hl : o.lagSep = true) (hc : o.c2r = .all) :
    OrRaises (gmComboRegimes o) fun d => .colsAll ∈ d.warns ∧ ¬ Truthful o d := by
  intro d hd
  have hm : Warn.colsAll ∈ d.warns ∧ ∀ b ∈ o.want, b = true := by
    obtain ⟨-, hv, -⟩ := C153_gmCombo_partial o d hd
    unfold gmComboRegimes at hd
    rw [sep_eq, hl, hc] at hd
    simp only [someNot, Bool.true_and, if_true, true_and] at hd
    obtain ⟨cols, hcc, hd⟩ := bind_ok hd
    obtain ⟨t, ht, hd⟩ := bind_ok hd
    obtain ⟨-, h2, -⟩ := C153_endog _ t ht
    obtain ⟨h3, h4⟩ := endog_facts _ t ht
    obtain rfl := Except.ok.inj hd
    refine ⟨by simp, ?_⟩
    intro b hb
    unfold Opts.want at hb
    rw [hc] at hb
    rcases List.mem_cons.mp hb with hb | hb
    · have := h4 rfl o.many (by rw [h2]; exact List.mem_cons_self)
      rw [hb, this]
    · exact (List.mem_replicate.mp hb).2
  refine ⟨hm.1, fun ht => ?_⟩
  obtain ⟨b, hb, hbf⟩ := ht.2.2 hm.1
  rw [hm.2 b hb] at hbf; cases hbf

/-- C153 is violated by the combo classes with `regime_lag_sep=True` and lagged regressors: the lag is that of the full weights and
there is no reduced form, without a warning on the lag. -/
theorem C153_gmCombo_violated :
    ∃ d, gmComboRegimes ⟨true, true, true, .list [true, true, true, true], 4, 0, 1, .none⟩ = .ok d ∧
      d.lag = some ⟨true, .full, none⟩ ∧ d.warns = [] := ⟨_, rfl, rfl, rfl⟩

/-! ### Non-vacuity: each class returns on non-trivial options -/

example : (errorRegimes ⟨false, false, false, .list [true, false], 2, 0, 1, .none⟩).isOk = true := by decide +kernel
example : (endogErrorRegimes ⟨true, false, true, .all, 2, 1, 1, .none⟩).isOk = true := by decide +kernel
example : (mlLagRegimes ⟨false, true, true, .all, 2, 0, 1, .none⟩).isOk = true := by decide +kernel
example : (tslsRegimes ⟨true, false, true, .all, 2, 1, 0, .white⟩).isOk = true := by decide +kernel
example : (olsRegimes ⟨true, false, false, .list [true, false], 2, 0, 1, .none⟩).isOk = true := by decide +kernel
example : (gmLagRegimes ⟨false, true, false, .list [true, false], 2, 0, 0, .hac⟩).isOk = true := by decide +kernel
example : (gmComboRegimes ⟨false, true, true, .list [true, false, true], 2, 1, 0, .none⟩).isOk = true := by decide +kernel

end Spreg.Dispatch
