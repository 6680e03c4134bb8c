import Verif.Model.Spsearch
import Mathlib.Tactic.Linarith
import Mathlib.Tactic.NormNum
import Mathlib.Tactic.SplitIfs
import Mathlib.Tactic.Tauto
import Mathlib.Tactic.IntervalCases
/-
C45: the specification searches.
-/
namespace Spreg.Search

/-- What the reported labels stand for (specification, not part of the model). -/
def denotes : String → Option Fit
  | "OLS" => some (.ols 0)
  | "LAG" => some (.lag 0) | "LAGr" => some (.lag 0) | "LAG_BR" => some (.lag 0) | "LAG_Nr" => some (.lag 0)
  | "ERROR" => some (.err 0) | "ERRORr" => some (.err 0) | "ERROR_Br" => some (.err 0)
  | "ERROR_Nr" => some (.err 0)
  | "SARSAR" => some (.sarsar 0)
  | "SLX" => some (.ols 1)
  | "SDM" => some (.lag 1)
  | "SLX-ERR" => some (.err 1) | "SLX-Err" => some (.err 1)
  | "GNS" => some (.sarsar 1)
  | _ => none

/-- A search reports specification `f`: without `finmod` it returns a label standing for `f` and no
regression; with `finmod` the same label and the estimated regression `f`, or, when that estimation fails,
the label with an exception note and no regression. -/
def Reports (E : World) (search : Bool → Py (String × Option Fit)) (f : Fit) : Prop :=
  ∃ label, denotes label = some f ∧ search false = .ok (label, none) ∧
    (E.ok f = true → search true = .ok (label, some f)) ∧
    (E.ok f = false → ∃ note, search true = .ok (label ++ " -- Exception: " ++ note, none))

/-- The search ends early with an exception message and no regression. -/
def Stops (search : Bool → Py (String × Option Fit)) : Prop :=
  ∃ note, ∀ finmod, search finmod = .ok ("Exception: " ++ note, none)

/-- A label that starts with the exception note is not a model. -/
theorem denotes_stop (note : String) : denotes ("Exception: " ++ note) = none := by
  have h : ∀ s : String, s.toList.head? ≠ some 'E' → "Exception: " ++ note ≠ s := by
    intro s hs he
    apply hs
    rw [← he, String.toList_append]
    rfl
  have h2 : ∀ s : String, s.toList.take 2 ≠ ['E', 'x'] → "Exception: " ++ note ≠ s := by
    intro s hs he
    apply hs
    rw [← he, String.toList_append]
    rfl
  unfold denotes
  split <;> first | rfl | (rename_i he; exact absurd he (h2 _ (by decide)))

theorem Reports.unique {E : World} {s : Bool → Py (String × Option Fit)} {f g : Fit}
    (hf : Reports E s f) (hg : Reports E s g) : f = g := by
  obtain ⟨l, h1, h2, -⟩ := hf
  obtain ⟨l', h1', h2', -⟩ := hg
  rw [h2] at h2'
  have : l = l' := by
    have := Except.ok.inj h2'
    exact (Prod.mk.inj this).1
  subst this
  rw [h1] at h1'
  exact Option.some.inj h1'

section
variable {E : World}

theorem rep_lag {s : Bool → Py (String × Option Fit)} {l : String} {f : Fit} {note : String}
    (hd : denotes l = some f) (h0 : s false = .ok (l, none))
    (h1 : s true = .ok (estimate E f l (" -- Exception: " ++ note))) : Reports E s f := by
  refine ⟨l, hd, h0, ?_, ?_⟩
  · intro h; rw [h1, estimate, if_pos h]
  · intro h; exact ⟨note, by rw [h1, estimate, if_neg (by simp [h]), String.append_assoc]⟩

theorem rep_kept {s : Bool → Py (String × Option Fit)} {l : String} {f : Fit}
    (hd : denotes l = some f) (h0 : s false = .ok (l, none))
    (h1 : s true = .ok (l, some f)) (hok : E.ok f = true) : Reports E s f :=
  ⟨l, hd, h0, fun _ => h1, fun h => by rw [hok] at h; cases h⟩
end

/-! ### stge_classic -/

theorem ge_none (p : ℝ) : ge none p = false := rfl
theorem lt_none (p : ℝ) : lt none p = false := rfl
theorem le2_none (b : PV) : le2 none b = false := rfl
theorem gt2_none (b : PV) : gt2 none b = false := rfl
theorem le2_none' (b : PV) : le2 b none = false := by cases b <;> rfl
theorem gt2_none' (b : PV) : gt2 b none = false := by cases b <;> rfl
theorem ge_some (a p : ℝ) : ge (some a) p = decide (p ≤ a) := rfl
theorem lt_some (a p : ℝ) : lt (some a) p = decide (a < p) := rfl
theorem le_some (a p : ℝ) : le (some a) p = decide (a ≤ p) := rfl
theorem gt_some (a p : ℝ) : gt (some a) p = decide (p < a) := rfl
theorem le2_some (a b : ℝ) : le2 (some a) (some b) = decide (a ≤ b) := rfl
theorem gt2_some (a b : ℝ) : gt2 (some a) (some b) = decide (b < a) := rfl

/-- The lag model was estimated, the AK test was computed and its p-value does not exceed `p`. -/
def AKrejects (E : World) (slx : ℕ) (p : ℝ) : Prop :=
  ∃ m, E.lag slx = some m ∧ ∃ q, m.ak = .ok (some q) ∧ q ≤ p

/-- Reading of the AK step. -/
theorem ak_cases (E : World) (slx : ℕ) (p : ℝ) {α : Type} (x : PV → α) (y : α) :
    (AKrejects E slx p ∧ ∃ q, le (some q) p = true ∧
      (match (E.lag slx).map LagOut.ak with | some (.ok a) => x a | _ => y) = x (some q)) ∨
    (¬ AKrejects E slx p ∧
      ((∃ a, le a p = false ∧ (match (E.lag slx).map LagOut.ak with | some (.ok a) => x a | _ => y) = x a) ∨
        (match (E.lag slx).map LagOut.ak with | some (.ok a) => x a | _ => y) = y)) := by
  rcases h : E.lag slx with _ | m
  · right; refine ⟨?_, Or.inr rfl⟩
    rintro ⟨m, hm, -⟩; rw [h] at hm; cases hm
  · rcases h2 : m.ak with e | a
    · right; refine ⟨?_, Or.inr (by simp [h2])⟩
      rintro ⟨m', hm, q, hq, -⟩; rw [h] at hm; cases hm; rw [h2] at hq; cases hq
    · rcases a with _ | q
      · right; refine ⟨?_, Or.inl ⟨none, rfl, by simp [h2]⟩⟩
        rintro ⟨m', hm, q, hq, -⟩; rw [h] at hm; cases hm; rw [h2] at hq; cases hq
      · rcases le_or_gt q p with h3 | h3
        · left; exact ⟨⟨m, h, q, h2, h3⟩, q, by simp [le_some, h3], by simp [h2]⟩
        · right; refine ⟨?_, Or.inl ⟨some q, by simp [le_some, h3], by simp [h2]⟩⟩
          rintro ⟨m', hm, q', hq, hle⟩; rw [h] at hm; cases hm; rw [h2] at hq; cases hq; linarith

/-- The four exclusive situations give the four equivalences. -/
theorem four_cases {P : Fit → Prop} (uniq : ∀ f g, P f → P g → f = g) {s : ℕ} {p a b ra rb : ℝ} {A : Prop}
    (main : (p ≤ a ∧ p ≤ b ∧ P (.ols s)) ∨
      (a < p ∧ b < p ∧ ra < p ∧ rb < p ∧ A ∧ P (.sarsar s)) ∨
      (a < p ∧ (p ≤ b ∨ ra ≤ rb ∧ ¬ (ra < p ∧ rb < p ∧ A)) ∧ P (.lag s)) ∨
      (b < p ∧ (p ≤ a ∨ rb < ra ∧ ¬ (ra < p ∧ rb < p ∧ A)) ∧ P (.err s))) :
    (P (.ols s) ↔ p ≤ a ∧ p ≤ b) ∧
    (P (.sarsar s) ↔ a < p ∧ b < p ∧ ra < p ∧ rb < p ∧ A) ∧
    (P (.lag s) ↔ a < p ∧ (p ≤ b ∨ ra ≤ rb ∧ ¬ (ra < p ∧ rb < p ∧ A))) ∧
    (P (.err s) ↔ b < p ∧ (p ≤ a ∨ rb < ra ∧ ¬ (ra < p ∧ rb < p ∧ A))) ∧
    (∃ f, P f) := by
  rcases main with ⟨h1, h2, h⟩ | ⟨h1, h2, h3, h4, h5, h⟩ | ⟨h1, h2, h⟩ | ⟨h1, h2, h⟩ <;>
    refine ⟨⟨fun h' => ?_, fun h' => ?_⟩, ⟨fun h' => ?_, fun h' => ?_⟩, ⟨fun h' => ?_, fun h' => ?_⟩,
      ⟨fun h' => ?_, fun h' => ?_⟩, ⟨_, h⟩⟩ <;>
    first
    | exact h
    | exact ⟨h1, h2⟩
    | exact ⟨h1, h2, h3, h4, h5⟩
    | exact absurd (uniq _ _ h h') (by simp)
    | (exfalso
       rcases h' with ⟨a1, a2, a3, a4, a5⟩
       first
       | linarith
       | (rcases h2 with h2 | ⟨h2, h3⟩
          · linarith
          · exact h3 ⟨a3, a4, a5⟩))
    | (exfalso
       rcases h' with ⟨a1, a2 | ⟨a2, a3⟩⟩ <;>
       first
       | linarith
       | exact a3 ⟨h3, h4, h5⟩
       | (rcases h2 with h2 | ⟨h2, h3⟩ <;> linarith))
    | (exfalso
       rcases h' with ⟨a1, a2⟩
       first
       | linarith
       | (rcases h2 with h2 | ⟨h2, h3⟩ <;> linarith))

/-- C45 (STGE-Classic, p-values that are numbers): the search reports exactly one specification, and it is the
one of the decision rule: OLS when neither LM test is significant; lag or error when only that test is; when both
are, lag-plus-error if all robust tests are significant and the AK test rejects, otherwise the model with the
smaller robust p-value (lag in a tie). -/
theorem C45_classic_partial (E : World) (p a b ra rb : ℝ)
    (hl : (E.ols 0).lmLag = some a) (he : (E.ols 0).lmError = some b)
    (hrl : (E.ols 0).rlmLag = some ra) (hre : (E.ols 0).rlmError = some rb) :
    (Reports E (stgeClassic E p) (.ols 0) ↔ p ≤ a ∧ p ≤ b) ∧
    (Reports E (stgeClassic E p) (.sarsar 0) ↔ a < p ∧ b < p ∧ ra < p ∧ rb < p ∧ AKrejects E 0 p) ∧
    (Reports E (stgeClassic E p) (.lag 0) ↔
      a < p ∧ (p ≤ b ∨ ra ≤ rb ∧ ¬ (ra < p ∧ rb < p ∧ AKrejects E 0 p))) ∧
    (Reports E (stgeClassic E p) (.err 0) ↔
      b < p ∧ (p ≤ a ∨ rb < ra ∧ ¬ (ra < p ∧ rb < p ∧ AKrejects E 0 p))) ∧
    (∃ f, Reports E (stgeClassic E p) f) := by
  refine four_cases (fun f g hf hg => hf.unique hg) ?_
  have go : ∀ l k f, classicSel E p = some (l, k) → denotes l = some f →
      ((k = 0 ∧ f = .ols 0) ∨ ((k = 1 ∨ k = 4) ∧ f = .lag 0) ∨ (k = 2 ∧ f = .err 0) ∨
        (k = 3 ∧ f = .sarsar 0)) → Reports E (stgeClassic E p) f := by
    intro l k f hsel hd hk
    have h0 : stgeClassic E p false = .ok (l, none) := by
      unfold stgeClassic; rw [hsel]; rfl
    rcases hk with ⟨rfl, rfl⟩ | ⟨rfl | rfl, rfl⟩ | ⟨rfl, rfl⟩ | ⟨rfl, rfl⟩
    · exact rep_kept hd h0 (by unfold stgeClassic; rw [hsel]; rfl) rfl
    · exact rep_lag (note := "GM LAG parameters outside bounds") hd h0 (by unfold stgeClassic; rw [hsel]; rfl)
    · exact rep_lag (note := "GM LAG parameters outside bounds") hd h0 (by unfold stgeClassic; rw [hsel]; rfl)
    · exact rep_lag (note := "GMM Error parameters outside bounds") hd h0 (by unfold stgeClassic; rw [hsel]; rfl)
    · exact rep_lag (note := "SARSAR parameters outside bounds") hd h0 (by unfold stgeClassic; rw [hsel]; rfl)
  have hsel : classicSel E p = classicSel E p := rfl
  conv at hsel => rhs; unfold classicSel
  simp only [hl, he, hrl, hre, ge_some, lt_some, le2_some, gt2_some, Bool.and_eq_true,
    decide_eq_true_eq] at hsel
  rcases le_or_gt p a with h1 | h1 <;> rcases le_or_gt p b with h2 | h2
  · left
    simp only [h1, h2, and_self, if_true] at hsel
    exact ⟨h1, h2, go _ _ _ hsel rfl (by simp)⟩
  · right; right; right
    simp only [h1, h2, h2.not_ge, h1.not_gt, and_self, and_false, false_and, if_true, if_false] at hsel
    exact ⟨h2, Or.inl h1, go _ _ _ hsel rfl (by simp)⟩
  · right; right; left
    simp only [h1, h2, h1.not_ge, h2.not_gt, and_self, and_false, false_and, if_true, if_false] at hsel
    exact ⟨h1, Or.inl h2, go _ _ _ hsel rfl (by simp)⟩
  · right
    simp only [h1, h2, h1.not_ge, h2.not_ge, and_self, and_false, false_and, if_true, if_false] at hsel
    rcases le_or_gt p ra with h3 | h3 <;> rcases le_or_gt p rb with h4 | h4
    · simp only [h3.not_gt, h4.not_gt, and_false, if_false] at hsel
      rcases le_or_gt ra rb with h5 | h5
      · simp only [h5, if_true] at hsel
        exact Or.inr (Or.inl ⟨h1, Or.inr ⟨h5, fun h => by linarith [h.1]⟩, go _ _ _ hsel rfl (by simp)⟩)
      · simp only [h5, h5.not_ge, if_true, if_false] at hsel
        exact Or.inr (Or.inr ⟨h2, Or.inr ⟨h5, fun h => by linarith [h.1]⟩, go _ _ _ hsel rfl (by simp)⟩)
    · simp only [h3, h4, h3.not_gt, h4.not_ge, and_self, and_false, if_true, if_false] at hsel
      exact Or.inr (Or.inr ⟨h2, Or.inr ⟨by linarith, fun h => by linarith [h.1]⟩, go _ _ _ hsel rfl (by simp)⟩)
    · simp only [h3, h4, and_self, if_true] at hsel
      exact Or.inr (Or.inl ⟨h1, Or.inr ⟨by linarith, fun h => by linarith [h.2.1]⟩, go _ _ _ hsel rfl (by simp)⟩)
    · simp only [h3, h4, h3.not_ge, h4.not_ge, and_self, and_false, false_and, if_true, if_false] at hsel
      rcases ak_cases E 0 p (fun a => if le a p = true then some ("SARSAR", 3)
          else if ra ≤ rb then some ("LAG_BR", 4) else if rb < ra then some ("ERROR_Br", 2) else none)
          (if ra ≤ rb then some ("LAG_BR", 1) else some ("ERROR_Br", 2)) with
        ⟨hA, q, hq, h6⟩ | ⟨hA, ⟨a', ha', h6⟩ | h6⟩
      · replace hsel := hsel.trans h6; rw [if_pos hq] at hsel
        exact Or.inl ⟨h1, h2, h3, h4, hA, go _ _ _ hsel rfl (by simp)⟩
      · replace hsel := hsel.trans h6; rw [if_neg (by simp [ha'])] at hsel
        rcases le_or_gt ra rb with h5 | h5
        · rw [if_pos h5] at hsel
          exact Or.inr (Or.inl ⟨h1, Or.inr ⟨h5, fun h => hA h.2.2⟩, go _ _ _ hsel rfl (by simp)⟩)
        · rw [if_neg h5.not_ge, if_pos h5] at hsel
          exact Or.inr (Or.inr ⟨h2, Or.inr ⟨h5, fun h => hA h.2.2⟩, go _ _ _ hsel rfl (by simp)⟩)
      · replace hsel := hsel.trans h6
        rcases le_or_gt ra rb with h5 | h5
        · rw [if_pos h5] at hsel
          exact Or.inr (Or.inl ⟨h1, Or.inr ⟨h5, fun h => hA h.2.2⟩, go _ _ _ hsel rfl (by simp)⟩)
        · rw [if_neg h5.not_ge] at hsel
          exact Or.inr (Or.inr ⟨h2, Or.inr ⟨h5, fun h => hA h.2.2⟩, go _ _ _ hsel rfl (by simp)⟩)

/-- C45 fails for undefined p-values: when an LM p-value is NaN (for instance after a perfect fit), or both are
significant and a robust one is NaN, no branch assigns a result and the call raises `UnboundLocalError`;
exactly in these cases. -/
theorem C45_classic_nan_violated (E : World) (p : ℝ) (finmod : Bool) :
    (∀ e, stgeClassic E p finmod = .error e → e = .unboundLocal) ∧
    ((∃ e, stgeClassic E p finmod = .error e) ↔
      (E.ols 0).lmLag = none ∨ (E.ols 0).lmError = none ∨
      (lt (E.ols 0).lmLag p = true ∧ lt (E.ols 0).lmError p = true ∧
        ((E.ols 0).rlmLag = none ∨ (E.ols 0).rlmError = none))) := by
  have hsel : (∃ e, stgeClassic E p finmod = .error e) ↔ classicSel E p = none := by
    unfold stgeClassic
    rcases classicSel E p with _ | ⟨l, k⟩
    · simp
    · simp only [reduceCtorEq, iff_false]
      rintro ⟨e, h⟩
      split_ifs at h
  constructor
  · intro e h
    have := hsel.1 ⟨e, h⟩
    unfold stgeClassic at h
    rw [this] at h
    exact (Except.error.inj h).symm
  rw [hsel]
  constructor
  · intro h
    by_contra hc
    push Not at hc
    obtain ⟨h1, h2, h3⟩ := hc
    obtain ⟨a, ha⟩ := Option.ne_none_iff_exists'.1 h1
    obtain ⟨b, hb⟩ := Option.ne_none_iff_exists'.1 h2
    unfold classicSel at h
    simp only [ha, hb, ge_some, lt_some, Bool.and_eq_true, decide_eq_true_eq] at h h3
    rcases le_or_gt p a with c1 | c1 <;> rcases le_or_gt p b with c2 | c2
    · simp [c1, c2] at h
    · simp [c1, c2, c1.not_gt, c2.not_ge] at h
    · simp [c1, c2, c2.not_gt, c1.not_ge] at h
    · obtain ⟨h4, h5⟩ := h3 c1 c2
      obtain ⟨ra, hra⟩ := Option.ne_none_iff_exists'.1 h4
      obtain ⟨rb, hrb⟩ := Option.ne_none_iff_exists'.1 h5
      obtain ⟨-, -, -, -, f, l, -, hf, -⟩ := C45_classic_partial E p a b ra rb ha hb hra hrb
      unfold stgeClassic at hf
      have : classicSel E p = none := by
        unfold classicSel
        simp only [ha, hb, ge_some, lt_some, Bool.and_eq_true, decide_eq_true_eq]
        exact h
      rw [this] at hf
      cases hf
  · rintro (h | h | ⟨h1, h2, h | h⟩)
    · unfold classicSel; simp [h, ge, lt]
    · unfold classicSel; simp [h, ge, lt]
    · have g1 : ge (E.ols 0).lmLag p = false := by
        revert h1; rcases (E.ols 0).lmLag with _ | r <;> simp [lt, ge]
      have g2 : ge (E.ols 0).lmError p = false := by
        revert h2; rcases (E.ols 0).lmError with _ | r <;> simp [lt, ge]
      unfold classicSel
      simp [h, h1, h2, g1, g2, le2_none, gt2_none, ge_none, lt_none]
    · have g1 : ge (E.ols 0).lmLag p = false := by
        revert h1; rcases (E.ols 0).lmLag with _ | r <;> simp [lt, ge]
      have g2 : ge (E.ols 0).lmError p = false := by
        revert h2; rcases (E.ols 0).lmError with _ | r <;> simp [lt, ge]
      unfold classicSel
      simp [h, h1, h2, g1, g2, le2_none', gt2_none', ge_none, lt_none]

/-- A test is significant: its p-value is a number below `p`. -/
def Sig (a : PV) (p : ℝ) : Prop := ∃ r, a = some r ∧ r < p

theorem lt_iff_sig (a : PV) (p : ℝ) : lt a p = true ↔ Sig a p := by
  rcases a with _ | r <;> simp [lt, Sig]

/-- C45 (STGE-KB): for all p-values, including NaN, the search reports exactly one specification: OLS when the
joint p-value exceeds `p` or neither robust test is significant; otherwise Durbin, lag or SLX according to which
robust tests are significant. -/
theorem C45_kb (E : World) (p : ℝ) :
    (Reports E (stgeKb E p) (.ols 0) ↔ (∃ r, (E.ols 0).lmSpdurbin = some r ∧ p < r) ∨
      ¬ Sig (E.ols 0).rlmWx p ∧ ¬ Sig (E.ols 0).rlmDurlag p) ∧
    (Reports E (stgeKb E p) (.lag 1) ↔ ¬ (∃ r, (E.ols 0).lmSpdurbin = some r ∧ p < r) ∧
      Sig (E.ols 0).rlmWx p ∧ Sig (E.ols 0).rlmDurlag p) ∧
    (Reports E (stgeKb E p) (.lag 0) ↔ ¬ (∃ r, (E.ols 0).lmSpdurbin = some r ∧ p < r) ∧
      ¬ Sig (E.ols 0).rlmWx p ∧ Sig (E.ols 0).rlmDurlag p) ∧
    (Reports E (stgeKb E p) (.ols 1) ↔ ¬ (∃ r, (E.ols 0).lmSpdurbin = some r ∧ p < r) ∧
      Sig (E.ols 0).rlmWx p ∧ ¬ Sig (E.ols 0).rlmDurlag p) ∧
    (∃ f, Reports E (stgeKb E p) f) := by
  have hg : gt (E.ols 0).lmSpdurbin p = true ↔ ∃ r, (E.ols 0).lmSpdurbin = some r ∧ p < r := by
    rcases (E.ols 0).lmSpdurbin with _ | r <;> simp [gt]
  rw [← hg, ← lt_iff_sig, ← lt_iff_sig]
  have uniq : ∀ f g, Reports E (stgeKb E p) f → Reports E (stgeKb E p) g → f = g :=
    fun f g hf hg => hf.unique hg
  have H0 (h : Reports E (stgeKb E p) (.ols 0)) : (Reports E (stgeKb E p) (.ols 0) ↔ True) ∧
      (Reports E (stgeKb E p) (.lag 1) ↔ False) ∧ (Reports E (stgeKb E p) (.lag 0) ↔ False) ∧
      (Reports E (stgeKb E p) (.ols 1) ↔ False) ∧ ∃ f, Reports E (stgeKb E p) f :=
    ⟨by simp [h], iff_of_false (fun h' => by cases uniq _ _ h h') id, iff_of_false (fun h' => by cases uniq _ _ h h') id,
      iff_of_false (fun h' => by cases uniq _ _ h h') id, _, h⟩
  have H1 (h : Reports E (stgeKb E p) (.lag 0)) : (Reports E (stgeKb E p) (.ols 0) ↔ False) ∧
      (Reports E (stgeKb E p) (.lag 1) ↔ False) ∧ (Reports E (stgeKb E p) (.lag 0) ↔ True) ∧
      (Reports E (stgeKb E p) (.ols 1) ↔ False) ∧ ∃ f, Reports E (stgeKb E p) f :=
    ⟨iff_of_false (fun h' => by cases uniq _ _ h h') id, iff_of_false (fun h' => by cases uniq _ _ h h') id, by simp [h],
      iff_of_false (fun h' => by cases uniq _ _ h h') id, _, h⟩
  have H2 (h : Reports E (stgeKb E p) (.ols 1)) : (Reports E (stgeKb E p) (.ols 0) ↔ False) ∧
      (Reports E (stgeKb E p) (.lag 1) ↔ False) ∧ (Reports E (stgeKb E p) (.lag 0) ↔ False) ∧
      (Reports E (stgeKb E p) (.ols 1) ↔ True) ∧ ∃ f, Reports E (stgeKb E p) f :=
    ⟨iff_of_false (fun h' => by cases uniq _ _ h h') id, iff_of_false (fun h' => by cases uniq _ _ h h') id,
      iff_of_false (fun h' => by cases uniq _ _ h h') id, by simp [h], _, h⟩
  have H3 (h : Reports E (stgeKb E p) (.lag 1)) : (Reports E (stgeKb E p) (.ols 0) ↔ False) ∧
      (Reports E (stgeKb E p) (.lag 1) ↔ True) ∧ (Reports E (stgeKb E p) (.lag 0) ↔ False) ∧
      (Reports E (stgeKb E p) (.ols 1) ↔ False) ∧ ∃ f, Reports E (stgeKb E p) f :=
    ⟨iff_of_false (fun h' => by cases uniq _ _ h h') id, by simp [h], iff_of_false (fun h' => by cases uniq _ _ h h') id,
      iff_of_false (fun h' => by cases uniq _ _ h h') id, _, h⟩
  rcases c1 : gt (E.ols 0).lmSpdurbin p with _ | _
  · rcases c2 : lt (E.ols 0).rlmWx p with _ | _ <;> rcases c3 : lt (E.ols 0).rlmDurlag p with _ | _
    · simpa using H0 (rep_kept (l := "OLS") rfl (by simp [stgeKb, c1, c2, c3]) (by simp [stgeKb, c1, c2, c3]) rfl)
    · simpa using H1 (rep_lag (l := "LAG") (note := "GM Lag parameters outside bounds") rfl
           (by simp [stgeKb, c1, c2, c3]) (by simp [stgeKb, c1, c2, c3]; rfl))
    · simpa using H2 (rep_kept (l := "SLX") rfl (by simp [stgeKb, c1, c2, c3]) (by simp [stgeKb, c1, c2, c3]) rfl)
    · simpa using H3 (rep_lag (l := "SDM") (note := "SDM parameters outside bounds") rfl
           (by simp [stgeKb, c1, c2, c3]) (by simp [stgeKb, c1, c2, c3]; rfl))
  · simpa using H0 (rep_kept (l := "OLS") rfl (by simp [stgeKb, c1]) (by simp [stgeKb, c1]) rfl)

/-! ### stge_pre -/

/-- The spatial order of x that `stge_pre` settles on first. -/
def PreOrder (E : World) (p : ℝ) (s : ℕ) : Prop :=
  (s = 1 ∧ Sig (E.ols 0).lmWx p ∧ Sig (E.ols 0).rlmWx p) ∨
  (s = 0 ∧ ¬ (Sig (E.ols 0).lmWx p ∧ Sig (E.ols 0).rlmWx p))

/-- The AK test of the lag model could not be computed (the estimation or the test raised). -/
def AKfails (E : World) (s : ℕ) : Prop := ¬ ∃ m v, E.lag s = some m ∧ m.ak = .ok v

/-- C45 (STGE-Pre, p-values that are numbers), except when the WX tests are significant, all four LM tests are
significant, the AK test fails and the robust lag test has the smaller p-value: the same decision rule as
STGE-Classic, on the specification with or without WX according to the two WX tests. -/
theorem C45_pre_partial (E : World) (p a b ra rb : ℝ) (s : ℕ) (hs : PreOrder E p s)
    (hl : (E.ols s).lmLag = some a) (he : (E.ols s).lmError = some b)
    (hrl : (E.ols s).rlmLag = some ra) (hre : (E.ols s).rlmError = some rb)
    (hgood : ¬ (s = 1 ∧ a < p ∧ b < p ∧ ra < p ∧ rb < p ∧ ra ≤ rb ∧ AKfails E 1)) :
    (Reports E (stgePre E p) (.ols s) ↔ p ≤ a ∧ p ≤ b) ∧
    (Reports E (stgePre E p) (.sarsar s) ↔ a < p ∧ b < p ∧ ra < p ∧ rb < p ∧ AKrejects E s p) ∧
    (Reports E (stgePre E p) (.lag s) ↔
      a < p ∧ (p ≤ b ∨ ra ≤ rb ∧ ¬ (ra < p ∧ rb < p ∧ AKrejects E s p))) ∧
    (Reports E (stgePre E p) (.err s) ↔
      b < p ∧ (p ≤ a ∨ rb < ra ∧ ¬ (ra < p ∧ rb < p ∧ AKrejects E s p))) ∧
    (∃ f, Reports E (stgePre E p) f) := by
  refine four_cases (fun f g hf hg => hf.unique hg) ?_
  have hslx : (if (lt (E.ols 0).lmWx p && lt (E.ols 0).rlmWx p) = true then 1 else 0) = s := by
    rcases hs with ⟨rfl, h⟩ | ⟨rfl, h⟩
    · rw [if_pos]; simpa [lt_iff_sig] using h
    · rw [if_neg]; simpa [lt_iff_sig] using h
  have hs01 : s = 0 ∨ s = 1 := by rcases hs with ⟨h, -⟩ | ⟨h, -⟩ <;> tauto
  have go : ∀ k, k < 4 → preSel E p = (s, some (models.getD (s * 4 + k) "", s * 4 + k)) →
      Reports E (stgePre E p) (if k = 0 then .ols s else if k = 1 then .lag s else if k = 2 then .err s
        else .sarsar s) := by
    intro k hk hsel
    have h0 : stgePre E p false = .ok (models.getD (s * 4 + k) "", none) := by
      unfold stgePre; rw [hsel]; rfl
    rcases hs01 with rfl | rfl <;> interval_cases k <;>
    first
    | exact rep_kept rfl h0 (by unfold stgePre; rw [hsel]; rfl) rfl
    | exact rep_lag (note := "GM LAG parameters outside bounds") rfl h0 (by unfold stgePre; rw [hsel]; rfl)
    | exact rep_lag (note := "GMM Error parameters outside bounds") rfl h0 (by unfold stgePre; rw [hsel]; rfl)
    | exact rep_lag (note := "autoregressive parameters outside bounds") rfl h0
        (by unfold stgePre; rw [hsel]; rfl)
  have hsel : preSel E p = preSel E p := rfl
  conv at hsel => rhs; unfold preSel
  simp only [hslx] at hsel
  simp only [hl, he, hrl, hre, ge_some, lt_some, le2_some, gt2_some, Bool.and_eq_true,
    decide_eq_true_eq] at hsel
  rcases le_or_gt p a with h1 | h1 <;> rcases le_or_gt p b with h2 | h2
  · left
    simp only [h1, h2, and_self, if_true] at hsel
    exact ⟨h1, h2, go 0 (by norm_num) hsel⟩
  · right; right; right
    simp only [h1, h2, h2.not_ge, h1.not_gt, and_self, and_false, false_and, if_true, if_false] at hsel
    exact ⟨h2, Or.inl h1, go 2 (by norm_num) hsel⟩
  · right; right; left
    simp only [h1, h2, h1.not_ge, h2.not_gt, and_self, and_false, false_and, if_true, if_false] at hsel
    exact ⟨h1, Or.inl h2, go 1 (by norm_num) hsel⟩
  · right
    simp only [h1, h2, h1.not_ge, h2.not_ge, and_self, and_false, false_and, if_true, if_false] at hsel
    rcases le_or_gt p ra with h3 | h3 <;> rcases le_or_gt p rb with h4 | h4
    · simp only [h3.not_gt, h4.not_gt, and_false, if_false] at hsel
      rcases le_or_gt ra rb with h5 | h5
      · simp only [h5, if_true] at hsel
        exact Or.inr (Or.inl ⟨h1, Or.inr ⟨h5, fun h => by linarith [h.1]⟩, go 1 (by norm_num) hsel⟩)
      · simp only [h5, h5.not_ge, if_true, if_false] at hsel
        exact Or.inr (Or.inr ⟨h2, Or.inr ⟨h5, fun h => by linarith [h.1]⟩, go 2 (by norm_num) hsel⟩)
    · simp only [h3, h4, h3.not_gt, h4.not_ge, and_self, and_false, if_true, if_false] at hsel
      exact Or.inr (Or.inr ⟨h2, Or.inr ⟨by linarith, fun h => by linarith [h.1]⟩, go 2 (by norm_num) hsel⟩)
    · simp only [h3, h4, and_self, if_true] at hsel
      exact Or.inr (Or.inl ⟨h1, Or.inr ⟨by linarith, fun h => by linarith [h.2.1]⟩, go 1 (by norm_num) hsel⟩)
    · simp only [h3, h4, h3.not_ge, h4.not_ge, and_self, and_false, false_and, if_true, if_false] at hsel
      rcases hm : E.lag s with _ | m
      · simp only [hm, Option.map_none] at hsel
        have hA : ¬ AKrejects E s p := by rintro ⟨m, h, -⟩; rw [hm] at h; cases h
        have hF : AKfails E s := by rintro ⟨m, v, h, -⟩; rw [hm] at h; cases h
        rcases le_or_gt ra rb with h5 | h5
        · rcases hs01 with rfl | rfl
          · simp only [h5, if_true] at hsel
            exact Or.inr (Or.inl ⟨h1, Or.inr ⟨h5, fun h => hA h.2.2⟩, go 1 (by norm_num) hsel⟩)
          · exact absurd ⟨rfl, h1, h2, h3, h4, h5, hF⟩ hgood
        · simp only [h5.not_ge, if_false] at hsel
          exact Or.inr (Or.inr ⟨h2, Or.inr ⟨h5, fun h => hA h.2.2⟩, go 2 (by norm_num) hsel⟩)
      · rcases hk : m.ak with e | v
        · simp only [hm, hk, Option.map_some] at hsel
          have hA : ¬ AKrejects E s p := by
            rintro ⟨m', h, q, h', -⟩; rw [hm] at h; cases h; rw [hk] at h'; cases h'
          have hF : AKfails E s := by
            rintro ⟨m', v, h, h'⟩; rw [hm] at h; cases h; rw [hk] at h'; cases h'
          rcases le_or_gt ra rb with h5 | h5
          · rcases hs01 with rfl | rfl
            · simp only [h5, if_true] at hsel
              exact Or.inr (Or.inl ⟨h1, Or.inr ⟨h5, fun h => hA h.2.2⟩, go 1 (by norm_num) hsel⟩)
            · exact absurd ⟨rfl, h1, h2, h3, h4, h5, hF⟩ hgood
          · simp only [h5.not_ge, if_false] at hsel
            exact Or.inr (Or.inr ⟨h2, Or.inr ⟨h5, fun h => hA h.2.2⟩, go 2 (by norm_num) hsel⟩)
        · simp only [hm, hk, Option.map_some] at hsel
          rcases hv : le v p with _ | _
          · have hA : ¬ AKrejects E s p := by
              rintro ⟨m', h, q, h', h''⟩; rw [hm] at h; cases h; rw [hk] at h'; cases h'
              simp [le, h''] at hv
            simp only [hv, Bool.false_eq_true, if_false] at hsel
            rcases le_or_gt ra rb with h5 | h5
            · simp only [h5, if_true] at hsel
              exact Or.inr (Or.inl ⟨h1, Or.inr ⟨h5, fun h => hA h.2.2⟩, go 1 (by norm_num) hsel⟩)
            · simp only [h5, h5.not_ge, if_true, if_false] at hsel
              exact Or.inr (Or.inr ⟨h2, Or.inr ⟨h5, fun h => hA h.2.2⟩, go 2 (by norm_num) hsel⟩)
          · have hA : AKrejects E s p := by
              rcases v with _ | q
              · cases hv
              · exact ⟨m, hm, q, hk, by simpa [le] using hv⟩
            simp only [hv, if_true] at hsel
            exact Or.inl ⟨h1, h2, h3, h4, hA, go 3 (by norm_num) hsel⟩

/-- C45 fails in the excluded case: the search estimates the Durbin model but reports the label of the model
without WX. -/
theorem C45_pre_label_violated (E : World) (p a b ra rb : ℝ) (hs : PreOrder E p 1)
    (hl : (E.ols 1).lmLag = some a) (he : (E.ols 1).lmError = some b)
    (hrl : (E.ols 1).rlmLag = some ra) (hre : (E.ols 1).rlmError = some rb)
    (h1 : a < p) (h2 : b < p) (h3 : ra < p) (h4 : rb < p) (h5 : ra ≤ rb) (hF : AKfails E 1) :
    stgePre E p false = .ok ("LAG", none) ∧
    (E.ok (.lag 1) = true → stgePre E p true = .ok ("LAG", some (.lag 1))) ∧
    ∀ f, ¬ Reports E (stgePre E p) f ∨ f = .lag 0 := by
  have hslx : (if (lt (E.ols 0).lmWx p && lt (E.ols 0).rlmWx p) = true then 1 else 0) = 1 := by
    rcases hs with ⟨_, h⟩ | ⟨h, _⟩
    · rw [if_pos]; simpa [lt_iff_sig] using h
    · cases h
  have hsel : preSel E p = (1, some ("LAG", 5)) := by
    unfold preSel
    simp only [hslx]
    simp only [hl, he, hrl, hre, ge_some, lt_some, le2_some, gt2_some, Bool.and_eq_true,
      decide_eq_true_eq, h1, h2, h3, h4, h1.not_ge, h2.not_ge, h3.not_ge, h4.not_ge, and_self, and_false, false_and,
      if_true, if_false]
    rcases hm : E.lag 1 with _ | m
    · simp [h5, models]
    · rcases hk : m.ak with e | v
      · simp [h5, models, hk]
      · exact absurd ⟨m, v, hm, hk⟩ hF
  have h0 : stgePre E p false = .ok ("LAG", none) := by unfold stgePre; rw [hsel]; rfl
  refine ⟨h0, ?_, ?_⟩
  · intro h; unfold stgePre; rw [hsel]; simp [estimate, h]
  · intro f
    by_cases hf : f = .lag 0
    · exact Or.inr hf
    · left
      rintro ⟨l, hd, h, -⟩
      rw [h0] at h
      have : l = "LAG" := (Prod.mk.inj (Except.ok.inj h)).1.symm
      subst this
      exact hf (Option.some.inj hd).symm

end Spreg.Search
