import Verif.Model.SURLag
import Mathlib.Data.List.Forall2
set_option linter.unusedSectionVars false
namespace Spreg.SURLag
open Spreg

variable {α : Type}

theorem mapM_ok {β γ : Type} (f : β → Py γ) (l : List β) (o : List γ) :
    l.mapM f = .ok o ↔ List.Forall₂ (fun b c => f b = .ok c) l o := by
  induction l generalizing o with
  | nil => simp [pure, Except.pure, eq_comm]
  | cons b l ih =>
    simp only [List.mapM_cons, bind, Except.bind, pure, Except.pure]
    constructor
    · intro h
      cases hb : f b with
      | error e => simp [hb] at h
      | ok c =>
        simp only [hb] at h
        cases hl : l.mapM f with
        | error e => simp [hl] at h
        | ok cs =>
          simp only [hl, Except.ok.injEq] at h
          subst h
          exact List.Forall₂.cons hb ((ih cs).1 hl)
    · intro h
      cases h with
      | cons h1 h2 => simp [h1, (ih _).2 h2]

theorem lookup_ok (df : String → Option α) (l : List String) (o : List α) :
    lookup df l = .ok o ↔ List.Forall₂ (fun s c => df s = some c) l o := by
  rw [lookup, mapM_ok]
  constructor <;> intro h <;> refine h.imp fun s c hs => ?_
  · cases e : df s with
    | none => simp [e] at hs
    | some v => simpa [e] using hs
  · simp [hs]

theorem forall2_exists {β γ : Type} (R : β → γ → Prop) (l : List β) : (∃ o, List.Forall₂ R l o) ↔ ∀ b ∈ l, ∃ c, R b c := by
  induction l with
  | nil => exact ⟨fun _ => by simp, fun _ => ⟨[], List.Forall₂.nil⟩⟩
  | cons b l ih =>
    constructor
    · rintro ⟨o, ho⟩
      cases ho with
      | cons h1 h2 =>
        intro b' hb'
        rcases List.mem_cons.1 hb' with rfl | hb'
        · exact ⟨_, h1⟩
        · exact ih.1 ⟨_, h2⟩ b' hb'
    · intro h
      obtain ⟨c, hc⟩ := h b (by simp)
      obtain ⟨o, ho⟩ := ih.2 fun b' hb' => h b' (by simp [hb'])
      exact ⟨c :: o, List.Forall₂.cons hc ho⟩

theorem dictX_ok (df : String → Option α) (one : α) (r : ℕ) (xv : List String) (o : List α × List String) :
    dictX df one r xv = .ok o ↔ xv ≠ [] ∧ o.2 = ("Constant_" ++ toString (r + 1)) :: xv ∧
      ∃ x, o.1 = one :: x ∧ List.Forall₂ (fun s c => df s = some c) xv x := by
  unfold dictX
  simp only [bind, Except.bind, pure, Except.pure]
  constructor
  · intro h
    cases hl : lookup df xv with
    | error e => simp [hl] at h
    | ok x =>
      simp only [hl] at h
      split at h
      · cases h
      · next hne =>
        injection h with h
        subst h
        exact ⟨hne, rfl, x, rfl, (lookup_ok df xv x).1 hl⟩
  · rintro ⟨hne, h2, x, h1, hx⟩
    rw [(lookup_ok df xv x).2 hx]
    simp only [hne, if_false]
    rw [← h1, ← h2]

theorem dictXs_ok (df : String → Option α) (one : α) (xv : List (List String)) (o : List (List α × List String)) :
    dictXs df one xv = .ok o ↔ xv.length = o.length ∧ ∀ r (h : r < xv.length) (h' : r < o.length), dictX df one r xv[r] = .ok o[r] := by
  rw [dictXs, mapM_ok, List.forall₂_iff_get]
  simp

/-- C171: what the table has to contain for a system of two or more equations. -/
theorem C171_wide_ok (df : String → Option α) (rows : ℕ) (one : α) (yv : List String) (xv : List (List String))
    (sid tid : Option (List String)) (h2 : 2 ≤ yv.length) :
    (∃ d, surDictXY df rows one yv xv sid tid = .ok d) ↔
      (∀ s ∈ yv, (df s).isSome) ∧ xv.length = yv.length ∧ ∀ l ∈ xv, l ≠ [] ∧ ∀ s ∈ l, (df s).isSome := by
  have h1 : 1 < yv.length := h2
  have ex : ∀ l : List String, (∃ o, lookup df l = .ok o) ↔ ∀ s ∈ l, (df s).isSome := by
    intro l
    simp only [lookup_ok, forall2_exists, Option.isSome_iff_exists]
  have exs : (∃ o, dictXs df one xv = .ok o) ↔ ∀ l ∈ xv, l ≠ [] ∧ ∀ s ∈ l, (df s).isSome := by
    simp only [dictXs, mapM_ok, forall2_exists]
    constructor
    · intro h l hl
      obtain ⟨i, hi, rfl⟩ := List.mem_iff_getElem.1 hl
      obtain ⟨o, ho⟩ := h (xv[i], i) (by
        rw [List.mem_zipIdx_iff_getElem?]; simp [hi])
      obtain ⟨g1, _, x, _, g2⟩ := (dictX_ok df one _ _ _).1 ho
      exact ⟨g1, (ex _).1 ⟨x, (lookup_ok _ _ _).2 g2⟩⟩
    · intro h p hp
      have hl : p.1 ∈ xv := by
        rw [List.mem_zipIdx_iff_getElem?] at hp
        exact List.mem_of_getElem? hp
      obtain ⟨g1, g2⟩ := h _ hl
      obtain ⟨x, hx⟩ := (ex _).2 g2
      exact ⟨_, (dictX_ok df one p.2 p.1 (one :: x, _)).2 ⟨g1, rfl, x, rfl, (lookup_ok _ _ _).1 hx⟩⟩
  rw [← ex, ← exs]
  unfold surDictXY
  simp only [h1, if_true, bind, Except.bind, pure, Except.pure]
  cases hy : lookup df yv with
  | error e => simp
  | ok y =>
    by_cases hl : xv.length = yv.length
    · cases hx : dictXs df one xv with
      | error e => simp [hl]
      | ok o => simp [hl]
    · simp [hl]

/-- C171: the data of the equations. Equation `r` has the dependent variable named in position `r`, and a column of ones followed by the
columns named in the list of position `r`, in this order, called `Constant_{r+1}` and by their names. -/
theorem C171_wide (df : String → Option α) (rows : ℕ) (one : α) (yv : List String) (xv : List (List String))
    (sid tid : Option (List String)) (d : XY α) (h : surDictXY df rows one yv xv sid tid = .ok d) :
    2 ≤ yv.length ∧ d.nameY = yv ∧ List.Forall₂ (fun s c => df s = some c) yv d.y ∧
    xv.length = yv.length ∧ d.X.length = yv.length ∧ d.nameX.length = yv.length ∧
    ∀ r (hr : r < xv.length) (h1 : r < d.X.length) (h2 : r < d.nameX.length),
      d.nameX[r] = ("Constant_" ++ toString (r + 1)) :: xv[r] ∧
      ∃ x, d.X[r] = one :: x ∧ List.Forall₂ (fun s c => df s = some c) xv[r] x := by
  unfold surDictXY at h
  by_cases h1 : 1 < yv.length
  · simp only [h1, if_true, bind, Except.bind, pure, Except.pure] at h
    cases hy : lookup df yv with
    | error e => simp [hy] at h
    | ok y =>
      simp only [hy] at h
      split at h
      · cases h
      · next hl =>
        cases hx : dictXs df one xv with
        | error e => simp [hx] at h
        | ok o =>
          simp only [hx] at h
          injection h with h
          subst h
          obtain ⟨e1, e2⟩ := (dictXs_ok df one xv o).1 hx
          have hl' : xv.length = yv.length := by simpa using hl
          refine ⟨h1, rfl, (lookup_ok _ _ _).1 hy, hl', by simp; omega, by simp; omega, ?_⟩
          intro r hr g1 g2
          simp only [List.length_map] at g1
          obtain ⟨_, k1, k2⟩ := (dictX_ok df one r xv[r] _).1 (e2 r hr g1)
          simp only [List.getElem_map]
          exact ⟨k1, k2⟩
  · simp only [h1, if_false] at h
    split at h
    · cases tid with
      | none => cases h
      | some t =>
        simp only [bind, Except.bind] at h
        cases h3 : lookup df yv <;> simp only [h3] at h
        · cases h
        · cases sid with
          | none => cases h
          | some s =>
            simp only at h
            cases h4 : lookup df s <;> simp only [h4] at h
            · cases h
            · cases h5 : lookup df t <;> simp only [h5] at h
              · cases h
              · split at h
                · cases h
                · cases xv with
                  | nil => cases h
                  | cons x xs =>
                    simp only at h
                    cases h6 : lookup df x <;> simp only [h6] at h <;> cases h
    · cases h

/-- C171 violated: the documented layout with one row per unit and period, one dependent variable and identifiers for space and time never
gives the data. -/
theorem C171_long_violated (df : String → Option α) (rows : ℕ) (one : α) (y : String) (xv : List (List String))
    (sid tid : Option (List String)) (d : XY α) : surDictXY df rows one [y] xv sid tid ≠ .ok d := by
  intro h
  have := (C171_wide df rows one [y] xv sid tid d h).1
  simp at this

/-- C171: a call with names is a call with the dictionaries of the columns named, and the names reported are those of the columns, whatever
names the caller gives. -/
theorem C171_input (df : String → Option α) (rows : ℕ) (one : α) (yv : List String) (xv : List (List String))
    (ny : Option (List String)) (nx : Option (List (List String))) (d : SurData α) :
    surInput (some df) rows one (.names yv) (.names xv) ny nx = .ok d ↔
      ∃ t, surDictXY df rows one yv xv none none = .ok t ∧
        surInput (some df) rows one (.dict t.y) (.dict t.X) (some t.nameY) (some t.nameX) = .ok d := by
  unfold surInput
  simp only [bind, Except.bind, pure, Except.pure]
  by_cases hl : yv.length = xv.length
  · simp only [hl, if_true]
    cases ht : surDictXY df rows one yv xv none none with
    | error e => simp
    | ok t => simp
  · simp only [hl, if_false]
    constructor
    · intro h; cases h
    · rintro ⟨t, ht, _⟩
      exact absurd (C171_wide df rows one yv xv none none t ht).2.2.2.1.symm hl

/-- C171: mixed arguments and names without a table are refused. -/
theorem C171_refused (df : Option (String → Option α)) (rows : ℕ) (one : α) (y : Inp (List String) (List α))
    (X : Inp (List (List String)) (List (List α))) (ny : Option (List String)) (nx : Option (List (List String))) (d : SurData α)
    (h : surInput df rows one y X ny nx = .ok d) :
    (∃ a b, y = .dict a ∧ X = .dict b ∧ d = ⟨a, b, ny, nx⟩) ∨
    ∃ t yv xv, df = some t ∧ y = .names yv ∧ X = .names xv ∧ yv.length = xv.length ∧ d.nameY = some yv := by
  unfold surInput at h
  split at h
  · injection h with h
    exact .inl ⟨_, _, rfl, rfl, h.symm⟩
  · next yv xv =>
    split at h
    · next hl =>
      cases df with
      | none => cases h
      | some t =>
        right
        refine ⟨t, yv, xv, rfl, rfl, rfl, hl, ?_⟩
        simp only [bind, Except.bind, pure, Except.pure] at h
        cases ht : surDictXY t rows one yv xv none none with
        | error e => simp [ht] at h
        | ok r =>
          simp only [ht] at h
          injection h with h
          rw [← h, (C171_wide t rows one yv xv none none r ht).2.1]
    · cases h
  · cases h

/-- A table with three columns; a system of two equations is read from it. -/
def df3 : String → Option ℕ := fun s => if s = "HR80" then some 1 else if s = "HR90" then some 2 else if s = "PS90" then some 3 else none

theorem C171_example : surInput (some df3) 10 0 (.names ["HR80", "HR90"]) (.names [["PS90"], ["PS90", "HR80"]]) none none =
    .ok ⟨[1, 2], [[0, 3], [0, 3, 1]], some ["HR80", "HR90"], some [["Constant_1", "PS90"], ["Constant_2", "PS90", "HR80"]]⟩ := by
  rfl

end Spreg.SURLag
