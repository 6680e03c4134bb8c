import Verif.Model.Skater
import Mathlib.Logic.Relation
import Mathlib.Data.Finset.Card
import Mathlib.Data.Fintype.Card
import Mathlib.Data.Fintype.Option
import Mathlib.Algebra.BigOperators.Ring.Finset
import Mathlib.Tactic.Linarith
import Mathlib.Tactic.Tauto
/-
C46, C47: Skater regression.
-/
namespace Spreg.Skater
open Finset

variable {n : ℕ}

/-! ### Specification -/

/-- Two observations are connected by edges of the forest. -/
def Conn (E : List (Edge n)) : Fin n → Fin n → Prop := Relation.EqvGen fun a b => (a, b) ∈ E

/-- What `connected_components` promises: labels `0, ..., k-1`, equal exactly for connected observations. -/
structure CCSpec (cc : List (Edge n) → ℕ × Labels n) : Prop where
  iff : ∀ E a b, (cc E).2 a = (cc E).2 b ↔ Conn E a b
  lt : ∀ E a, (cc E).2 a < (cc E).1
  surj : ∀ E k, k < (cc E).1 → ∃ a, (cc E).2 a = k

/-- Every region has at least `q` members. -/
def MeetsQuorum (q : ℕ) (P : ℕ × Labels n) : Prop := ∀ l < P.1, q ≤ (region P.2 l).card

/-- The total score of a partition is `s`: every region has a finite score and they add up to `s`. -/
def Total (ρ : Finset (Fin n) → Option ℝ) (P : ℕ × Labels n) (s : ℝ) : Prop :=
  (∀ l < P.1, (ρ (region P.2 l)).isSome) ∧ s = ∑ l ∈ range P.1, (ρ (region P.2 l)).getD 0

/-- `P` refines `Q`. -/
def Refines (P Q : Labels n) : Prop := ∀ a b, P a = P b → Q a = Q b

/-- A sequence of accepted cuts starting from forest `E` with previous score `prev` (`none`: no previous score): every
cut removes one edge, adds exactly one region, refines the partition, respects the quorum; its recorded score is the
total score of the new partition, it is not above the previous one and not above that of any other single cut that
respects the quorum. -/
inductive Cuts (cc : List (Edge n) → ℕ × Labels n) (ρ : Finset (Fin n) → Option ℝ) (q : ℕ) :
    List (Edge n) → Option ℝ → List (Labels n × ℝ) → List (Edge n) → Prop where
  | done (E prev) : Cuts cc ρ q E prev [] E
  | cut (E prev) (e : Edge n) (s : ℝ) (rest F) (he : e ∈ E)
      (count : (cc (E.filter (· ≠ e))).1 = (cc E).1 + 1)
      (refines : Refines (cc (E.filter (· ≠ e))).2 (cc E).2)
      (quorum : MeetsQuorum q (cc (E.filter (· ≠ e))))
      (total : Total ρ (cc (E.filter (· ≠ e))) s)
      (best : ∀ e' ∈ E, ∀ s', MeetsQuorum q (cc (E.filter (· ≠ e'))) → Total ρ (cc (E.filter (· ≠ e'))) s' → s ≤ s')
      (down : ∀ p, prev = some p → s ≤ p)
      (next : Cuts cc ρ q (E.filter (· ≠ e)) (some s) rest F) :
      Cuts cc ρ q E prev (((cc (E.filter (· ≠ e))).2, s) :: rest) F

/-! ### Connectivity -/

theorem conn_mono {E : List (Edge n)} {e : Edge n} {a b : Fin n} (h : Conn (del E e) a b) : Conn E a b := by
  induction h with
  | rel a b hab => exact Relation.EqvGen.rel _ _ (List.mem_filter.1 hab).1
  | refl a => exact Relation.EqvGen.refl a
  | symm a b _ ih => exact Relation.EqvGen.symm _ _ ih
  | trans a b c _ _ ih1 ih2 => exact Relation.EqvGen.trans _ _ _ ih1 ih2

theorem conn_refl (E : List (Edge n)) (a : Fin n) : Conn E a a := Relation.EqvGen.refl a
theorem conn_symm {E : List (Edge n)} {a b : Fin n} (h : Conn E a b) : Conn E b a := Relation.EqvGen.symm _ _ h
theorem conn_trans {E : List (Edge n)} {a b c : Fin n} (h : Conn E a b) (h' : Conn E b c) : Conn E a c :=
  Relation.EqvGen.trans _ _ _ h h'

/-- Removing one edge: connected before means connected after, or both ends are connected to an end of the edge. -/
theorem conn_del {E : List (Edge n)} {e : Edge n} {a b : Fin n} (h : Conn E a b) :
    Conn (del E e) a b ∨
      ((Conn (del E e) a e.1 ∨ Conn (del E e) a e.2) ∧ (Conn (del E e) b e.1 ∨ Conn (del E e) b e.2)) := by
  induction h with
  | rel a b hab =>
    by_cases he : (a, b) = e
    · right; subst he; exact ⟨Or.inl (conn_refl _ _), Or.inr (conn_refl _ _)⟩
    · left; exact Relation.EqvGen.rel _ _ (by simp [del, hab, he])
  | refl a => left; exact conn_refl _ _
  | symm a b _ ih =>
    rcases ih with h | ⟨h1, h2⟩
    · left; exact conn_symm h
    · right; exact ⟨h2, h1⟩
  | trans a b c _ _ ih1 ih2 =>
    rcases ih1 with h | ⟨h1, h2⟩ <;> rcases ih2 with k | ⟨k1, k2⟩
    · left; exact conn_trans h k
    · right; exact ⟨k1.imp (conn_trans h) (conn_trans h), k2⟩
    · right
      exact ⟨h1, h2.imp (conn_trans (conn_symm k)) (conn_trans (conn_symm k))⟩
    · right; exact ⟨h1, k2⟩

section
variable {cc : List (Edge n) → ℕ × Labels n} (hcc : CCSpec cc)
include hcc

theorem refines_del (E : List (Edge n)) (e : Edge n) : Refines (cc (del E e)).2 (cc E).2 := by
  intro a b h
  rw [hcc.iff] at h ⊢
  exact conn_mono h

/-- Outside the tree of the removed edge nothing changes. -/
theorem same_outside {E : List (Edge n)} {e : Edge n} (he : e ∈ E) {a b : Fin n}
    (ha : (cc E).2 a ≠ (cc E).2 e.1) (h : (cc E).2 a = (cc E).2 b) : (cc (del E e)).2 a = (cc (del E e)).2 b := by
  rw [hcc.iff] at h ⊢
  rcases conn_del (e := e) h with h | ⟨h1, -⟩
  · exact h
  · exfalso; apply ha
    rw [hcc.iff]
    have h12 : Conn E e.1 e.2 := Relation.EqvGen.rel _ _ he
    rcases h1 with h1 | h1
    · exact conn_mono h1
    · exact conn_trans (conn_mono h1) (conn_symm h12)

/-- Removing one edge adds at most one component. -/
theorem count_del (E : List (Edge n)) (e : Edge n) : (cc (del E e)).1 ≤ (cc E).1 + 1 := by
  classical
  set P := cc (del E e)
  choose rep hrep using hcc.surj (del E e)
  let f : Fin P.1 → Option (Fin (cc E).1) := fun k =>
    if k.1 = P.2 e.1 then none else some ⟨(cc E).2 (rep k.1 k.2), hcc.lt E _⟩
  have hf : Function.Injective f := by
    intro k l hkl
    simp only [f] at hkl
    split_ifs at hkl with h1 h2 h2
    · exact Fin.ext (h1.trans h2.symm)
    · have := Fin.mk.inj (Option.some.inj hkl)
      rw [hcc.iff] at this
      have hk : P.2 (rep k.1 k.2) = k.1 := hrep k.1 k.2
      have hl : P.2 (rep l.1 l.2) = l.1 := hrep l.1 l.2
      have notu : ∀ (m : Fin P.1), m.1 ≠ P.2 e.1 → ¬ Conn (del E e) (rep m.1 m.2) e.1 := by
        intro m hm hc
        apply hm
        rw [← hcc.iff] at hc
        rw [← hrep m.1 m.2]; exact hc
      rcases conn_del (e := e) this with h | ⟨a1, a2⟩
      · rw [← hcc.iff] at h
        exact Fin.ext (by rw [← hk, ← hl]; exact h)
      · have b1 := a1.resolve_left (notu k h1)
        have b2 := a2.resolve_left (notu l h2)
        have h := conn_trans b1 (conn_symm b2)
        rw [← hcc.iff] at h
        exact Fin.ext (by rw [← hk, ← hl]; exact h)
  have := Fintype.card_le_of_injective f hf
  simpa using this

/-- Labels of the parts are labels. -/
theorem parts_lt {E E' : List (Edge n)} {t l : ℕ} (h : l ∈ parts (cc E').2 (cc E).2 t) : l < (cc E').1 := by
  simp only [parts, mem_image] at h
  obtain ⟨a, -, rfl⟩ := h
  exact hcc.lt _ _

/-- The region of a part lies in the tree that is cut. -/
theorem part_region {E : List (Edge n)} {e : Edge n} {t l : ℕ} (h : l ∈ parts (cc (del E e)).2 (cc E).2 t) :
    (region (cc E).2 t).filter (fun i => (cc (del E e)).2 i = l) = region (cc (del E e)).2 l := by
  simp only [parts, mem_image] at h
  obtain ⟨a, ha, rfl⟩ := h
  ext i
  simp only [region, mem_filter, mem_univ, true_and] at ha ⊢
  constructor
  · exact fun h => h.2
  · intro h
    refine ⟨?_, h⟩
    rw [← ha]
    exact refines_del hcc E e _ _ h

/-- A new region that is not a part of the cut tree is the old region of its members. -/
theorem other_region {E : List (Edge n)} {e : Edge n} (he : e ∈ E) {a : Fin n}
    (h : (cc (del E e)).2 a ∉ parts (cc (del E e)).2 (cc E).2 ((cc E).2 e.1)) :
    (cc E).2 a ≠ (cc E).2 e.1 ∧ region (cc (del E e)).2 ((cc (del E e)).2 a) = region (cc E).2 ((cc E).2 a) := by
  have h1 : (cc E).2 a ≠ (cc E).2 e.1 := by
    intro h'
    apply h
    simp only [parts, mem_image]
    exact ⟨a, by simp [region, h'], rfl⟩
  refine ⟨h1, ?_⟩
  ext i
  simp only [region, mem_filter, mem_univ, true_and]
  constructor
  · exact fun h => refines_del hcc E e _ _ h
  · exact fun h => (same_outside hcc he h1 h.symm).symm

/-- The regions outside the tree that is cut correspond one to one to the old regions outside it. -/
theorem other_sum {E : List (Edge n)} {e : Edge n} (he : e ∈ E) (g : Finset (Fin n) → ℝ) :
    ∑ l ∈ (range (cc (del E e)).1) \ parts (cc (del E e)).2 (cc E).2 ((cc E).2 e.1), g (region (cc (del E e)).2 l)
      = ∑ k ∈ (range (cc E).1).erase ((cc E).2 e.1), g (region (cc E).2 k) := by
  classical
  set P := cc (del E e)
  set Q := cc E
  -- from new labels to old labels through a member
  choose rep hrep using hcc.surj (del E e)
  have hnew : ∀ l (hl : l < P.1), l ∉ parts P.2 Q.2 (Q.2 e.1) → Q.2 (rep l hl) ≠ Q.2 e.1 := by
    intro l hl hn h
    apply hn
    simp only [parts, mem_image]
    exact ⟨rep l hl, by simp [region, h], hrep l hl⟩
  have hreg : ∀ l (hl : l < P.1), l ∉ parts P.2 Q.2 (Q.2 e.1) → region P.2 l = region Q.2 (Q.2 (rep l hl)) := by
    intro l hl hn
    ext i
    simp only [region, mem_filter, mem_univ, true_and]
    constructor
    · intro h
      exact refines_del hcc E e _ _ (h.trans (hrep l hl).symm)
    · intro h
      have := same_outside hcc he (hnew l hl hn) h.symm
      rw [← hrep l hl]
      exact this.symm
  refine Finset.sum_bij (fun l hl => Q.2 (rep l (by simpa using (mem_sdiff.1 hl).1))) ?_ ?_ ?_ ?_
  · intro l hl
    obtain ⟨h1, h2⟩ := mem_sdiff.1 hl
    exact mem_erase.2 ⟨hnew l _ h2, mem_range.2 (hcc.lt E _)⟩
  · intro l hl l' hl' h
    obtain ⟨h1, h2⟩ := mem_sdiff.1 hl
    obtain ⟨h1', h2'⟩ := mem_sdiff.1 hl'
    have := same_outside hcc he (hnew l (by simpa using h1) h2) h
    rw [show (cc (del E e)).2 (rep l _) = l from hrep l _, show (cc (del E e)).2 (rep l' _) = l' from hrep l' _] at this
    exact this
  · intro k hk
    rw [mem_erase, mem_range] at hk
    obtain ⟨a, ha⟩ := hcc.surj E k hk.2
    have hl : P.2 a < P.1 := hcc.lt _ a
    have hn : P.2 a ∉ parts P.2 Q.2 (Q.2 e.1) := by
      intro h
      simp only [parts, mem_image] at h
      obtain ⟨b, hb, hab⟩ := h
      have h1 : Q.2 b = Q.2 a := refines_del hcc E e _ _ hab
      simp only [region, mem_filter, mem_univ, true_and] at hb
      apply hk.1
      rw [← ha, ← h1, hb]
    refine ⟨P.2 a, by rw [mem_sdiff, mem_range]; exact ⟨hl, hn⟩, ?_⟩
    have : Q.2 (rep (P.2 a) hl) = Q.2 a := refines_del hcc E e _ _ (hrep (P.2 a) hl)
    exact this.trans ha
  · intro l hl
    obtain ⟨h1, h2⟩ := mem_sdiff.1 hl
    rw [hreg l (by simpa using h1) h2]

/-! ### One cut -/

/-- The dictionary holds the exact score of every region of the partition. -/
def Exact (ρ : Finset (Fin n) → Option ℝ) (P : ℕ × Labels n) (d : Dict) : Prop :=
  d.keys = range P.1 ∧ ∀ k < P.1, ρ (region P.2 k) = some (d.val k)

omit hcc in
theorem Exact.total {ρ : Finset (Fin n) → Option ℝ} {P : ℕ × Labels n} {d : Dict} (h : Exact ρ P d) :
    Total ρ P d.sum := by
  refine ⟨fun l hl => by rw [h.2 l hl]; rfl, ?_⟩
  unfold Dict.sum
  rw [h.1]
  exact Finset.sum_congr rfl fun k hk => by rw [h.2 k (mem_range.1 hk)]; rfl

/-- Known scores at the start of a search: exact ones, or none for a connected forest. -/
def Known (cc : List (Edge n) → ℕ × Labels n) (ρ : Finset (Fin n) → Option ℝ) (E : List (Edge n))
    (ts : Option Dict) : Prop :=
  (∃ d, ts = some d ∧ Exact ρ (cc E) d) ∨ (ts = none ∧ (cc E).1 = 1)

/-- The reference level: score = level - difference. -/
noncomputable def level (ts : Option Dict) : ℝ := match ts with | some d => d.sum | none => 0

omit hcc in
theorem scoreParts_some {ρ : Finset (Fin n) → Option ℝ} {q : ℕ} {lab cur : Labels n} {t : ℕ} {d : Dict}
    (h : scoreParts ρ q lab cur t = some d) :
    (∀ l ∈ parts lab cur t, q ≤ ((region cur t).filter fun i => lab i = l).card) ∧
    (∀ l ∈ parts lab cur t, (ρ (region lab l)).isSome) ∧
    d = ⟨parts lab cur t, fun l => (ρ (region lab l)).getD 0⟩ := by
  unfold scoreParts at h
  split_ifs at h with h1 h2
  exact ⟨h1, h2, (Option.some.inj h).symm⟩

/-- In a connected forest the parts are all new regions. -/
theorem parts_all {E : List (Edge n)} (h1 : (cc E).1 = 1) (e : Edge n) :
    parts (cc (del E e)).2 (cc E).2 ((cc E).2 e.1) = range (cc (del E e)).1 := by
  ext l
  rw [mem_range]
  refine ⟨parts_lt hcc, fun hl => ?_⟩
  obtain ⟨a, ha⟩ := hcc.surj _ l hl
  simp only [parts, mem_image]
  refine ⟨a, ?_, ha⟩
  have := hcc.lt E a
  have := hcc.lt E e.1
  simp only [region, mem_filter, mem_univ, true_and]
  omega

theorem parts_sub (E : List (Edge n)) (e : Edge n) :
    parts (cc (del E e)).2 (cc E).2 ((cc E).2 e.1) ⊆ range (cc (del E e)).1 :=
  fun _ hl => mem_range.2 (parts_lt hcc hl)

/-- Score and total of an admissible candidate. -/
theorem cand_total {ρ : Finset (Fin n) → Option ℝ} {q : ℕ} {E : List (Edge n)} {ts : Option Dict}
    (hk : Known cc ρ E ts) {e : Edge n} (he : e ∈ E) {nts : Dict}
    (hs : scoreParts ρ q (cc (del E e)).2 (cc E).2 ((cc E).2 e.1) = some nts) :
    Total ρ (cc (del E e)) (dAndScore ts ((cc E).2 e.1) nts.sum).2 ∧
    (dAndScore ts ((cc E).2 e.1) nts.sum).2 = level ts - (dAndScore ts ((cc E).2 e.1) nts.sum).1 := by
  obtain ⟨-, h2, h3⟩ := scoreParts_some hs
  have hsum : nts.sum = ∑ l ∈ parts (cc (del E e)).2 (cc E).2 ((cc E).2 e.1), (ρ (region (cc (del E e)).2 l)).getD 0 := by
    rw [h3]; rfl
  rcases hk with ⟨d, rfl, hd⟩ | ⟨rfl, h1⟩
  · have htree : (cc E).2 e.1 ∈ range (cc E).1 := mem_range.2 (hcc.lt E _)
    have hget : d.get ((cc E).2 e.1) = some (d.val ((cc E).2 e.1)) := by
      unfold Dict.get; rw [hd.1, if_pos htree]
    have e1 : dAndScore (some d) ((cc E).2 e.1) nts.sum
        = (d.val ((cc E).2 e.1) - nts.sum, d.sum - (d.val ((cc E).2 e.1) - nts.sum)) := by
      unfold dAndScore; simp only [hget]
    rw [e1]
    refine ⟨⟨?_, ?_⟩, rfl⟩
    · intro l hl
      by_cases hp : l ∈ parts (cc (del E e)).2 (cc E).2 ((cc E).2 e.1)
      · exact h2 l hp
      · obtain ⟨a, rfl⟩ := hcc.surj _ l hl
        rw [(other_region hcc he hp).2, hd.2 _ (hcc.lt E _)]; rfl
    · have h4 := other_sum hcc he (fun S => (ρ S).getD 0)
      have h5 := Finset.sum_sdiff (parts_sub hcc E e) (f := fun l => (ρ (region (cc (del E e)).2 l)).getD 0)
      have h6 := Finset.add_sum_erase (range (cc E).1) (fun k => (ρ (region (cc E).2 k)).getD 0) htree
      have h7 : d.sum = ∑ k ∈ range (cc E).1, (ρ (region (cc E).2 k)).getD 0 := hd.total.2
      have h8 : d.val ((cc E).2 e.1) = (ρ (region (cc E).2 ((cc E).2 e.1))).getD 0 := by
        rw [hd.2 _ (hcc.lt E _)]; rfl
      linarith
  · have e1 : dAndScore none ((cc E).2 e.1) nts.sum = (-nts.sum, nts.sum) := rfl
    rw [e1]
    have hp := parts_all hcc h1 e
    refine ⟨⟨fun l hl => h2 l (by rw [hp]; exact mem_range.2 hl), ?_⟩, by simp [level]⟩
    rw [hsum, hp]

/-- An admissible candidate keeps the quorum. -/
theorem cand_quorum {ρ : Finset (Fin n) → Option ℝ} {q : ℕ} {E : List (Edge n)} (hq : MeetsQuorum q (cc E))
    {e : Edge n} (he : e ∈ E) {nts : Dict}
    (hs : scoreParts ρ q (cc (del E e)).2 (cc E).2 ((cc E).2 e.1) = some nts) : MeetsQuorum q (cc (del E e)) := by
  obtain ⟨h1, -, -⟩ := scoreParts_some hs
  intro l hl
  by_cases hp : l ∈ parts (cc (del E e)).2 (cc E).2 ((cc E).2 e.1)
  · rw [← part_region hcc hp]; exact h1 l hp
  · obtain ⟨a, rfl⟩ := hcc.surj _ l hl
    rw [(other_region hcc he hp).2]
    exact hq _ (hcc.lt E _)

/-- Every cut that keeps the quorum and has finite scores is admissible. -/
theorem cand_complete {ρ : Finset (Fin n) → Option ℝ} {q : ℕ} {E : List (Edge n)} {e : Edge n} {s : ℝ}
    (hq : MeetsQuorum q (cc (del E e))) (ht : Total ρ (cc (del E e)) s) :
    ∃ nts, scoreParts ρ q (cc (del E e)).2 (cc E).2 ((cc E).2 e.1) = some nts := by
  unfold scoreParts
  rw [if_pos, if_pos]
  · exact ⟨_, rfl⟩
  · exact fun l hl => ht.1 l (parts_lt hcc hl)
  · intro l hl
    rw [part_region hcc hl]
    exact hq l (parts_lt hcc hl)

omit hcc in
theorem total_unique {ρ : Finset (Fin n) → Option ℝ} {P : ℕ × Labels n} {s s' : ℝ} (h : Total ρ P s)
    (h' : Total ρ P s') : s = s' := h.2.trans h'.2.symm

omit hcc in
/-- The carried-over part of the dictionary. -/
theorem carry_fold {t : Dict} {cur lab : Labels n} (href : Refines lab cur) (L : List ℕ) (hnd : L.Nodup)
    (hL : ∀ i ∈ L, i ∈ t.keys ∧ ∃ j, cur j = i) (old : Dict) :
    ∃ b, L.foldlM (carry t cur lab) old = some b ∧
      (∀ i ∈ L, ∃ j, cur j = i ∧ lab j ∈ b.keys ∧ b.val (lab j) = t.val i) ∧
      (old.keys ⊆ b.keys) ∧ (∀ k ∈ b.keys, k ∈ old.keys ∨ ∃ j, lab j = k) ∧
      (∀ j, cur j ∉ L → b.val (lab j) = old.val (lab j)) := by
  induction L generalizing old with
  | nil => exact ⟨old, rfl, by simp, by simp, fun k hk => Or.inl hk, fun _ _ => rfl⟩
  | cons i L ih =>
    obtain ⟨hi, j0, hj0⟩ := hL i (by simp)
    have hf : ((List.finRange n).find? fun j => cur j = i).isSome := by
      rw [List.find?_isSome]
      exact ⟨j0, by simp, by simp [hj0]⟩
    obtain ⟨j, hj⟩ := Option.isSome_iff_exists.1 hf
    have hcj : cur j = i := by simpa using List.find?_some hj
    have hc : carry t cur lab old i = some (old.set (lab j) (t.val i)) := by
      unfold carry Dict.get
      simp [hj, hi, bind, Option.bind]
    obtain ⟨hiL, hnd'⟩ := List.nodup_cons.1 hnd
    obtain ⟨b, h1, h2, h3, h4, h5⟩ := ih hnd' (fun i' hi' => hL i' (by simp [hi'])) (old.set (lab j) (t.val i))
    refine ⟨b, ?_, ?_, ?_, ?_, ?_⟩
    · rw [List.foldlM_cons, hc]; exact h1
    · intro i' hi'
      rcases List.mem_cons.1 hi' with rfl | hi'
      · refine ⟨j, hcj, h3 (by simp [Dict.set]), ?_⟩
        rw [h5 j (by rw [hcj]; exact hiL)]
        simp [Dict.set]
      · exact h2 i' hi'
    · exact fun k hk => h3 (by simp [Dict.set, hk])
    · intro k hk
      rcases h4 k hk with h | h
      · simp only [Dict.set, mem_insert] at h
        rcases h with rfl | h
        · exact Or.inr ⟨j, rfl⟩
        · exact Or.inl h
      · exact Or.inr h
    · intro j' hj'
      rw [List.mem_cons, not_or] at hj'
      rw [h5 j' hj'.2]
      simp only [Dict.set]
      rw [if_neg]
      intro h
      exact hj'.1 ((href _ _ h).trans hcj)

/-- The dictionary after an admissible candidate is exact. -/
theorem cand_exact {ρ : Finset (Fin n) → Option ℝ} {q : ℕ} {E : List (Edge n)} {ts : Option Dict}
    (hk : Known cc ρ E ts) {e : Edge n} (he : e ∈ E) {nts old : Dict} (hold : old.keys ⊆ range (cc (del E e)).1)
    (hs : scoreParts ρ q (cc (del E e)).2 (cc E).2 ((cc E).2 e.1) = some nts) :
    Exact ρ (cc (del E e)) (newScores old ts (cc E).2 (cc (del E e)).2 nts) := by
  obtain ⟨-, h2, h3⟩ := scoreParts_some hs
  have hpart : ∀ l ∈ parts (cc (del E e)).2 (cc E).2 ((cc E).2 e.1), ρ (region (cc (del E e)).2 l) = some (nts.val l) := by
    intro l hl
    obtain ⟨v, hv⟩ := Option.isSome_iff_exists.1 (h2 l hl)
    rw [h3, hv]; simp [hv]
  have hkeys : nts.keys = parts (cc (del E e)).2 (cc E).2 ((cc E).2 e.1) := by rw [h3]
  rcases hk with ⟨d, rfl, hd⟩ | ⟨rfl, h1⟩
  · obtain ⟨b, b1, b2, b3, b4, -⟩ := carry_fold (t := d) (refines_del hcc E e)
      (((List.finRange n).map (cc E).2).dedup) (List.nodup_dedup _)
      (fun i hi => by
        rw [List.mem_dedup, List.mem_map] at hi
        obtain ⟨j, -, rfl⟩ := hi
        exact ⟨by rw [hd.1]; exact mem_range.2 (hcc.lt E _), j, rfl⟩) old
    have hn : newScores old (some d) (cc E).2 (cc (del E e)).2 nts = b.merge nts := by
      unfold newScores; simp only [b1]
    rw [hn]
    have hother : ∀ k < (cc (del E e)).1, k ∉ parts (cc (del E e)).2 (cc E).2 ((cc E).2 e.1) →
        k ∈ b.keys ∧ ρ (region (cc (del E e)).2 k) = some (b.val k) := by
      intro k hk hp
      obtain ⟨a, rfl⟩ := hcc.surj _ k hk
      obtain ⟨o1, o2⟩ := other_region hcc he hp
      obtain ⟨j, hj, hjk, hjv⟩ := b2 ((cc E).2 a) (by simp)
      have hlab := same_outside hcc he (by rw [hj]; exact o1) hj
      rw [hlab] at hjk hjv
      exact ⟨hjk, by rw [o2, hd.2 _ (hcc.lt E _), hjv]⟩
    constructor
    · ext k
      simp only [Dict.merge, mem_union, mem_range, hkeys]
      constructor
      · rintro (h | h)
        · rcases b4 k h with h | ⟨j, rfl⟩
          · exact mem_range.1 (hold h)
          · exact hcc.lt _ _
        · exact parts_lt hcc h
      · intro h
        by_cases hp : k ∈ parts (cc (del E e)).2 (cc E).2 ((cc E).2 e.1)
        · exact Or.inr hp
        · exact Or.inl (hother k h hp).1
    · intro k hk
      simp only [Dict.merge, hkeys]
      by_cases hp : k ∈ parts (cc (del E e)).2 (cc E).2 ((cc E).2 e.1)
      · rw [if_pos hp]; exact hpart k hp
      · rw [if_neg hp]; exact (hother k hk hp).2
  · have hp := parts_all hcc h1 e
    refine ⟨by show nts.keys = _; rw [hkeys, hp], fun k hk => ?_⟩
    exact hpart k (by rw [hp]; exact mem_range.2 hk)

end

end Spreg.Skater
