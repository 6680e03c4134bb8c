import Verif.Props.Skater3
import Mathlib.Data.Fin.VecNotation
import Mathlib.Algebra.Order.BigOperators.Group.Finset
/-
C46, C47: concrete cases, and graphs with islands.
-/
namespace Spreg.Skater
open Finset

variable {n : ℕ}

/-! ### A labelling with the promised behaviour exists -/

def connSetoid (E : List (Edge n)) : Setoid (Fin n) := Relation.EqvGen.setoid fun a b => (a, b) ∈ E

open Classical in
/-- Components as classes of the equivalence relation, numbered arbitrarily. -/
noncomputable def classes (E : List (Edge n)) : ℕ × Labels n :=
  (Fintype.card (Quotient (connSetoid E)), fun a => (Fintype.equivFin (Quotient (connSetoid E)) ⟦a⟧).1)

theorem classes_spec : CCSpec (classes (n := n)) where
  iff E a b := by
    classical
    unfold classes
    simp only [Fin.val_inj, EmbeddingLike.apply_eq_iff_eq]
    exact Quotient.eq (r := connSetoid E)
  lt E a := Fin.is_lt _
  surj E k hk := by
    classical
    obtain ⟨a, ha⟩ := Quotient.exists_rep ((Fintype.equivFin (Quotient (connSetoid E))).symm ⟨k, hk⟩)
    refine ⟨a, ?_⟩
    unfold classes
    simp only
    rw [ha, Equiv.apply_symm_apply]

/-- Connectivity from an invariant `f` whose classes are stars. -/
theorem conn_iff_star {E : List (Edge n)} {α : Type*} (f : Fin n → α) (hf : ∀ e ∈ E, f e.1 = f e.2)
    (hs : ∀ a b, f a = f b → ∃ r, (a = r ∨ (r, a) ∈ E) ∧ (b = r ∨ (r, b) ∈ E)) (a b : Fin n) :
    Conn E a b ↔ f a = f b := by
  constructor
  · intro h
    induction h with
    | rel a b hab => exact hf _ hab
    | refl a => rfl
    | symm a b _ ih => exact ih.symm
    | trans a b c _ _ ih1 ih2 => exact ih1.trans ih2
  · intro h
    obtain ⟨r, ha, hb⟩ := hs a b h
    have go : ∀ x, (x = r ∨ (r, x) ∈ E) → Conn E r x := by
      rintro x (rfl | h)
      · exact conn_refl _ _
      · exact Relation.EqvGen.rel _ _ h
    exact conn_trans (conn_symm (go a ha)) (go b hb)

section
variable {cc : List (Edge n) → ℕ × Labels n} (hcc : CCSpec cc)
include hcc

/-- The regions are the classes of the invariant. -/
theorem region_of {E : List (Edge n)} {α : Type*} [DecidableEq α] (f : Fin n → α)
    (hf : ∀ a b, Conn E a b ↔ f a = f b) (a : Fin n) :
    region (cc E).2 ((cc E).2 a) = univ.filter fun i => f i = f a := by
  ext i
  simp only [region, mem_filter, mem_univ, true_and]
  rw [hcc.iff, hf]

/-- The number of regions is the number of values of the invariant. -/
theorem count_of {E : List (Edge n)} {α : Type*} [DecidableEq α] (f : Fin n → α)
    (hf : ∀ a b, Conn E a b ↔ f a = f b) : (cc E).1 = (univ.image f).card := by
  have h1 : univ.image (cc E).2 = range (cc E).1 := by
    ext k
    simp only [mem_image, mem_univ, true_and, mem_range]
    exact ⟨fun ⟨a, ha⟩ => ha ▸ hcc.lt E a, hcc.surj E k⟩
  have h2 : (cc E).1 = (univ.image (cc E).2).card := by rw [h1, card_range]
  rw [h2]
  have key : ∀ a b, (cc E).2 a = (cc E).2 b ↔ f a = f b := fun a b => by rw [hcc.iff, hf]
  have hm : ∀ k ∈ univ.image (cc E).2, ∃ a, (cc E).2 a = k := fun k hk => by
    obtain ⟨a, -, ha⟩ := mem_image.1 hk; exact ⟨a, ha⟩
  choose rep hrep using hm
  refine Finset.card_bij (fun k hk => f (rep k hk)) (fun k hk => by simp) ?_ ?_
  · intro k hk l hl h
    rw [← hrep k hk, ← hrep l hl, key]; exact h
  · intro c hc
    obtain ⟨a, -, rfl⟩ := mem_image.1 hc
    have hk : (cc E).2 a ∈ univ.image (cc E).2 := by simp
    exact ⟨_, hk, (key _ _).1 (hrep _ hk)⟩

end

/-! ### A star with five nodes: no cut leaves two nodes on both sides -/

def star : List (Edge 5) := [(0, 1), (0, 2), (0, 3), (0, 4)]

theorem star_conn (a b : Fin 5) : Conn star a b ↔ (fun _ => ()) a = (fun _ => ()) b :=
  conn_iff_star (fun _ : Fin 5 => ()) (fun _ _ => rfl)
    (by intro a b _; exact ⟨0, by revert a; decide, by revert b; decide⟩) a b

theorem star_del_conn (e : Edge 5) (he : e ∈ star) (a b : Fin 5) :
    Conn (star.filter (· ≠ e)) a b ↔ decide (a = e.2) = decide (b = e.2) := by
  refine conn_iff_star (fun i => decide (i = e.2)) ?_ ?_ a b
  · revert e; decide
  · intro a b h
    refine if h' : a = e.2 then ⟨a, Or.inl rfl, Or.inl ?_⟩ else ⟨0, ?_, ?_⟩
    · simp only [h', decide_true] at h
      rw [h']; simpa using h.symm
    · clear h; revert a e; decide
    · have hb : b ≠ e.2 := by simpa [h'] using h
      clear h h'; revert b e; decide

theorem star_forest : Forest star := by
  intro e he h
  rw [star_del_conn e he] at h
  revert e; decide

theorem star_no_cut {cc : List (Edge 5) → ℕ × Labels 5} (hcc : CCSpec cc) :
    ∀ e ∈ star, ¬ MeetsQuorum 2 (cc (star.filter (· ≠ e))) := by
  intro e he h
  have h1 := h _ (hcc.lt _ e.2)
  rw [region_of hcc (fun i => decide (i = e.2)) (star_del_conn e he)] at h1
  clear h
  revert e; decide

/-- C47 fails on the star with five nodes, quorum 2 and two clusters, although 5 > 2 * 2 passes the guard. -/
theorem C47_star_violated {cc : List (Edge 5) → ℕ × Labels 5} (hcc : CCSpec cc) (ρ : Finset (Fin 5) → Option ℝ) :
    ∃ R, fit cc ρ 2 2 false star = .ok R ∧ R.labels = none :=
  C47_no_cut_violated hcc star_forest (by rw [count_of hcc _ star_conn]; decide) (by norm_num) (by norm_num)
    (star_no_cut hcc)

/-- With quorum 1 the same star is cut: the hypotheses of C46 are met by a real run. -/
example : ∃ R, fit classes (fun S : Finset (Fin 5) => some (-(1 : ℝ))) 1 2 false star = .ok R :=
  (C46_no_errors (classes_spec (n := 5)) (ρ := fun _ => some (-(1 : ℝ)))
    (by intro A B a b c _ ha hb hc; cases ha; cases hb; cases hc; norm_num) star_forest
    (by rw [count_of classes_spec _ star_conn]; decide) (by norm_num)).2 (by norm_num)

/-! ### Islands -/

section
variable {cc : List (Edge n) → ℕ × Labels n} (hcc : CCSpec cc)
include hcc

/-- Invariant of the first search, without known scores: the recorded score is that of the two parts of the cut tree. -/
structure First (cc : List (Edge n) → ℕ × Labels n) (ρ : Finset (Fin n) → Option ℝ) (E : List (Edge n))
    (b : Best n) : Prop where
  mem : b.edge ∈ E
  labels : b.labels = (cc (del E b.edge)).2
  isSome : ∀ l ∈ parts (cc (del E b.edge)).2 (cc E).2 ((cc E).2 b.edge.1), (ρ (region (cc (del E b.edge)).2 l)).isSome
  score : b.score = ∑ l ∈ parts (cc (del E b.edge)).2 (cc E).2 ((cc E).2 b.edge.1),
    (ρ (region (cc (del E b.edge)).2 l)).getD 0

theorem first_fold {ρ : Finset (Fin n) → Option ℝ} {q : ℕ} {E : List (Edge n)} (M : List (Edge n))
    (hM : ∀ e ∈ M, e ∈ E) (curN : ℕ) (st st' : Option (Best n) × Dict × Option ℕ)
    (hi : ∀ b, st.1 = some b → First cc ρ E b)
    (h : M.foldlM (candidate cc ρ q E curN (cc E).2 none) st = .ok st') : ∀ b, st'.1 = some b → First cc ρ E b := by
  induction M generalizing st with
  | nil => cases h; exact hi
  | cons e M ih =>
    rw [List.foldlM_cons] at h
    cases hc : candidate cc ρ q E curN (cc E).2 none st e with
    | error x => rw [hc] at h; cases h
    | ok st1 =>
      rw [hc] at h
      refine ih (fun e' he' => hM e' (by simp [he'])) st1 ?_ h
      unfold candidate at hc
      simp only at hc
      split_ifs at hc
      cases hs : scoreParts ρ q (cc (del E e)).2 (cc E).2 ((cc E).2 e.1) with
      | none => rw [hs] at hc; cases hc; exact hi
      | some nts =>
        rw [hs] at hc
        simp only at hc
        obtain ⟨-, h2, h3⟩ := scoreParts_some hs
        split_ifs at hc
        · cases hc
          intro b hb
          cases hb
          exact ⟨hM e (by simp), rfl, h2, by simp [dAndScore, h3, Dict.sum]⟩
        · cases hc; exact hi

/-- C46 fails with islands: when the graph has several components and every region has a positive score, the score
recorded for the first accepted cut is strictly smaller than the total score of its partition, because the scores of the
components that are not cut are left out. -/
theorem C46_islands_violated {ρ : Finset (Fin n) → Option ℝ} {q nClusters : ℕ} {ignore : Bool} {E : List (Edge n)}
    (h1 : 1 < (cc E).1) (hpos : ∀ S s, ρ S = some s → 0 < s) {R : Res n} {lab : Labels n} {s : ℝ}
    {rest : List (Option (Labels n × ℝ))} (h : fit cc ρ q nClusters ignore E = .ok R)
    (htr : R.trace = some (lab, s) :: rest) :
    ∃ e ∈ E, lab = (cc (E.filter (· ≠ e))).2 ∧ ∀ t, Total ρ (cc (E.filter (· ≠ e))) t → s < t := by
  obtain ⟨tg, h⟩ : ∃ tg, loop cc ρ q tg tg E (cc E).1 (cc E).2 none none = .ok R := by
    unfold fit at h
    split_ifs at h with hg
    simp only at h
    split_ifs at h with hg2
    all_goals exact ⟨_, h⟩
  cases tg with
  | zero => cases h; cases htr
  | succ m =>
    rw [loop] at h
    split_ifs at h
    · cases hf : findCut cc ρ q E (cc E).1 (cc E).2 none with
      | error x => rw [hf] at h; cases h
      | ok r =>
        rw [hf] at h
        cases r with
        | none => cases h; cases htr
        | some bl =>
          obtain ⟨b, ln⟩ := bl
          have hfirst : First cc ρ E b := by
            unfold findCut at hf
            cases hfo : E.foldlM (candidate cc ρ q E (cc E).1 (cc E).2 none) (none, Dict.empty, none) with
            | error x => rw [hfo] at hf; cases hf
            | ok st =>
              rw [hfo] at hf
              have hi := first_fold hcc E (fun _ h => h) _ _ _ (fun b hb => by cases hb) hfo
              obtain ⟨ob, d, oln⟩ := st
              cases ob with
              | none => simp [bind, Except.bind, pure, Except.pure] at hf
              | some b' =>
                cases oln with
                | none => simp [bind, Except.bind, pure, Except.pure] at hf
                | some l' =>
                  simp [bind, Except.bind, pure, Except.pure] at hf
                  rw [← hf.1]; exact hi b' rfl
          have hR : lab = b.labels ∧ s = b.score := by
            cases hr : loop cc ρ q (m + 1) m b.msf ln b.labels (some b.scores) (some b.score) with
            | error x => simp [bind, Except.bind, hr] at h
            | ok r =>
              simp [bind, Except.bind, hr, pure, Except.pure] at h
              rw [← h] at htr
              simp only [List.cons.injEq, Option.some.injEq, Prod.mk.injEq] at htr
              exact ⟨htr.1.1.symm, htr.1.2.symm⟩
          refine ⟨b.edge, hfirst.mem, by rw [hR.1, hfirst.labels]; rfl, ?_⟩
          intro t ht
          rw [hR.2, hfirst.score, ht.2]
          have h5 := Finset.sum_sdiff (parts_sub hcc E b.edge)
            (f := fun l => (ρ (region (cc (del E b.edge)).2 l)).getD 0)
          have h6 : 0 < ∑ l ∈ range (cc (del E b.edge)).1 \ parts (cc (del E b.edge)).2 (cc E).2 ((cc E).2 b.edge.1),
              (ρ (region (cc (del E b.edge)).2 l)).getD 0 := by
            apply Finset.sum_pos
            · intro l hl
              obtain ⟨v, hv⟩ := Option.isSome_iff_exists.1 (ht.1 l (mem_range.1 (mem_sdiff.1 hl).1))
              have hv' : ρ (region (cc (del E b.edge)).2 l) = some v := hv
              rw [hv']; exact hpos _ _ hv'
            · obtain ⟨k, hk, hne⟩ : ∃ k < (cc E).1, k ≠ (cc E).2 b.edge.1 := by
                by_cases h0 : (cc E).2 b.edge.1 = 0
                · exact ⟨1, h1, by omega⟩
                · exact ⟨0, by omega, by omega⟩
              obtain ⟨a, ha⟩ := hcc.surj E k hk
              refine ⟨(cc (del E b.edge)).2 a, mem_sdiff.2 ⟨mem_range.2 (hcc.lt _ _), ?_⟩⟩
              intro hp
              simp only [parts, mem_image] at hp
              obtain ⟨x, hx, hxa⟩ := hp
              simp only [region, mem_filter, mem_univ, true_and] at hx
              exact hne (by rw [← ha, ← refines_del hcc E b.edge _ _ hxa, hx])
          show _ < ∑ l ∈ range (cc (del E b.edge)).1, (ρ (region (cc (del E b.edge)).2 l)).getD 0
          linarith
    · cases h; cases htr

end

/-! ### Two pairs: the second cut raises although the total score falls -/

def pairs : List (Edge 4) := [(0, 1), (2, 3)]

def wt : Fin 4 → ℝ := ![1, 1, 3, 3]

/-- A score that never increases when a region is split. -/
noncomputable def sq (S : Finset (Fin 4)) : ℝ := (∑ i ∈ S, wt i) ^ 2

theorem sq_splits : Splits (fun S => some (sq S)) := by
  intro A B a b c hd ha hb hc
  cases ha; cases hb; cases hc
  have hpos : ∀ S : Finset (Fin 4), 0 ≤ ∑ i ∈ S, wt i := fun S =>
    Finset.sum_nonneg fun i _ => by fin_cases i <;> simp [wt]
  unfold sq
  rw [Finset.sum_union hd]
  nlinarith [hpos A, hpos B, mul_nonneg (hpos A) (hpos B)]

def f0 : Fin 4 → Fin 4 := ![0, 0, 2, 2]
def f1 : Fin 4 → Fin 4 := ![0, 1, 2, 2]
def f2 : Fin 4 → Fin 4 := ![0, 0, 2, 3]

theorem pairs_conn (a b : Fin 4) : Conn pairs a b ↔ f0 a = f0 b :=
  conn_iff_star f0 (by decide) (by decide) a b
theorem pairs1_conn (a b : Fin 4) : Conn (del pairs (0, 1)) a b ↔ f1 a = f1 b :=
  conn_iff_star f1 (by decide) (by decide) a b
theorem pairs2_conn (a b : Fin 4) : Conn (del pairs (2, 3)) a b ↔ f2 a = f2 b :=
  conn_iff_star f2 (by decide) (by decide) a b
theorem pairs3_conn (a b : Fin 4) : Conn (del (del pairs (0, 1)) (2, 3)) a b ↔ a = b :=
  conn_iff_star id (by decide) (by decide) a b

theorem pairs_forest : Forest pairs := by
  intro e he
  simp only [pairs, List.mem_cons, List.not_mem_nil, or_false] at he
  rcases he with rfl | rfl
  · intro h; exact absurd ((pairs1_conn _ _).1 h) (by decide)
  · intro h; exact absurd ((pairs2_conn _ _).1 h) (by decide)

section
variable {cc : List (Edge 4) → ℕ × Labels 4} (hcc : CCSpec cc)
include hcc

/-- Scores of the parts, without quorum. -/
theorem scoreParts_val (E : List (Edge 4)) (hE : Forest E) (e : Edge 4) (he : e ∈ E) :
    ∃ nts : Dict, scoreParts (fun S => some (sq S)) 0 (cc (del E e)).2 (cc E).2 ((cc E).2 e.1) = some nts ∧
      nts.keys = {(cc (del E e)).2 e.1, (cc (del E e)).2 e.2} ∧
      nts.sum = sq (region (cc (del E e)).2 ((cc (del E e)).2 e.1)) + sq (region (cc (del E e)).2 ((cc (del E e)).2 e.2)) := by
  have hne : (cc (del E e)).2 e.1 ≠ (cc (del E e)).2 e.2 := by
    intro h'
    rw [hcc.iff] at h'
    exact hE e he h'
  refine ⟨⟨parts (cc (del E e)).2 (cc E).2 ((cc E).2 e.1), fun l => sq (region (cc (del E e)).2 l)⟩, ?_, ?_, ?_⟩
  · unfold scoreParts
    simp
  · exact parts_pair hcc he
  · unfold Dict.sum
    simp only
    rw [parts_pair hcc he, sum_pair hne]

/-- C46 fails with islands: two pairs of nodes, no quorum, two clusters added to the two islands. Splitting a region
never increases the score, but `fit` raises "The score increased with the number of clusters". -/
theorem C46_islands_raise_violated : Splits (fun S => some (sq S)) ∧ Forest pairs ∧
    fit cc (fun S => some (sq S)) 0 2 false pairs = .error .valueError := by
  refine ⟨sq_splits, pairs_forest, ?_⟩
  have c0 : (cc pairs).1 = 2 := by rw [count_of hcc _ pairs_conn]; decide
  have c1 : (cc (del pairs (0, 1))).1 = 3 := by rw [count_of hcc _ pairs1_conn]; decide
  have c2 : (cc (del pairs (2, 3))).1 = 3 := by rw [count_of hcc _ pairs2_conn]; decide
  have c3 : (cc (del (del pairs (0, 1)) (2, 3))).1 = 4 := by
    rw [count_of hcc id pairs3_conn]; decide
  obtain ⟨n1, s1, k1, v1⟩ := scoreParts_val hcc pairs pairs_forest (0, 1) (by decide)
  obtain ⟨n2, s2, k2, v2⟩ := scoreParts_val hcc pairs pairs_forest (2, 3) (by decide)
  obtain ⟨n3, s3, k3, v3⟩ := scoreParts_val hcc (del pairs (0, 1)) (forest_del pairs_forest _) (2, 3) (by decide)
  rw [region_of hcc _ pairs1_conn, region_of hcc _ pairs1_conn] at v1
  rw [region_of hcc _ pairs2_conn, region_of hcc _ pairs2_conn] at v2
  rw [region_of hcc id pairs3_conn, region_of hcc id pairs3_conn] at v3
  have w1 : n1.sum = 2 := by
    rw [v1, show (univ.filter fun i => f1 i = f1 (0, 1).1) = {0} by decide,
      show (univ.filter fun i => f1 i = f1 ((0 : Fin 4), (1 : Fin 4)).2) = {1} by decide]
    norm_num [sq, wt]
  have w2 : n2.sum = 18 := by
    rw [v2, show (univ.filter fun i => f2 i = f2 ((2 : Fin 4), (3 : Fin 4)).1) = {2} by decide,
      show (univ.filter fun i => f2 i = f2 ((2 : Fin 4), (3 : Fin 4)).2) = {3} by decide]
    norm_num [sq, show wt 2 = 3 from rfl, show wt 3 = 3 from rfl]
  have w3 : n3.sum = 18 := by
    rw [v3, show (univ.filter fun i => id i = id ((2 : Fin 4), (3 : Fin 4)).1) = {2} by decide,
      show (univ.filter fun i => id i = id ((2 : Fin 4), (3 : Fin 4)).2) = {3} by decide]
    norm_num [sq, show wt 2 = 3 from rfl, show wt 3 = 3 from rfl]
  have k : (cc (del pairs (0, 1))).2 2 ∉ n1.keys := by
    rw [k1]
    simp only [mem_insert, mem_singleton, not_or]
    constructor
    · rw [hcc.iff, pairs1_conn]; decide
    · rw [hcc.iff, pairs1_conn]; decide
  have hf1 : findCut cc (fun S => some (sq S)) 0 pairs 2 (cc pairs).2 none
      = .ok (some (⟨(0, 1), 2, -2, n1, del pairs (0, 1), (cc (del pairs (0, 1))).2⟩, 3)) := by
    unfold findCut
    have e1 : candidate cc (fun S => some (sq S)) 0 pairs 2 (cc pairs).2 none (none, Dict.empty, none) (0, 1)
        = .ok (some ⟨(0, 1), 2, -2, n1, del pairs (0, 1), (cc (del pairs (0, 1))).2⟩, n1, some 3) := by
      unfold candidate
      simp only [c1, s1]
      simp [dAndScore, w1, newScores]
    have e2 : candidate cc (fun S => some (sq S)) 0 pairs 2 (cc pairs).2 none
        (some ⟨(0, 1), 2, -2, n1, del pairs (0, 1), (cc (del pairs (0, 1))).2⟩, n1, some 3) (2, 3)
        = .ok (some ⟨(0, 1), 2, -2, n1, del pairs (0, 1), (cc (del pairs (0, 1))).2⟩, n1, some 3) := by
      unfold candidate
      simp only [c2, s2]
      norm_num [dAndScore, w2]
    have e3 : pairs.foldlM (candidate cc (fun S => some (sq S)) 0 pairs 2 (cc pairs).2 none) (none, Dict.empty, none)
        = .ok (some ⟨(0, 1), 2, -2, n1, del pairs (0, 1), (cc (del pairs (0, 1))).2⟩, n1, some 3) := by
      have : pairs = [(0, 1), (2, 3)] := rfl
      conv_lhs => arg 3; rw [this]
      rw [List.foldlM_cons, e1]
      show (List.foldlM _ _ [(2, 3)] : Py _) = _
      rw [List.foldlM_cons, e2]
      rfl
    rw [e3]
    rfl
  have hf2 : ∃ b, findCut cc (fun S => some (sq S)) 0 (del pairs (0, 1)) 3 (cc (del pairs (0, 1))).2 (some n1)
      = .ok (some (b, 4)) ∧ b.score = 18 := by
    have hg : n1.get ((cc (del pairs (0, 1))).2 2) = none := by unfold Dict.get; rw [if_neg k]
    unfold findCut
    have e1 : ∃ b d, candidate cc (fun S => some (sq S)) 0 (del pairs (0, 1)) 3 (cc (del pairs (0, 1))).2 (some n1)
        (none, Dict.empty, none) (2, 3) = .ok (some b, d, some 4) ∧ b.score = 18 := by
      unfold candidate
      simp only [c3, s3]
      simp only [dAndScore, hg, w3, show ¬ (4 : ℕ) ≤ 3 by norm_num, if_false, if_true]
      exact ⟨_, _, rfl, rfl⟩
    obtain ⟨b, d, hb, hs⟩ := e1
    refine ⟨b, ?_, hs⟩
    have : (del pairs (0, 1)).foldlM (candidate cc (fun S => some (sq S)) 0 (del pairs (0, 1)) 3
        (cc (del pairs (0, 1))).2 (some n1)) (none, Dict.empty, none) = .ok (some b, d, some 4) := by
      have h' : del pairs (0, 1) = [(2, 3)] := by decide
      conv_lhs => arg 3; rw [h']
      rw [List.foldlM_cons, hb]
      rfl
    rw [this]
    rfl
  obtain ⟨b, hf2, hb⟩ := hf2
  unfold fit
  rw [if_neg (by simp)]
  simp only [c0]
  rw [if_neg (by simp), if_pos (by simp), loop, if_pos (by norm_num), hf1]
  simp only [bind, Except.bind, Bool.false_eq_true, if_false]
  rw [loop, if_pos (by norm_num), hf2]
  simp only [bind, Except.bind, hb]
  norm_num

end

end Spreg.Skater
