import Verif.Props.Skater2
/-
C46, C47: no spurious errors, islands, and the missing partition.
-/
namespace Spreg.Skater
open Finset

variable {n : ℕ}

/-- Every edge of a forest separates its ends. -/
def Forest (E : List (Edge n)) : Prop := ∀ e ∈ E, ¬ Conn (E.filter (· ≠ e)) e.1 e.2

/-- Splitting a region never increases the score, as with sums of squared residuals. -/
def Splits (ρ : Finset (Fin n) → Option ℝ) : Prop :=
  ∀ A B a b c, Disjoint A B → ρ A = some a → ρ B = some b → ρ (A ∪ B) = some c → a + b ≤ c

theorem forest_del {E : List (Edge n)} (h : Forest E) (e : Edge n) : Forest (del E e) := by
  intro e' he' hc
  have h1 := (List.mem_filter.1 he').1
  apply h e' h1
  have : ∀ a b, Conn ((del E e).filter (· ≠ e')) a b → Conn (E.filter (· ≠ e')) a b := by
    intro a b hab
    induction hab with
    | rel a b hab =>
      apply Relation.EqvGen.rel
      simp only [del, List.mem_filter] at hab ⊢
      exact ⟨hab.1.1, hab.2⟩
    | refl a => exact Relation.EqvGen.refl a
    | symm a b _ ih => exact Relation.EqvGen.symm _ _ ih
    | trans a b c _ _ ih1 ih2 => exact Relation.EqvGen.trans _ _ _ ih1 ih2
  exact this _ _ hc

section
variable {cc : List (Edge n) → ℕ × Labels n} (hcc : CCSpec cc)
include hcc

/-- Removing an edge of a forest adds a component. -/
theorem count_forest {E : List (Edge n)} (h : Forest E) {e : Edge n} (he : e ∈ E) :
    (cc (del E e)).1 = (cc E).1 + 1 := by
  classical
  have h1 := count_del hcc E e
  suffices (cc E).1 < (cc (del E e)).1 by omega
  choose rep hrep using hcc.surj E
  -- the labels of the representatives, with the end of the edge that is not next to its representative
  have hne : (cc (del E e)).2 e.1 ≠ (cc (del E e)).2 e.2 := by
    intro h'
    rw [hcc.iff] at h'
    exact h e he h'
  have h12 : (cc E).2 e.1 = (cc E).2 e.2 := by
    rw [hcc.iff]; exact Relation.EqvGen.rel _ _ he
  let t : ℕ := (cc E).2 e.1
  let f : Option (Fin (cc E).1) → Fin (cc (del E e)).1 := fun o =>
    match o with
    | none => ⟨(cc (del E e)).2 e.1, hcc.lt _ _⟩
    | some k => if k.1 = t then ⟨(cc (del E e)).2 e.2, hcc.lt _ _⟩ else ⟨(cc (del E e)).2 (rep k.1 k.2), hcc.lt _ _⟩
  have hout : ∀ (k : Fin (cc E).1), k.1 ≠ t → ∀ x, (cc E).2 x = t → (cc (del E e)).2 (rep k.1 k.2) ≠ (cc (del E e)).2 x := by
    intro k hk x hx h'
    have := refines_del hcc E e _ _ h'
    rw [hrep] at this
    exact hk (this.trans hx)
  have hf : Function.Injective f := by
    intro o p hop
    cases o with
    | none =>
      cases p with
      | none => rfl
      | some k =>
        exfalso
        simp only [f] at hop
        split_ifs at hop with hk
        · exact hne (Fin.mk.inj hop)
        · exact hout k hk _ rfl (Fin.mk.inj hop).symm
    | some k =>
      cases p with
      | none =>
        exfalso
        simp only [f] at hop
        split_ifs at hop with hk
        · exact hne (Fin.mk.inj hop).symm
        · exact hout k hk _ rfl (Fin.mk.inj hop)
      | some l =>
        simp only [f] at hop
        split_ifs at hop with hk hl hl
        · rw [Fin.ext (hk.trans hl.symm)]
        · exact absurd (Fin.mk.inj hop).symm (hout l hl _ h12.symm)
        · exact absurd (Fin.mk.inj hop) (hout k hk _ h12.symm)
        · have := refines_del hcc E e _ _ (Fin.mk.inj hop)
          rw [hrep, hrep] at this
          rw [Fin.ext this]
  have := Fintype.card_le_of_injective f hf
  simp at this
  omega

/-- The parts of the cut tree are the regions of the two ends of the edge. -/
theorem parts_pair {E : List (Edge n)} {e : Edge n} (he : e ∈ E) :
    parts (cc (del E e)).2 (cc E).2 ((cc E).2 e.1) = {(cc (del E e)).2 e.1, (cc (del E e)).2 e.2} := by
  have h12 : (cc E).2 e.2 = (cc E).2 e.1 := by
    rw [hcc.iff]; exact Relation.EqvGen.symm _ _ (Relation.EqvGen.rel _ _ he)
  ext l
  simp only [parts, mem_image, mem_insert, mem_singleton]
  constructor
  · rintro ⟨a, ha, rfl⟩
    simp only [region, mem_filter, mem_univ, true_and] at ha
    rw [hcc.iff] at ha
    rcases conn_del (e := e) ha with h | ⟨h, -⟩
    · left; rw [hcc.iff]; exact h
    · rcases h with h | h
      · left; rw [hcc.iff]; exact h
      · right; rw [hcc.iff]; exact h
  · rintro (rfl | rfl)
    · exact ⟨e.1, by simp [region], rfl⟩
    · exact ⟨e.2, by simp [region, h12], rfl⟩

/-- An admissible candidate in a forest does not increase the score. -/
theorem cand_down {ρ : Finset (Fin n) → Option ℝ} (hρ : Splits ρ) {q : ℕ} {E : List (Edge n)} (hE : Forest E) {d : Dict}
    (hd : Exact ρ (cc E) d) {e : Edge n} (he : e ∈ E) {nts : Dict}
    (hs : scoreParts ρ q (cc (del E e)).2 (cc E).2 ((cc E).2 e.1) = some nts) :
    0 ≤ (dAndScore (some d) ((cc E).2 e.1) nts.sum).1 := by
  obtain ⟨-, h2, h3⟩ := scoreParts_some hs
  have hp := parts_pair hcc he
  have hne : (cc (del E e)).2 e.1 ≠ (cc (del E e)).2 e.2 := by
    intro h'
    rw [hcc.iff] at h'
    exact hE e he h'
  have htree : (cc E).2 e.1 ∈ range (cc E).1 := mem_range.2 (hcc.lt E _)
  have hget : d.get ((cc E).2 e.1) = some (d.val ((cc E).2 e.1)) := by
    unfold Dict.get; rw [hd.1, if_pos htree]
  have e1 : (dAndScore (some d) ((cc E).2 e.1) nts.sum).1 = d.val ((cc E).2 e.1) - nts.sum := by
    unfold dAndScore; simp only [hget]
  obtain ⟨a, ha⟩ := Option.isSome_iff_exists.1 (h2 ((cc (del E e)).2 e.1) (by rw [hp]; simp))
  obtain ⟨b, hb⟩ := Option.isSome_iff_exists.1 (h2 ((cc (del E e)).2 e.2) (by rw [hp]; simp))
  have hsum : nts.sum = a + b := by
    rw [h3]
    unfold Dict.sum
    simp only
    rw [hp, sum_pair hne, ha, hb]; rfl
  have hdisj : Disjoint (region (cc (del E e)).2 ((cc (del E e)).2 e.1)) (region (cc (del E e)).2 ((cc (del E e)).2 e.2)) := by
    rw [Finset.disjoint_left]
    intro i hi hj
    simp only [region, mem_filter, mem_univ, true_and] at hi hj
    exact hne (hi.symm.trans hj)
  have hun : region (cc (del E e)).2 ((cc (del E e)).2 e.1) ∪ region (cc (del E e)).2 ((cc (del E e)).2 e.2)
      = region (cc E).2 ((cc E).2 e.1) := by
    ext i
    have h12 : (cc E).2 e.2 = (cc E).2 e.1 := by
      rw [hcc.iff]; exact Relation.EqvGen.symm _ _ (Relation.EqvGen.rel _ _ he)
    simp only [region, mem_union, mem_filter, mem_univ, true_and]
    constructor
    · rintro (h | h)
      · exact refines_del hcc E e _ _ h
      · exact (refines_del hcc E e _ _ h).trans h12
    · intro h
      rw [hcc.iff] at h
      rcases conn_del (e := e) h with h | ⟨h, -⟩
      · left; rw [hcc.iff]; exact h
      · rcases h with h | h
        · left; rw [hcc.iff]; exact h
        · right; rw [hcc.iff]; exact h
  have := hρ _ _ a b (d.val ((cc E).2 e.1)) hdisj ha hb (by rw [hun]; exact hd.2 _ (hcc.lt E _))
  rw [e1, hsum]; linarith

theorem foldlM_ok {ρ : Finset (Fin n) → Option ℝ} {q : ℕ} {E : List (Edge n)} (hE : Forest E) (ts : Option Dict)
    (M : List (Edge n)) (hM : ∀ e ∈ M, e ∈ E) (st : Option (Best n) × Dict × Option ℕ) :
    ∃ st', M.foldlM (candidate cc ρ q E (cc E).1 (cc E).2 ts) st = .ok st' := by
  induction M generalizing st with
  | nil => exact ⟨st, rfl⟩
  | cons e M ih =>
    have : ∃ st', candidate cc ρ q E (cc E).1 (cc E).2 ts st e = .ok st' := by
      unfold candidate
      simp only
      rw [if_neg (by rw [count_forest hcc hE (hM e (by simp))]; omega)]
      split
      · exact ⟨_, rfl⟩
      · split_ifs
        · exact ⟨_, rfl⟩
        · exact ⟨_, rfl⟩
    obtain ⟨st1, h1⟩ := this
    obtain ⟨st2, h2⟩ := ih (fun e' he' => hM e' (by simp [he'])) st1
    exact ⟨st2, by rw [List.foldlM_cons, h1]; exact h2⟩

theorem findCut_ok {ρ : Finset (Fin n) → Option ℝ} {q : ℕ} {E : List (Edge n)} (hE : Forest E) (ts : Option Dict) :
    ∃ r, findCut cc ρ q E (cc E).1 (cc E).2 ts = .ok r := by
  obtain ⟨⟨b, d, ln⟩, hst⟩ := foldlM_ok hcc (ρ := ρ) (q := q) hE ts E (fun _ h => h) (none, Dict.empty, none)
  unfold findCut
  rw [hst]
  simp only [bind, Except.bind]
  split <;> exact ⟨_, rfl⟩

/-- The loop never raises on a forest when splitting a region never increases the score. -/
theorem loop_ok {ρ : Finset (Fin n) → Option ℝ} (hρ : Splits ρ) {q target : ℕ} (fuel : ℕ) (E : List (Edge n))
    (hE : Forest E) (ts : Option Dict) (prev : Option ℝ) (hprev : ∀ p, prev = some p → ∃ d, ts = some d ∧ p = d.sum)
    (hq : MeetsQuorum q (cc E)) (hk : Known cc ρ E ts) :
    ∃ R, loop cc ρ q target fuel E (cc E).1 (cc E).2 ts prev = .ok R := by
  induction fuel generalizing E ts prev with
  | zero => exact ⟨_, rfl⟩
  | succ fuel ih =>
    rw [loop]
    split_ifs with hlt
    · obtain ⟨r, hf⟩ := findCut_ok hcc (ρ := ρ) (q := q) hE ts
      have hs := findCut_spec hcc hq hk hf
      rw [hf]
      cases r with
      | none => exact ⟨_, rfl⟩
      | some bl =>
        obtain ⟨b, ln⟩ := bl
        obtain ⟨hln, g, hbest⟩ := hs
        have hln' : ln = (cc (del E b.edge)).1 := by rw [g.count, hln]
        obtain ⟨R, hR⟩ := ih (del E b.edge) (forest_del hE _) (some b.scores) (some b.score)
          (fun p hp => ⟨b.scores, rfl, by
            cases hp
            exact total_unique g.total g.exact.total⟩) g.quorum (Or.inl ⟨_, rfl, g.exact⟩)
        rw [← hln', ← g.labels, ← g.msf] at hR
        cases prev with
        | none => exact ⟨_, by simp only [bind, Except.bind, hR, Bool.false_eq_true, if_false]; rfl⟩
        | some p =>
          have hp : ¬ p < b.score := by
            obtain ⟨d, hd1, hd2⟩ := hprev p rfl
            subst hd1
            rcases hk with ⟨d', hd', hex⟩ | ⟨hno, -⟩
            · cases hd'
              obtain ⟨nts, hn⟩ := cand_complete hcc g.quorum g.total
              have h1 := cand_down hcc hρ hE hex g.mem hn
              have h2 := g.best b.edge g.mem nts hn
              have h3 := g.diff
              simp only [level] at h3
              rw [hd2, h3]; linarith
            · cases hno
          exact ⟨_, by simp only [bind, Except.bind, hR, decide_eq_true_eq, hp, if_false]; rfl⟩
    · exact ⟨_, rfl⟩

/-- C46: on a connected forest, with scores that do not increase when a region is split (such as sums of squared
residuals), the only error is the guard on the number of observations. -/
theorem C46_no_errors {ρ : Finset (Fin n) → Option ℝ} (hρ : Splits ρ) {q nClusters : ℕ} {ignore : Bool}
    {E : List (Edge n)} (hE : Forest E) (h1 : (cc E).1 = 1) (hc : 0 < nClusters) :
    (∃ R, fit cc ρ q nClusters ignore E = .ok R) ↔ (0 < q → nClusters * q < n) := by
  unfold fit
  constructor
  · rintro ⟨R, h⟩ hq
    split_ifs at h with hg
    exact not_le.1 fun h => hg ⟨hq, h⟩
  · intro h
    rw [if_neg (by rintro ⟨a, b⟩; have := h a; omega)]
    simp only [h1, lt_irrefl, false_and, if_false]
    have hreg : MeetsQuorum q (cc E) := by
      intro l hl
      have : region (cc E).2 l = univ := by
        ext i
        have := hcc.lt E i
        simp only [region, mem_filter, mem_univ, true_and, iff_true]
        omega
      rw [this]
      simp only [card_univ, Fintype.card_fin]
      rcases Nat.eq_zero_or_pos q with h0 | h0
      · omega
      · have h2 := h h0
        have h3 : 1 * q ≤ nClusters * q := Nat.mul_le_mul_right q hc
        omega
    have := loop_ok hcc hρ (target := nClusters) nClusters E hE none none (fun p hp => by cases hp) hreg
      (Or.inr ⟨rfl, h1⟩)
    rw [h1] at this
    exact this

/-- C47: on a connected graph `fit` returns labels for all observations exactly when it reaches the requested number of
regions; the labels are then the components of the final forest. Missing for the full property: the case where the
quorum (or scores that are not finite) stops the search earlier, see `C47_no_cut_violated`. -/
theorem C47_labels_partial {ρ : Finset (Fin n) → Option ℝ} {q nClusters : ℕ} {ignore : Bool} {E : List (Edge n)}
    (h1 : (cc E).1 = 1) (hc : 0 < nClusters) {R : Res n} (h : fit cc ρ q nClusters ignore E = .ok R) :
    (R.labels.isSome ↔ (cc R.msf).1 = nClusters) ∧ (∀ lab, R.labels = some lab → lab = (cc R.msf).2) := by
  obtain ⟨acc, -, -, ⟨c1, -, c3⟩ | ⟨c1, -, c3, -⟩⟩ := C46_connected hcc h1 hc h
  · refine ⟨⟨fun _ => c3, fun _ => by rw [c1]; rfl⟩, fun lab hl => ?_⟩
    rw [c1] at hl; exact (Option.some.inj hl).symm
  · refine ⟨⟨fun h => (by rw [c1] at h; cases h), fun h => (by omega)⟩, fun lab hl => ?_⟩
    rw [c1] at hl; cases hl

/-- C47 fails: whenever no single cut respects the quorum, `fit` with two or more clusters returns `None` instead of
labels. -/
theorem C47_no_cut_violated {ρ : Finset (Fin n) → Option ℝ} {q nClusters : ℕ} {ignore : Bool} {E : List (Edge n)}
    (hE : Forest E) (h1 : (cc E).1 = 1) (hc : 1 < nClusters) (hn : nClusters * q < n)
    (hcut : ∀ e ∈ E, ¬ MeetsQuorum q (cc (E.filter (· ≠ e)))) :
    ∃ R, fit cc ρ q nClusters ignore E = .ok R ∧ R.labels = none := by
  have hreg : MeetsQuorum q (cc E) := by
    intro l hl
    have : region (cc E).2 l = univ := by
      ext i
      have := hcc.lt E i
      simp only [region, mem_filter, mem_univ, true_and, iff_true]
      omega
    rw [this]
    simp only [card_univ, Fintype.card_fin]
    have h3 : 1 * q ≤ nClusters * q := Nat.mul_le_mul_right q hc.le
    omega
  unfold fit
  rw [if_neg (by rintro ⟨-, b⟩; omega)]
  simp only [h1, lt_irrefl, false_and, if_false]
  obtain ⟨r, hf⟩ := findCut_ok hcc (ρ := ρ) (q := q) hE none
  have hs := findCut_spec hcc hreg (Or.inr ⟨rfl, h1⟩) hf
  obtain ⟨m, rfl⟩ : ∃ m, nClusters = m + 1 := ⟨nClusters - 1, by omega⟩
  rw [loop, if_pos hc]
  rw [h1] at hf
  rw [hf]
  cases r with
  | none => exact ⟨_, rfl, rfl⟩
  | some bl =>
    obtain ⟨b, ln⟩ := bl
    exact absurd hs.2.1.quorum (hcut _ hs.2.1.mem)

end

end Spreg.Skater
