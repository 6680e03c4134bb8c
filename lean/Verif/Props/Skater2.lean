import Verif.Props.Skater
import Mathlib.Tactic.FinCases
import Mathlib.Tactic.NormNum
import Mathlib.Data.Setoid.Basic
import Mathlib.Data.Fintype.Quotient
import Mathlib.Data.Fintype.EquivFin
/-
C46, C47: the search for a cut, the loop and `fit`.
-/
namespace Spreg.Skater
open Finset

variable {n : ℕ}

section
variable {cc : List (Edge n) → ℕ × Labels n} (hcc : CCSpec cc)
include hcc

/-- A correct best candidate among the edges of `L`. -/
structure Good (cc : List (Edge n) → ℕ × Labels n) (ρ : Finset (Fin n) → Option ℝ) (q : ℕ) (E : List (Edge n))
    (ts : Option Dict) (L : List (Edge n)) (b : Best n) : Prop where
  mem : b.edge ∈ E
  msf : b.msf = del E b.edge
  labels : b.labels = (cc (del E b.edge)).2
  count : (cc (del E b.edge)).1 = (cc E).1 + 1
  quorum : MeetsQuorum q (cc (del E b.edge))
  total : Total ρ (cc (del E b.edge)) b.score
  diff : b.score = level ts - b.dscore
  exact : Exact ρ (cc (del E b.edge)) b.scores
  best : ∀ e ∈ L, ∀ nts, scoreParts ρ q (cc (del E e)).2 (cc E).2 ((cc E).2 e.1) = some nts →
    (dAndScore ts ((cc E).2 e.1) nts.sum).1 ≤ b.dscore

/-- Loop invariant of the search. -/
structure Inv (cc : List (Edge n) → ℕ × Labels n) (ρ : Finset (Fin n) → Option ℝ) (q : ℕ) (E : List (Edge n))
    (ts : Option Dict) (L : List (Edge n)) (st : Option (Best n) × Dict × Option ℕ) : Prop where
  keys : st.2.1.keys ⊆ range ((cc E).1 + 1)
  last : L ≠ [] → st.2.2 = some ((cc E).1 + 1)
  none : st.1 = none → ∀ e ∈ L, scoreParts ρ q (cc (del E e)).2 (cc E).2 ((cc E).2 e.1) = none
  some : ∀ b, st.1 = some b → L ≠ [] ∧ Good cc ρ q E ts L b

theorem inv_step {ρ : Finset (Fin n) → Option ℝ} {q : ℕ} {E : List (Edge n)} {ts : Option Dict}
    (hq : MeetsQuorum q (cc E)) (hk : Known cc ρ E ts) {L : List (Edge n)} {e : Edge n} (he : e ∈ E)
    {st st' : Option (Best n) × Dict × Option ℕ} (hi : Inv cc ρ q E ts L st)
    (h : candidate cc ρ q E (cc E).1 (cc E).2 ts st e = .ok st') : Inv cc ρ q E ts (L ++ [e]) st' := by
  have hne : L ++ [e] ≠ [] := by simp
  unfold candidate at h
  simp only at h
  split_ifs at h with h1
  have hcnt : (cc (del E e)).1 = (cc E).1 + 1 := by have := count_del hcc E e; omega
  cases hs : scoreParts ρ q (cc (del E e)).2 (cc E).2 ((cc E).2 e.1) with
  | none =>
    rw [hs] at h
    simp only [Except.ok.injEq] at h
    subst h
    refine ⟨hi.keys, fun _ => by rw [hcnt], ?_, ?_⟩
    · intro hn e' he'
      rcases List.mem_append.1 he' with he' | he'
      · exact hi.none hn e' he'
      · rw [List.mem_singleton.1 he']; exact hs
    · intro b hb
      obtain ⟨-, g⟩ := hi.some b hb
      refine ⟨hne, ⟨g.mem, g.msf, g.labels, g.count, g.quorum, g.total, g.diff, g.exact, ?_⟩⟩
      intro e' he' nts hnts
      rcases List.mem_append.1 he' with he' | he'
      · exact g.best e' he' nts hnts
      · rw [List.mem_singleton.1 he', hs] at hnts; cases hnts
  | some nts =>
    rw [hs] at h
    simp only at h
    obtain ⟨t1, t2⟩ := cand_total hcc hk he hs
    have hex := cand_exact hcc hk he (old := st.2.1) (by rw [hcnt]; exact hi.keys) hs
    have hqm := cand_quorum hcc hq he hs
    have accept : ∀ (hbest : ∀ e' ∈ L, ∀ nts', scoreParts ρ q (cc (del E e')).2 (cc E).2 ((cc E).2 e'.1) = some nts' →
          (dAndScore ts ((cc E).2 e'.1) nts'.sum).1 ≤ (dAndScore ts ((cc E).2 e.1) nts.sum).1),
        Inv cc ρ q E ts (L ++ [e]) (Option.some ⟨e, (dAndScore ts ((cc E).2 e.1) nts.sum).2,
          (dAndScore ts ((cc E).2 e.1) nts.sum).1, newScores st.2.1 ts (cc E).2 (cc (del E e)).2 nts, del E e,
          (cc (del E e)).2⟩, newScores st.2.1 ts (cc E).2 (cc (del E e)).2 nts, Option.some (cc (del E e)).1) := by
      intro hbest
      refine ⟨?_, fun _ => by rw [hcnt], fun hn => (by cases hn), ?_⟩
      · show (newScores st.2.1 ts (cc E).2 (cc (del E e)).2 nts).keys ⊆ _
        rw [hex.1, hcnt]
      · intro b hb
        cases hb
        refine ⟨hne, ⟨he, rfl, rfl, hcnt, hqm, t1, t2, hex, ?_⟩⟩
        intro e' he' nts' hnts'
        rcases List.mem_append.1 he' with he' | he'
        · exact hbest e' he' nts' hnts'
        · rw [List.mem_singleton.1 he', hs] at hnts'
          rw [List.mem_singleton.1 he', Option.some.inj hnts']
    cases hb : st.1 with
    | none =>
      rw [hb] at h
      simp only [if_true, Except.ok.injEq] at h
      subst h
      apply accept
      intro e' he' nts' hnts'
      rw [hi.none hb e' he'] at hnts'; cases hnts'
    | some b =>
      rw [hb] at h
      obtain ⟨-, g⟩ := hi.some b hb
      simp only [decide_eq_true_eq] at h
      split_ifs at h with hlt
      · simp only [Except.ok.injEq] at h
        subst h
        apply accept
        intro e' he' nts' hnts'
        exact (g.best e' he' nts' hnts').trans hlt.le
      · simp only [Except.ok.injEq] at h
        subst h
        refine ⟨hi.keys, fun _ => by rw [hcnt], fun hn => (by cases hn), ?_⟩
        intro b' hb'
        cases hb'
        refine ⟨hne, ⟨g.mem, g.msf, g.labels, g.count, g.quorum, g.total, g.diff, g.exact, ?_⟩⟩
        intro e' he' nts' hnts'
        rcases List.mem_append.1 he' with he' | he'
        · exact g.best e' he' nts' hnts'
        · rw [List.mem_singleton.1 he', hs] at hnts'
          rw [List.mem_singleton.1 he', ← Option.some.inj hnts']
          exact not_lt.1 hlt

theorem inv_fold {ρ : Finset (Fin n) → Option ℝ} {q : ℕ} {E : List (Edge n)} {ts : Option Dict}
    (hq : MeetsQuorum q (cc E)) (hk : Known cc ρ E ts) (M : List (Edge n)) (hM : ∀ e ∈ M, e ∈ E) (L : List (Edge n))
    (st st' : Option (Best n) × Dict × Option ℕ) (hi : Inv cc ρ q E ts L st)
    (h : M.foldlM (candidate cc ρ q E (cc E).1 (cc E).2 ts) st = .ok st') : Inv cc ρ q E ts (L ++ M) st' := by
  induction M generalizing L st with
  | nil =>
    rw [List.append_nil]
    cases h; exact hi
  | cons e M ih =>
    rw [List.foldlM_cons] at h
    cases hc : candidate cc ρ q E (cc E).1 (cc E).2 ts st e with
    | error x => rw [hc] at h; cases h
    | ok st1 =>
      rw [hc] at h
      have := ih (fun e' he' => hM e' (by simp [he'])) (L ++ [e]) st1
        (inv_step hcc hq hk (hM e (by simp)) hi hc) h
      simpa using this

/-- The search: the best cut with one more region, or no admissible cut at all. -/
theorem findCut_spec {ρ : Finset (Fin n) → Option ℝ} {q : ℕ} {E : List (Edge n)} {ts : Option Dict}
    (hq : MeetsQuorum q (cc E)) (hk : Known cc ρ E ts) {r : Option (Best n × ℕ)}
    (h : findCut cc ρ q E (cc E).1 (cc E).2 ts = .ok r) :
    match r with
    | none => ∀ e ∈ E, ∀ s, MeetsQuorum q (cc (del E e)) → ¬ Total ρ (cc (del E e)) s
    | some (b, ln) => ln = (cc E).1 + 1 ∧ Good cc ρ q E ts E b ∧
        ∀ e ∈ E, ∀ s, MeetsQuorum q (cc (del E e)) → Total ρ (cc (del E e)) s → b.score ≤ s := by
  unfold findCut at h
  cases hf : E.foldlM (candidate cc ρ q E (cc E).1 (cc E).2 ts) (none, Dict.empty, none) with
  | error x => rw [hf] at h; cases h
  | ok st =>
    rw [hf] at h
    have hi := inv_fold hcc hq hk E (fun _ h => h) [] _ _
      ⟨by simp [Dict.empty], fun h => absurd rfl h, fun _ e he => absurd he (by simp), fun b hb => by cases hb⟩ hf
    rw [List.nil_append] at hi
    obtain ⟨ob, d, oln⟩ := st
    cases ob with
    | none =>
      cases h
      intro e he s hqe ht
      obtain ⟨nts, hn⟩ := cand_complete hcc hqe ht
      have := hi.none rfl e he
      rw [hn] at this; cases this
    | some b =>
      obtain ⟨hne, g⟩ := hi.some b rfl
      have hl := hi.last hne
      simp only at hl
      subst hl
      cases h
      refine ⟨rfl, g, ?_⟩
      intro e he s hqe ht
      obtain ⟨nts, hn⟩ := cand_complete hcc hqe ht
      obtain ⟨c1, c2⟩ := cand_total hcc hk he hn
      have h3 := g.best e he nts hn
      rw [total_unique ht c1, c2, g.diff]
      linarith

/-- The loop. -/
theorem loop_spec {ρ : Finset (Fin n) → Option ℝ} {q target : ℕ} (fuel : ℕ) (E : List (Edge n)) (ts : Option Dict)
    (prev : Option ℝ) (hfuel : target ≤ (cc E).1 + fuel) (hq : MeetsQuorum q (cc E)) (hk : Known cc ρ E ts) (R : Res n)
    (h : loop cc ρ q target fuel E (cc E).1 (cc E).2 ts prev = .ok R) :
    ∃ acc, Cuts cc ρ q E prev acc R.msf ∧ (cc R.msf).1 = (cc E).1 + acc.length ∧
      ((R.labels = some (cc R.msf).2 ∧ R.trace = acc.map some ∧ target ≤ (cc R.msf).1 ∧
          (acc ≠ [] → (cc R.msf).1 = target)) ∨
       (R.labels = none ∧ R.trace = acc.map some ++ [none] ∧ (cc R.msf).1 < target ∧
          ∀ e ∈ R.msf, ∀ s, MeetsQuorum q (cc (del R.msf e)) → ¬ Total ρ (cc (del R.msf e)) s)) := by
  induction fuel generalizing E ts prev R with
  | zero =>
    cases h
    exact ⟨[], Cuts.done _ _, by simp, Or.inl ⟨rfl, rfl, by simpa using hfuel, fun h => absurd rfl h⟩⟩
  | succ fuel ih =>
    rw [loop] at h
    split_ifs at h with hlt
    · cases hf : findCut cc ρ q E (cc E).1 (cc E).2 ts with
      | error x => rw [hf] at h; cases h
      | ok r =>
        have hs := findCut_spec hcc hq hk hf
        rw [hf] at h
        cases r with
        | none =>
          cases h
          exact ⟨[], Cuts.done _ _, by simp, Or.inr ⟨rfl, rfl, hlt, hs⟩⟩
        | some bl =>
          obtain ⟨b, ln⟩ := bl
          obtain ⟨hln, g, hbest⟩ := hs
          obtain ⟨r, hr, hR, hup⟩ : ∃ r, loop cc ρ q target fuel b.msf ln b.labels (some b.scores) (some b.score) = .ok r ∧
              (⟨r.labels, r.msf, some (b.labels, b.score) :: r.trace⟩ : Res n) = R ∧
              ∀ p, prev = some p → b.score ≤ p := by
            cases hr : loop cc ρ q target fuel b.msf ln b.labels (some b.scores) (some b.score) with
            | error x =>
              cases prev with
              | none => simp [bind, Except.bind, hr] at h
              | some p => simp only [bind, Except.bind, hr, decide_eq_true_eq] at h; split_ifs at h
            | ok r =>
              refine ⟨r, rfl, ?_⟩
              cases prev with
              | none =>
                simp [bind, Except.bind, hr, pure, Except.pure] at h
                exact ⟨h, fun p hp => by cases hp⟩
              | some p =>
                simp only [bind, Except.bind, hr, pure, Except.pure, decide_eq_true_eq] at h
                split_ifs at h with hup
                exact ⟨Except.ok.inj h, fun p' hp => by cases hp; exact not_lt.1 hup⟩
          · skip
            have hln' : ln = (cc (del E b.edge)).1 := by rw [g.count, hln]
            rw [hln', g.msf, g.labels] at hr
            obtain ⟨acc, a1, a2, a3⟩ := ih (del E b.edge) (some b.scores) (some b.score)
              (by rw [g.count]; omega) g.quorum (Or.inl ⟨_, rfl, g.exact⟩) r hr
            have hlen : (cc r.msf).1 = (cc E).1 + (((cc (del E b.edge)).2, b.score) :: acc).length := by
              rw [a2, g.count]; simp; omega
            have hcut : Cuts cc ρ q E prev (((cc (del E b.edge)).2, b.score) :: acc) r.msf :=
              Cuts.cut E prev b.edge b.score acc r.msf g.mem g.count (refines_del hcc E b.edge) g.quorum g.total
                (fun e' he' s' hq' ht' => hbest e' he' s' hq' ht')
                hup a1
            refine ⟨((cc (del E b.edge)).2, b.score) :: acc, ?_⟩
            rw [← hR]
            refine ⟨hcut, hlen, ?_⟩
            rcases a3 with ⟨c1, c2, c3, c4⟩ | ⟨c1, c2, c3, c4⟩
            · left
              refine ⟨c1, by simp [c2, g.labels], c3, fun _ => ?_⟩
              by_cases hacc : acc = []
              · subst hacc
                have := g.count
                simp at a2
                show (cc r.msf).1 = target
                have c3' : target ≤ (cc r.msf).1 := c3
                omega
              · exact c4 hacc
            · right
              exact ⟨c1, by simp [c2, g.labels], c3, c4⟩
    · cases h
      exact ⟨[], Cuts.done _ _, by simp, Or.inl ⟨rfl, rfl, not_lt.1 hlt, fun h => absurd rfl h⟩⟩

/-- C46 (connected graph): every history of accepted cuts recorded in the trace is a sequence of single best cuts, each
adding exactly one region, refining the partition, respecting the quorum, with the total score of the new partition,
which never increases. The run ends with exactly the requested number of regions, or at a forest where no further cut
respects the quorum. -/
theorem C46_connected {ρ : Finset (Fin n) → Option ℝ} {q nClusters : ℕ} {ignore : Bool} {E : List (Edge n)}
    (h1 : (cc E).1 = 1) (hc : 0 < nClusters) {R : Res n}
    (h : fit cc ρ q nClusters ignore E = .ok R) :
    ∃ acc, Cuts cc ρ q E none acc R.msf ∧ (cc R.msf).1 = 1 + acc.length ∧
      ((R.labels = some (cc R.msf).2 ∧ R.trace = acc.map some ∧ (cc R.msf).1 = nClusters) ∨
       (R.labels = none ∧ R.trace = acc.map some ++ [none] ∧ (cc R.msf).1 < nClusters ∧
          ∀ e ∈ R.msf, ∀ s, MeetsQuorum q (cc (R.msf.filter (· ≠ e))) → ¬ Total ρ (cc (R.msf.filter (· ≠ e))) s)) := by
  unfold fit at h
  split_ifs at h with hg
  simp only [h1, lt_irrefl, false_and, if_false] at h
  have hreg : MeetsQuorum q (cc E) := by
    intro l hl
    have : region (cc E).2 l = univ := by
      ext i
      have := hcc.lt E i
      simp only [region, mem_filter, mem_univ, true_and, iff_true]
      omega
    rw [this]
    simp only [card_univ, Fintype.card_fin]
    rcases Nat.eq_zero_or_pos q with h0 | h0
    · omega
    · have h2 : nClusters * q < n := not_le.1 fun h => hg ⟨h0, h⟩
      have h3 : 1 * q ≤ nClusters * q := Nat.mul_le_mul_right q hc
      omega
  have h' : loop cc ρ q nClusters nClusters E (cc E).1 (cc E).2 none none = .ok R := by rw [h1]; exact h
  obtain ⟨acc, a1, a2, a3⟩ := loop_spec hcc nClusters E none none (by omega) hreg (Or.inr ⟨rfl, h1⟩) R h'
  refine ⟨acc, a1, by rw [a2, h1], ?_⟩
  rcases a3 with ⟨c1, c2, c3, c4⟩ | a3
  · left
    refine ⟨c1, c2, ?_⟩
    by_cases hacc : acc = []
    · subst hacc
      simp at a2
      omega
    · exact c4 hacc
  · exact Or.inr a3

end

end Spreg.Skater
