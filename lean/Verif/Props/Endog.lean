import Verif.Model.Endog
import Verif.Props.Skater4
import Verif.Props.OptimK
import Verif.Props.RegimesMat
import Mathlib.Data.List.GetD
/-
C156: the endogenous regimes classes.
-/
namespace Spreg.Endog
open Spreg Spreg.Skater Finset

variable {n : ℕ}

/-! ### Specification -/

/-- `g` is an admissible solution with `k` regimes out of the graph with edges `E`: the regimes are the connected parts left
after removing some edges, they are numbered `0, ..., k-1` without gaps, and every regime has at least `q` members. -/
structure Admissible (E : List (Edge n)) (q k : ℕ) (g : Labels n) : Prop where
  connected : ∃ F : List (Edge n), (∀ e ∈ F, e ∈ E) ∧ ∀ a b, g a = g b ↔ Conn F a b
  numbered : Finset.univ.image g = range k
  quorum : ∀ r < k, q ≤ (univ.filter fun i => g i = r).card

/-- `s` is the sum of the scores of the `k` regimes of `g`. -/
def IsScore (ρ : Finset (Fin n) → Option ℝ) (k : ℕ) (g : Labels n) (s : ℝ) : Prop :=
  ∃ v : ℕ → ℝ, (∀ r < k, ρ (univ.filter fun i => g i = r) = some (v r)) ∧ s = ∑ r ∈ range k, v r

/-! ### Histories -/

section
variable {cc : List (Edge n) → ℕ × Labels n} (hcc : CCSpec cc)
include hcc

theorem admissible_of {E F : List (Edge n)} {q : ℕ} (hF : ∀ e ∈ F, e ∈ E) (hq : MeetsQuorum q (cc F)) :
    Admissible E q (cc F).1 (cc F).2 := by
  refine ⟨⟨F, hF, fun a b => hcc.iff F a b⟩, ?_, hq⟩
  ext r
  simp only [mem_image, mem_univ, true_and, mem_range]
  exact ⟨fun ⟨a, ha⟩ => ha ▸ hcc.lt F a, fun h => hcc.surj F r h⟩

omit hcc in
theorem isScore_of {ρ : Finset (Fin n) → Option ℝ} {P : ℕ × Labels n} {s : ℝ} (h : Total ρ P s) :
    IsScore ρ P.1 P.2 s :=
  ⟨fun r => (ρ (region P.2 r)).getD 0, fun r hr => by
    obtain ⟨v, hv⟩ := Option.isSome_iff_exists.1 (h.1 r hr)
    show ρ (region P.2 r) = some ((ρ (region P.2 r)).getD 0)
    rw [hv]; rfl, h.2⟩

omit hcc in
theorem cuts_entry {ρ : Finset (Fin n) → Option ℝ} {q : ℕ} {E F : List (Edge n)} {prev : Option ℝ}
    {acc : List (Labels n × ℝ)} (h : Cuts cc ρ q E prev acc F) :
    (∀ e ∈ F, e ∈ E) ∧ ∀ j (hj : j < acc.length), ∃ G : List (Edge n), (∀ e ∈ G, e ∈ E) ∧ acc[j].1 = (cc G).2 ∧
      (cc G).1 = (cc E).1 + (j + 1) ∧ MeetsQuorum q (cc G) ∧ Total ρ (cc G) acc[j].2 := by
  induction h with
  | done E prev => exact ⟨fun _ h => h, fun j hj => absurd hj (by simp)⟩
  | cut E prev e s rest F he count refines quorum total best down next ih =>
    have hsub : ∀ e' ∈ E.filter (· ≠ e), e' ∈ E := fun e' h => (List.mem_filter.1 h).1
    refine ⟨fun e' h => hsub _ (ih.1 _ h), fun j hj => ?_⟩
    cases j with
    | zero => exact ⟨_, hsub, rfl, count, quorum, total⟩
    | succ j =>
      obtain ⟨G, h1, h2, h3, h4, h5⟩ := ih.2 j (by simpa using hj)
      exact ⟨G, fun e' h => hsub _ (h1 _ h), h2, by rw [h3, count]; omega, h4, h5⟩

omit hcc in
theorem cuts_down {ρ : Finset (Fin n) → Option ℝ} {q : ℕ} {E F : List (Edge n)} {prev : Option ℝ}
    {acc : List (Labels n × ℝ)} (h : Cuts cc ρ q E prev acc F) :
    (acc.map Prod.snd).Pairwise (· ≥ ·) ∧ ∀ p, prev = some p → ∀ s ∈ acc.map Prod.snd, s ≤ p := by
  induction h with
  | done E prev => exact ⟨List.Pairwise.nil, fun _ _ s h => absurd h (by simp)⟩
  | cut E prev e s rest F he count refines quorum total best down next ih =>
    refine ⟨List.Pairwise.cons (fun t ht => ih.2 s rfl t ht) ih.1, fun p hp t ht => ?_⟩
    rcases List.mem_cons.1 ht with rfl | ht
    · exact down p hp
    · exact (ih.2 s rfl t ht).trans (down p hp)

omit hcc in
theorem goX_range (t : List (Option ℝ)) (w fuel i : ℕ) : i ≤ goX t w fuel i ∧ goX t w fuel i ≤ i + fuel ∧
    (0 < fuel → i + 1 ≤ goX t w fuel i) := by
  induction fuel generalizing i with
  | zero => simp [goX]
  | succ n ih =>
    unfold goX
    split_ifs
    · obtain ⟨h1, h2, -⟩ := ih (i + 1)
      exact ⟨by omega, by omega, fun _ => by omega⟩
    · exact ⟨by omega, by omega, fun _ => le_rfl⟩

omit hcc in
theorem optimKX_ok (t : List (Option ℝ)) (h : t ≠ []) :
    ∃ k, optimKX t = .ok k ∧ k ≤ t.length ∧ 1 ≤ k ∧ (2 ≤ t.length → 2 ≤ k) := by
  have hlen : 0 < t.length := List.length_pos_iff.2 h
  have hw := OptK.window_le t.length
  have hw1 : ¬ (OptK.window t.length none = 1 ∧ 1 < t.length) := by
    unfold OptK.window; simp only; split_ifs <;> omega
  have hw2 : 2 ≤ t.length → 2 ≤ OptK.window t.length none := by
    unfold OptK.window; simp only; split_ifs <;> omega
  obtain ⟨h1, h2, h3⟩ := goX_range t (OptK.window t.length none) (t.length - OptK.window t.length none) 0
  refine ⟨_, by unfold optimKX; simp only; rw [if_neg (by omega), if_neg hw1], by omega, ?_, ?_⟩
  · rcases Nat.eq_zero_or_pos (t.length - OptK.window t.length none) with h4 | h4
    · omega
    · have := h3 h4; omega
  · intro h; have := hw2 h; omega

omit hcc in
theorem goX_some (t : List ℝ) (w fuel i : ℕ) (h : i + fuel + w ≤ t.length) :
    goX (t.map some) w fuel i = OptK.go t w fuel i := by
  induction fuel generalizing i with
  | zero => rfl
  | succ m ih =>
    have e : condX (t.map some) w i ↔ OptK.cond t w i := by
      unfold condX
      rw [List.getD_eq_getElem _ _ (by simp; omega), List.getElem_map]
      simp only [List.map_map]
      rw [show ((fun v : Option ℝ => v.getD 0) ∘ some) = id from rfl, List.map_id]
    unfold goX OptK.go
    by_cases hc : OptK.cond t w i
    · rw [if_pos (e.2 hc), if_pos hc, ih _ (by omega)]
    · rw [if_neg (fun h => hc (e.1 h)), if_neg hc]

omit hcc in
/-- On a trace without infinity this is `optim_k` as modelled for C64. -/
theorem optimKX_some (t : List ℝ) : optimKX (t.map some) = OptK.optimK t none := by
  have hw := OptK.window_le t.length
  unfold optimKX OptK.optimK
  simp only [List.length_map]
  rw [goX_some _ _ _ _ (by omega)]

/-- The trace of a successful search on a connected graph. -/
theorem fit_trace {ρ : Finset (Fin n) → Option ℝ} {q m : ℕ} {E : List (Edge n)} (h1 : (cc E).1 = 1) (hc : 1 < m)
    {R : Res n} (h : fit cc ρ q m false E = .ok R) :
    ∃ acc : List (Labels n × ℝ), (R.trace = acc.map some ∨ R.trace = acc.map some ++ [none]) ∧ R.trace ≠ [] ∧
      R.trace.length < m ∧ (acc.map Prod.snd).Pairwise (· ≥ ·) ∧
      ∀ j (hj : j < acc.length), Admissible E q (j + 2) acc[j].1 ∧ IsScore ρ (j + 2) acc[j].1 acc[j].2 := by
  obtain ⟨acc, hcut, hlen, hor⟩ := C46_connected hcc h1 (by omega) h
  refine ⟨acc, ?_, ?_, ?_, (cuts_down hcut).1, fun j hj => ?_⟩
  · rcases hor with ⟨-, h, -⟩ | ⟨-, h, -⟩
    · exact Or.inl h
    · exact Or.inr h
  · rcases hor with ⟨-, h, h'⟩ | ⟨-, h, -⟩
    · rw [h]; intro h0
      have : acc.length = 0 := by simpa using h0
      omega
    · rw [h]; simp
  · rcases hor with ⟨-, h, h'⟩ | ⟨-, h, h', -⟩ <;> rw [h]
    · rw [List.length_map]; omega
    · rw [List.length_append, List.length_map, List.length_singleton]; omega
  · obtain ⟨G, g1, g2, g3, g4, g5⟩ := (cuts_entry hcut).2 j hj
    have e : j + 2 = (cc G).1 := by rw [g3, h1]; omega
    rw [g2, e]
    exact ⟨admissible_of hcc g1 g4, isScore_of g5⟩

omit hcc in
theorem cuts_last {ρ : Finset (Fin n) → Option ℝ} {q : ℕ} {E F : List (Edge n)} {prev : Option ℝ}
    {acc : List (Labels n × ℝ)} (h : Cuts cc ρ q E prev acc F) :
    ∀ l s, acc.getLast? = some (l, s) → l = (cc F).2 ∧ MeetsQuorum q (cc F) ∧ Total ρ (cc F) s := by
  induction h with
  | done E prev => intro l s h; cases h
  | cut E prev e s rest F he count refines quorum total best down next ih =>
    intro l t hl
    cases next with
    | done =>
      cases hl
      exact ⟨rfl, quorum, total⟩
    | cut _ _ e' s' rest' F' he' c' r' q' t' b' d' n' =>
      exact ih l t (by rw [← hl, List.getLast?_cons_cons])

/-! ### A given number of clusters -/

/-- C156: with a number of clusters, on a connected graph, whenever the class gets past the checks of the regimes, the
clusters are an admissible solution with exactly that number of regimes, the score is theirs, and the list `SSR` is the
non-increasing list of the scores of the solutions with 2, ..., k regimes that ends with it. -/
theorem C156_fixed {ρ : Finset (Fin n) → Option ℝ} {E : List (Edge n)} (h1 : (cc E).1 = 1) {cols K k : ℕ} (hk : 2 ≤ k)
    {quorum : ℤ} {trace : Bool} {S : Search n} {g : Labels n}
    (hS : search cc ρ E cols (some k) quorum trace = .ok S) (hg : accept K S.clusters = .ok g) :
    Admissible E (quorumOf cols quorum) k g ∧
      ∃ l : List ℝ, ∃ s, ssrOf S.trace = l.map some ∧ l.length = k - 1 ∧ l.Pairwise (· ≥ ·) ∧ l.getLast? = some s ∧
        S.score = some s ∧ IsScore ρ k g s := by
  obtain ⟨m, rfl⟩ : ∃ m, k = m + 1 := ⟨k - 1, by omega⟩
  unfold search at hS
  simp only at hS
  cases hf : fit cc ρ (quorumOf cols quorum) (m + 1) false E with
  | error e => rw [hf] at hS; cases hS
  | ok R =>
    rw [hf] at hS
    simp only at hS
    split_ifs at hS
    obtain rfl := Except.ok.inj hS
    obtain ⟨acc, hcut, hlen, ⟨c1, c2, c3⟩ | ⟨c1, -, -, -⟩⟩ := C46_connected hcc h1 (by omega) hf
    swap
    · rw [c1] at hg; cases hg
    have hg' : g = (cc R.msf).2 := by
      rw [c1] at hg
      simp only [labOf, accept] at hg
      split_ifs at hg
      exact (Except.ok.inj hg).symm
    have hne : acc ≠ [] := by rintro rfl; simp at hlen; omega
    obtain ⟨⟨l, s⟩, hls⟩ : ∃ a, acc.getLast? = some a := ⟨_, List.getLast?_eq_some_getLast hne⟩
    obtain ⟨-, hq, ht⟩ := cuts_last hcut l s hls
    have hs : ssrOf (pyTrace R) = (acc.map Prod.snd).map some := by
      simp only [ssrOf, pyTrace, List.tail_cons, c2, List.map_map]
      rfl
    rw [hg', ← c3]
    refine ⟨admissible_of hcc (cuts_entry hcut).1 hq, acc.map Prod.snd, s, hs, ?_, (cuts_down hcut).1, ?_, ?_, isScore_of ht⟩
    · rw [List.length_map, hlen]; omega
    · rw [List.getLast?_map, hls]; rfl
    · show ((pyTrace R).getLast?.map Prod.snd).getD none = some s
      have : (pyTrace R).getLast? = some (.lab l, some s) := by
        rw [pyTrace, c2, List.map_map]
        obtain ⟨a, as, rfl⟩ := List.exists_cons_of_ne_nil hne
        rw [List.map_cons, List.getLast?_cons_cons, ← List.map_cons, List.getLast?_map, hls]
        rfl
      rw [this]; rfl

omit hcc in
/-- C156 fails for `trace=False`: the constructor raises whenever a number of clusters is given. -/
theorem C156_trace_violated {ρ : Finset (Fin n) → Option ℝ} {E : List (Edge n)} {cols k : ℕ} (hk : 1 ≤ k) {quorum : ℤ}
    (S : Search n) : search cc ρ E cols (some k) quorum false ≠ .ok S := by
  obtain ⟨m, rfl⟩ : ∃ m, k = m + 1 := ⟨k - 1, by omega⟩
  intro h
  unfold search at h
  simp only at h
  cases hf : fit cc ρ (quorumOf cols quorum) (m + 1) false E with
  | error e => rw [hf] at h; cases h
  | ok R => rw [hf] at h; cases h

omit hcc in
/-- C156 fails for more clusters than the quorum allows: the `ValueError` of the search is printed and an
`UnboundLocalError` is raised in its place. -/
theorem C156_guard_violated {ρ : Finset (Fin n) → Option ℝ} {E : List (Edge n)} {cols k : ℕ} (hk : 1 ≤ k) {quorum : ℤ}
    {trace : Bool} (hq : 0 < quorumOf cols quorum) (hn : n ≤ k * quorumOf cols quorum) :
    fit cc ρ (quorumOf cols quorum) k false E = .error .valueError ∧
      search cc ρ E cols (some k) quorum trace = .error .unboundLocal := by
  have hf : fit cc ρ (quorumOf cols quorum) k false E = .error .valueError := by
    unfold fit; rw [if_pos ⟨hq, hn⟩]
  refine ⟨hf, ?_⟩
  obtain ⟨m, rfl⟩ : ∃ m, k = m + 1 := ⟨k - 1, by omega⟩
  unfold search
  simp only
  rw [hf]

/-- C156 fails when no single cut respects the quorum: the search reports `None` as clusters and the regimes class
rejects it. -/
theorem C156_no_cut_violated {ρ : Finset (Fin n) → Option ℝ} {E : List (Edge n)} (hE : Forest E) (h1 : (cc E).1 = 1)
    {cols K k : ℕ} (hk : 1 < k) {quorum : ℤ} (hn : k * quorumOf cols quorum < n)
    (hcut : ∀ e ∈ E, ¬ MeetsQuorum (quorumOf cols quorum) (cc (E.filter (· ≠ e)))) :
    ∃ S, search cc ρ E cols (some k) quorum true = .ok S ∧ accept K S.clusters = .error .exception := by
  obtain ⟨R, hR, hl⟩ := C47_no_cut_violated hcc (ρ := ρ) (ignore := false) hE h1 hk hn hcut
  obtain ⟨m, rfl⟩ : ∃ m, k = m + 1 := ⟨k - 1, by omega⟩
  refine ⟨⟨labOf R.labels, ((pyTrace R).getLast?.map Prod.snd).getD none, pyTrace R⟩, ?_, by rw [hl]; rfl⟩
  unfold search
  simp only
  rw [hR]
  rfl

/-! ### Automatic choice -/

/-- The automatic branch once the search has ended. -/
theorem auto_eq {ρ : Finset (Fin n) → Option ℝ} {E : List (Edge n)} (h1 : (cc E).1 = 1) {cols : ℕ} {quorum : ℤ}
    {trace : Bool} {S : Search n} (hS : search cc ρ E cols none quorum trace = .ok S) :
    ∃ R k e, fit cc ρ (quorumOf cols quorum) (nOpt n (quorumOf cols quorum)) false E = .ok R ∧ 2 ≤ nOpt n (quorumOf cols quorum) ∧
      optimKX (ssrOf (pyTrace R)) = .ok k ∧ (pyTrace R)[k - 1]? = some e ∧ S = ⟨e.1, e.2, pyTrace R⟩ ∧
      k ≤ R.trace.length ∧ 1 ≤ k ∧ (2 ≤ R.trace.length → 2 ≤ k) := by
  unfold search at hS
  simp only at hS
  split_ifs at hS with h2 h3
  cases hf : fit cc ρ (quorumOf cols quorum) (nOpt n (quorumOf cols quorum)) false E with
  | error e => rw [hf] at hS; cases hS
  | ok R =>
    obtain ⟨acc, -, hne, -⟩ := fit_trace hcc h1 (by omega) hf
    have hlen : (ssrOf (pyTrace R)).length = R.trace.length := by simp [ssrOf, pyTrace]
    obtain ⟨k, hk, hk1, hk2, hk3⟩ := optimKX_ok (ssrOf (pyTrace R)) (by
      intro h0; rw [h0] at hlen; exact hne (List.length_eq_zero_iff.1 hlen.symm))
    rw [hlen] at hk1 hk3
    rw [hf] at hS
    simp only [bind, Except.bind, hk] at hS
    cases he : (pyTrace R)[k - 1]? with
    | none => rw [he] at hS; cases hS
    | some e =>
      rw [he] at hS
      exact ⟨R, k, e, rfl, by omega, hk, he, (Except.ok.inj hS).symm, hk1, hk2, hk3⟩

/-- C156: without a number of clusters, on a connected graph, whenever the class gets past the checks of the regimes, the
number of regimes is what `optim_k` chooses from `SSR`, at least 2, the clusters are an admissible solution with that
number of regimes, and the score is theirs. Missing for the full property: data sets for which only one cut is tried
(`C156_auto_two_violated`) and the largest number of regimes (`C156_auto_max_violated`). -/
theorem C156_auto_partial {ρ : Finset (Fin n) → Option ℝ} {E : List (Edge n)} (h1 : (cc E).1 = 1) {cols K : ℕ}
    {quorum : ℤ} {trace : Bool} (hn : 0 < n) {S : Search n} {g : Labels n}
    (hS : search cc ρ E cols none quorum trace = .ok S) (hg : accept K S.clusters = .ok g) :
    ∃ k, optimKX (ssrOf S.trace) = .ok k ∧ 2 ≤ k ∧ k < nOpt n (quorumOf cols quorum) ∧
      Admissible E (quorumOf cols quorum) k g ∧ ∃ s, S.score = some s ∧ IsScore ρ k g s ∧
        (ssrOf S.trace)[k - 2]? = some (some s) := by
  obtain ⟨R, k, e, hf, hm, hk, he, rfl, hk1, hk2, hk3⟩ := auto_eq hcc h1 hS
  obtain ⟨acc, htr, hne, hlt, -, hadm⟩ := fit_trace hcc h1 (by omega) hf
  have hk2' : 2 ≤ k := by
    by_contra h
    have : k = 1 := by omega
    subst this
    have : e = (.empty, none) := by
      simp only [pyTrace] at he
      exact (Option.some.inj he).symm
    subst this
    simp only [accept] at hg
    rw [if_neg (by omega)] at hg
    cases hg
  obtain ⟨j, rfl⟩ : ∃ j, k = j + 2 := ⟨k - 2, by omega⟩
  have he' : R.trace[j]?.map entryOf = some e := by
    rw [← he]
    show _ = (pyTrace R)[j + 1]?
    rw [pyTrace, List.getElem?_cons_succ, List.getElem?_map]
  have hj : j < acc.length := by
    rcases htr with h | h <;> rw [h] at hk1
    · rw [List.length_map] at hk1; omega
    · rw [List.length_append, List.length_map, List.length_singleton] at hk1; omega
  have hsome : R.trace[j]? = some (some acc[j]) := by
    rcases htr with h | h <;> rw [h]
    · rw [List.getElem?_map, List.getElem?_eq_getElem hj]; rfl
    · rw [List.getElem?_append_left (by simpa using hj), List.getElem?_map, List.getElem?_eq_getElem hj]; rfl
  rw [hsome] at he'
  obtain rfl := Option.some.inj he'
  obtain ⟨ha, hs⟩ := hadm j hj
  have hg' : g = acc[j].1 := by
    simp only [entryOf, accept] at hg
    split_ifs at hg
    exact (Except.ok.inj hg).symm
  rw [hg']
  refine ⟨j + 2, hk, by omega, by omega, ha, acc[j].2, rfl, hs, ?_⟩
  show (ssrOf (pyTrace R))[j]? = _
  rw [ssrOf, pyTrace, List.tail_cons, List.map_map, List.getElem?_map, hsome]
  rfl

/-- C156 fails for data sets where the automatic maximum is two regimes (for instance 86 to 128 observations with the
smallest default quorum): no call succeeds. -/
theorem C156_auto_two_violated {ρ : Finset (Fin n) → Option ℝ} {E : List (Edge n)} (h1 : (cc E).1 = 1) {cols K : ℕ}
    {quorum : ℤ} {trace : Bool} (hn : 0 < n) (h2 : nOpt n (quorumOf cols quorum) = 2) (S : Search n)
    (hS : search cc ρ E cols none quorum trace = .ok S) : accept K S.clusters = .error .exception := by
  cases hg : accept K S.clusters with
  | ok g =>
    obtain ⟨k, -, hk, hk', -⟩ := C156_auto_partial hcc h1 hn hS hg
    omega
  | error e =>
    cases hc : S.clusters with
    | noLab => rw [hc] at hg; rw [← hg]; rfl
    | empty => rw [hc] at hg; rw [← hg]; simp only [accept]; rw [if_neg (by omega)]
    | lab g =>
      rw [hc] at hg
      simp only [accept] at hg ⊢
      rw [← hg]
      split_ifs at hg ⊢ <;> rfl

/-- C156 fails when a second cut is not tried or not possible after a first search: a trace with a single search gives no
result, even though that search may have found two regimes. -/
theorem C156_auto_one_violated {ρ : Finset (Fin n) → Option ℝ} {E : List (Edge n)} (h1 : (cc E).1 = 1) {cols K : ℕ}
    {quorum : ℤ} {trace : Bool} (hn : 0 < n) (S : Search n)
    (hS : search cc ρ E cols none quorum trace = .ok S) (ht : (ssrOf S.trace).length = 1) :
    ∀ g, accept K S.clusters ≠ .ok g := by
  intro g hg
  obtain ⟨k, hk, hk2, -⟩ := C156_auto_partial hcc h1 hn hS hg
  obtain ⟨k', hk', hle, -⟩ := optimKX_ok (ssrOf S.trace) (by intro h0; rw [h0] at ht; cases ht)
  rw [hk] at hk'
  obtain rfl := Except.ok.inj hk'
  omega

/-- C156 fails for the largest admissible number of regimes: it is searched for, but never reported. -/
theorem C156_auto_max_violated {ρ : Finset (Fin n) → Option ℝ} {E : List (Edge n)} (h1 : (cc E).1 = 1) {cols K : ℕ}
    {quorum : ℤ} {trace : Bool} (hn : 0 < n) {S : Search n} {g : Labels n}
    (hS : search cc ρ E cols none quorum trace = .ok S) (hg : accept K S.clusters = .ok g) :
    (univ.image g).card < nOpt n (quorumOf cols quorum) := by
  obtain ⟨k, -, -, hk, ha, -⟩ := C156_auto_partial hcc h1 hn hS hg
  rw [ha.numbered, card_range]
  exact hk

/-- C156: on a connected graph and with scores that do not increase when a region is split, the automatic search itself
succeeds exactly when the quorum is positive and leaves room for two regimes. -/
theorem C156_auto_search {ρ : Finset (Fin n) → Option ℝ} (hρ : Splits ρ) {E : List (Edge n)} (hE : Forest E)
    (h1 : (cc E).1 = 1) {cols : ℕ} {quorum : ℤ} {trace : Bool} :
    (∃ S, search cc ρ E cols none quorum trace = .ok S) ↔
      0 < quorumOf cols quorum ∧ 20 * quorumOf cols quorum ≤ 7 * n := by
  have key : 0 < quorumOf cols quorum →
      (2 ≤ nOpt n (quorumOf cols quorum) ↔ 20 * quorumOf cols quorum ≤ 7 * n) := fun hq => by
    unfold nOpt
    rw [Nat.le_div_iff_mul_le (by omega), ← mul_assoc]
    exact Iff.rfl
  constructor
  · rintro ⟨S, hS⟩
    have hq : 0 < quorumOf cols quorum := by
      unfold search at hS
      simp only at hS
      split_ifs at hS with h2 h3 <;> omega
    obtain ⟨-, -, -, -, hm, -⟩ := auto_eq hcc h1 hS
    exact ⟨hq, (key hq).1 hm⟩
  · rintro ⟨hq, h20⟩
    have hm := (key hq).2 h20
    have hlt : nOpt n (quorumOf cols quorum) * quorumOf cols quorum < n := by
      have h3 : nOpt n (quorumOf cols quorum) * (10 * quorumOf cols quorum) ≤ 7 * n := Nat.div_mul_le_self _ _
      have h4 : nOpt n (quorumOf cols quorum) * (10 * quorumOf cols quorum)
          = 10 * (nOpt n (quorumOf cols quorum) * quorumOf cols quorum) := by ring
      omega
    obtain ⟨R, hR⟩ := (C46_no_errors hcc hρ (ignore := false) hE h1 (by omega)).2 fun _ => hlt
    obtain ⟨acc, -, hne, -⟩ := fit_trace hcc h1 (by omega) hR
    have hlen : (ssrOf (pyTrace R)).length = R.trace.length := by simp [ssrOf, pyTrace]
    obtain ⟨k, hk, hk1, hk2, hk3⟩ := optimKX_ok (ssrOf (pyTrace R)) (by
      intro h0; rw [h0] at hlen; exact hne (List.length_eq_zero_iff.1 hlen.symm))
    have hlt' : k - 1 < (pyTrace R).length := by simp only [pyTrace, List.length_cons, List.length_map]; omega
    refine ⟨⟨(pyTrace R)[k - 1].1, (pyTrace R)[k - 1].2, pyTrace R⟩, ?_⟩
    unfold search
    simp only
    rw [if_neg (by omega), if_neg (by omega), hR]
    simp only [bind, Except.bind, hk]
    rw [List.getElem?_eq_getElem hlt']
    rfl

end

/-- **C156**, the quorum of the other theorems: a given quorum, 0 included, is the one used; otherwise the larger of 30 and ten
observations per coefficient. -/
theorem C156_quorum (cols : ℕ) (q : ℤ) : (0 ≤ q → (quorumOf cols q : ℤ) = q) ∧
    (q < 0 → 30 ≤ quorumOf cols q ∧ 10 * (cols + 1) ≤ quorumOf cols q ∧
      (quorumOf cols q = 30 ∨ quorumOf cols q = 10 * (cols + 1))) := by
  unfold quorumOf
  constructor
  · intro h
    rw [if_neg (by omega)]
    exact Int.toNat_of_nonneg h
  · intro h
    rw [if_pos h]
    omega

/-- **C156**, which solutions go on to the estimation: labels with at least two different values and at least as many
observations as coefficients, and then they are the regimes; a search without solution never does. -/
theorem C156_accept (K : ℕ) (g g' : Labels n) : (accept K (.lab g) = .ok g' ↔
    g' = g ∧ (∃ i j, g i ≠ g j) ∧ (K + 1) * (Finset.univ.image g).card ≤ n) ∧ accept K (.noLab : Lab n) = .error .exception := by
  refine ⟨?_, rfl⟩
  have h2 : (Finset.univ.image g).card < 2 ↔ ¬ ∃ i j, g i ≠ g j := by
    rw [Nat.lt_succ_iff, Finset.card_le_one]
    simp only [mem_image, mem_univ, true_and]
    push Not
    exact ⟨fun h i j => h _ ⟨i, rfl⟩ _ ⟨j, rfl⟩, fun h => by rintro _ ⟨i, rfl⟩ _ ⟨j, rfl⟩; exact h i j⟩
  simp only [accept]
  by_cases hr : (Finset.univ.image g).card < 2
  · rw [if_pos hr]
    exact ⟨fun h => by (cases h), fun h => absurd h.2.1 (h2.1 hr)⟩
  rw [if_neg hr]
  by_cases hk : n < (K + 1) * (Finset.univ.image g).card
  · rw [if_pos hk]
    exact ⟨fun h => by (cases h), fun h => by omega⟩
  rw [if_neg hk]
  have h3 : ∃ i j, g i ≠ g j := by by_contra h; exact hr (h2.2 h)
  exact ⟨fun h => ⟨(Except.ok.inj h).symm, h3, by omega⟩, fun h => by rw [h.1]⟩

end Spreg.Endog
