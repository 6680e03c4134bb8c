import Verif.Model.RegDurbin
import Verif.Props.Regimes
import Verif.Props.LM
import Mathlib.Tactic.Ring
import Mathlib.Tactic.Linarith
import Mathlib.Data.List.Nodup
namespace Spreg.RegDurbin
open Spreg Spreg.Regimes

/-- A block of rows of one regime, by the type of the coefficients. -/
def blk (P X Z : List Kind) (m : String) : List Row :=
  P.map (fun k => ⟨k, .o, m⟩) ++ (X.map (fun k => ⟨k, .x, m⟩) ++ Z.map (fun k => ⟨k, .wx, m⟩))

/-- A table: a block per regime, the global rows, the spatial lag. -/
def lay (P X Z G : List Kind) (str : ℕ → String) (rs : List ℕ) : List Row :=
  rs.flatMap (fun r => blk P X Z (str r)) ++ (G.map (fun k => ⟨k, .o, "_Global"⟩) ++ [rhoRow])

/-! ### Marking -/

theorem markFirst_skip (p : Row → Bool) (c : ℕ) (A B : List Row) (h : ∀ a ∈ A, p a = false) :
    markFirst p c (A ++ B) = A ++ markFirst p c B := by
  cases c with
  | zero => simp [markFirst]
  | succ c =>
    induction A with
    | nil => rfl
    | cons a A ih =>
      simp only [List.cons_append, markFirst, h a (by simp)]
      rw [ih fun b hb => h b (by simp [hb])]; simp

theorem markFirst_take (p : Row → Bool) (A B : List Row) (h : ∀ a ∈ A, p a = true) :
    markFirst p A.length (A ++ B) = A.map (fun a => { a with vt := .wx }) ++ B := by
  induction A with
  | nil => simp [markFirst]
  | cons a A ih =>
    simp only [List.cons_append, List.length_cons, markFirst, h a (by simp), if_true, List.map_cons]
    rw [ih fun b hb => h b (by simp [hb])]

theorem markFirst_all (p : Row → Bool) : ∀ (c : ℕ) (l : List Row), l.length ≤ c →
    markFirst p c l = l.map fun a => if p a then { a with vt := .wx } else a
  | 0, l, h => by cases l with | nil => rfl | cons a l => simp at h
  | c + 1, [], _ => rfl
  | c + 1, a :: l, h => by
    simp only [List.length_cons] at h
    by_cases hp : p a = true
    · simp only [markFirst, hp, if_true, List.map_cons]; rw [markFirst_all p c l (by omega)]
    · simp only [markFirst, hp, List.map_cons]; rw [markFirst_all p (c + 1) l (by omega)]; simp

theorem markLast_at (p : Row → Bool) (A B C : List Row) (hB : ∀ a ∈ B, p a = true) (hC : ∀ a ∈ C, p a = false)
    (h0 : B ≠ []) :
    markLast p B.length (A ++ (B ++ C)) = A ++ (B.map (fun a => { a with vt := .wx }) ++ C) := by
  have hl : B.length ≠ 0 := by simpa using h0
  rw [markLast, if_neg hl]
  simp only [List.reverse_append, List.append_assoc]
  rw [markFirst_skip _ _ _ _ (by simpa using hC), ← List.length_reverse, markFirst_take _ _ _ (by simpa using hB)]
  simp

theorem markLast_zero (p : Row → Bool) (l : List Row) :
    markLast p 0 l = l.map fun a => if p a then { a with vt := .wx } else a := by
  rw [markLast, if_pos rfl, markFirst_all _ _ _ (by simp)]; simp

/-- A pass per regime, each changing only the block of its regime. -/
theorem fold_blocks (str : ℕ → String) (step : List Row → String → List Row) (b b' : ℕ → List Row)
    (hb : ∀ r, ∀ a ∈ b r, a.regime = str r) (hb' : ∀ r, ∀ a ∈ b' r, a.regime = str r)
    (hstep : ∀ r A C, (∀ a ∈ A, a.regime ≠ str r) → (∀ a ∈ C, a.regime ≠ str r) →
      step (A ++ (b r ++ C)) (str r) = A ++ (b' r ++ C))
    (tail : List Row) : ∀ (rs : List ℕ) (done : List Row), rs.Nodup → (∀ r ∈ rs, ∀ q ∈ rs, str r = str q → r = q) →
      (∀ r ∈ rs, ∀ a ∈ done, a.regime ≠ str r) → (∀ r ∈ rs, ∀ a ∈ tail, a.regime ≠ str r) →
      rs.foldl (fun t r => step t (str r)) (done ++ (rs.flatMap b ++ tail)) = done ++ (rs.flatMap b' ++ tail)
  | [], done, _, _, _, _ => by simp
  | r :: rs, done, hn, hinj, hd, ht => by
    simp only [List.foldl_cons, List.flatMap_cons, List.append_assoc]
    have hr : r ∉ rs := (List.nodup_cons.1 hn).1
    rw [hstep r done _ (hd r (by simp)) (by
      intro a ha
      rcases List.mem_append.1 ha with ha | ha
      · obtain ⟨q, hq, ha⟩ := List.mem_flatMap.1 ha
        rw [hb q a ha]
        intro e
        exact hr (hinj q (by simp [hq]) r (by simp) e ▸ hq)
      · exact ht r (by simp) a ha)]
    rw [← List.append_assoc done]
    rw [fold_blocks str step b b' hb hb' hstep tail rs (done ++ b' r) (List.nodup_cons.1 hn).2
      (fun r hr q hq => hinj r (by simp [hr]) q (by simp [hq]))
      (by
        intro q hq a ha
        rcases List.mem_append.1 ha with ha | ha
        · exact hd q (by simp [hq]) a ha
        · rw [hb' r a ha]
          intro e
          exact hr (hinj r (by simp) q (by simp [hq]) e ▸ hq))
      (fun q hq => ht q (by simp [hq]))]
    simp

/-! ### Positions -/

theorem idxs_append (p : Row → Bool) : ∀ (A B : List Row) (i : ℕ),
    idxs p (A ++ B) i = idxs p A i ++ idxs p B (i + A.length)
  | [], B, i => by simp [idxs]
  | a :: A, B, i => by
    simp only [List.cons_append, idxs, List.length_cons]
    rw [idxs_append p A B (i + 1), show i + 1 + A.length = i + (A.length + 1) by omega]
    split <;> simp

theorem idxs_none (p : Row → Bool) : ∀ (A : List Row) (i : ℕ), (∀ a ∈ A, p a = false) → idxs p A i = []
  | [], _, _ => rfl
  | a :: A, i, h => by
    simp only [idxs, h a (by simp)]
    exact idxs_none p A (i + 1) fun b hb => h b (by simp [hb])

theorem idxs_all (p : Row → Bool) : ∀ (A : List Row) (i : ℕ), (∀ a ∈ A, p a = true) →
    idxs p A i = List.range' i A.length
  | [], _, _ => rfl
  | a :: A, i, h => by
    simp only [idxs, h a (by simp), if_true, List.length_cons, List.range'_succ]
    rw [idxs_all p A (i + 1) fun b hb => h b (by simp [hb])]

/-- The positions of the rows of a table that satisfy `p`, when in every block these are those from `t` to `t + c`. -/
theorem idxs_blocks (p : Row → Bool) (b : ℕ → List Row) (K t c : ℕ) (hK : ∀ r, (b r).length = K)
    (hp : ∀ r i, idxs p (b r) i = List.range' (i + t) c) : ∀ (rs : List ℕ) (i : ℕ),
      idxs p (rs.flatMap b) i = (List.range rs.length).flatMap fun r => List.range' (i + r * K + t) c
  | [], _ => rfl
  | r :: rs, i => by
    rw [List.flatMap_cons, idxs_append, hp, hK, idxs_blocks p b K t c hK hp rs (i + K), List.length_cons,
      List.range_succ_eq_map, List.flatMap_cons, List.flatMap_map]
    congr 1
    · simp
    · congr 1
      funext r
      rw [show i + K + r * K + t = i + (r + 1) * K + t by ring]

theorem get_blocks {α β : Type} (b : β → List α) (K : ℕ) (hK : ∀ r, (b r).length = K) (tail : List α) :
    ∀ (rs : List β) (i t : ℕ) (hi : i < rs.length), t < K →
      (rs.flatMap b ++ tail)[i * K + t]? = (b rs[i])[t]?
  | [], i, t, hi, _ => by simp at hi
  | r :: rs, 0, t, _, ht => by
    simp only [List.flatMap_cons, List.append_assoc, Nat.zero_mul, Nat.zero_add, List.getElem_cons_zero]
    rw [List.getElem?_append_left (by rw [hK]; exact ht)]
  | r :: rs, i + 1, t, hi, ht => by
    simp only [List.flatMap_cons, List.append_assoc, List.getElem_cons_succ]
    rw [List.getElem?_append_right (by rw [hK]; nlinarith), hK,
      show (i + 1) * K + t - K = i * K + t by rw [Nat.add_mul]; omega]
    exact get_blocks b K hK tail rs i t (by simpa using hi) ht

theorem uniq_same (m : String) : ∀ (l : List String), (∀ a ∈ l, a = m) → l ≠ [] → uniq l = [m]
  | [], _, h => absurd rfl h
  | a :: l, h, _ => by
    have ha : a = m := h a (by simp)
    subst ha
    simp only [uniq, List.cons.injEq, true_and, List.filter_eq_nil_iff]
    intro b hb
    cases l with
    | nil => simp [uniq] at hb
    | cons c l =>
      rw [uniq_same a (c :: l) (fun x hx => h x (by simp [hx])) (by simp)] at hb
      simp at hb ⊢
      exact hb

theorem mem_uniq : ∀ (l : List String) (a : String), a ∈ uniq l ↔ a ∈ l
  | [], _ => Iff.rfl
  | b :: l, a => by
    simp only [uniq, List.mem_cons, List.mem_filter, mem_uniq l a, decide_eq_true_eq]
    by_cases h : a = b <;> simp [h]

/-- Values of a first group that do not occur later come first. -/
theorem uniq_append (m : String) : ∀ (A B : List String), (∀ a ∈ A, a = m) → A ≠ [] → m ∉ B →
    uniq (A ++ B) = m :: uniq B
  | [], _, _, h, _ => absurd rfl h
  | [a], B, h, _, hB => by
    have ha : a = m := h a (by simp)
    subst ha
    simp only [List.singleton_append, uniq, List.cons.injEq, true_and, List.filter_eq_self]
    intro b hb
    rw [mem_uniq] at hb
    simp only [decide_eq_true_eq]
    intro e; exact hB (e ▸ hb)
  | a :: c :: A, B, h, _, hB => by
    have ha : a = m := h a (by simp)
    subst ha
    rw [List.cons_append, uniq, uniq_append a (c :: A) B (fun x hx => h x (by simp [hx])) (by simp) hB]
    simp only [List.cons.injEq, true_and]
    rw [List.filter_cons_of_neg (by simp), List.filter_eq_self]
    intro b hb
    rw [mem_uniq] at hb
    simp only [decide_eq_true_eq]
    intro e; exact hB (e ▸ hb)

/-- What the names of the regimes must satisfy. -/
structure Names (str : ℕ → String) (rs : List ℕ) : Prop where
  nodup : rs.Nodup
  inj : ∀ r ∈ rs, ∀ q ∈ rs, str r = str q → r = q
  glob : ∀ r ∈ rs, str r ≠ "_Global"
  ne : rs ≠ []

theorem uniq_blocks (str : ℕ → String) (b : ℕ → List Row) (hb : ∀ r, ∀ a ∈ b r, a.regime = str r)
    (h0 : ∀ r, b r ≠ []) (tail : List Row) (ht : ∀ a ∈ tail, a.regime = "_Global") (ht0 : tail ≠ []) :
    ∀ rs : List ℕ, rs.Nodup → (∀ r ∈ rs, ∀ q ∈ rs, str r = str q → r = q) → (∀ r ∈ rs, str r ≠ "_Global") →
      uniq ((rs.flatMap b ++ tail).map Row.regime) = rs.map str ++ ["_Global"]
  | [], _, _, _ => by
    simp only [List.flatMap_nil, List.nil_append, List.map_nil]
    exact uniq_same _ _ (by simpa using ht) (by simpa using ht0)
  | r :: rs, hn, hinj, hg => by
    simp only [List.flatMap_cons, List.append_assoc, List.map_append, List.map_cons, List.cons_append]
    have hr : r ∉ rs := (List.nodup_cons.1 hn).1
    rw [uniq_append (str r) _ _ (by simpa using hb r) (by simpa using h0 r)]
    · rw [← List.map_append, uniq_blocks str b hb h0 tail ht ht0 rs (List.nodup_cons.1 hn).2
        (fun r hr q hq => hinj r (by simp [hr]) q (by simp [hq])) (fun r hr => hg r (by simp [hr]))]
    · rw [← List.map_append]
      intro hm
      obtain ⟨a, ha, e⟩ := List.mem_map.1 hm
      rcases List.mem_append.1 ha with ha | ha
      · obtain ⟨q, hq, ha⟩ := List.mem_flatMap.1 ha
        rw [hb q a ha] at e
        exact hr (hinj q (by simp [hq]) r (by simp) e ▸ hq)
      · rw [ht a ha] at e
        exact hg r (by simp) e.symm

theorem idxs_congr (p q : Row → Bool) : ∀ (A : List Row) (i : ℕ), (∀ a ∈ A, p a = q a) → idxs p A i = idxs q A i
  | [], _, _ => rfl
  | a :: A, i, h => by
    simp only [idxs, h a (by simp)]
    rw [idxs_congr p q A (i + 1) fun b hb => h b (by simp [hb])]

theorem idxs_by_regime (p : Row → Bool) (str : ℕ → String) (b : ℕ → List Row)
    (hb : ∀ r, ∀ a ∈ b r, a.regime = str r) (tail : List Row) (ht : ∀ a ∈ tail, p a = false) :
    ∀ (rs : List ℕ) (i : ℕ), rs.Nodup → (∀ r ∈ rs, ∀ q ∈ rs, str r = str q → r = q) →
      (∀ r ∈ rs, ∀ a ∈ tail, a.regime ≠ str r) → (∀ r ∈ rs, str r ≠ "_Global") →
      (rs.map str ++ ["_Global"]).flatMap
        (fun m => idxs (fun a => decide (a.regime = m) && p a) (rs.flatMap b ++ tail) i) =
        idxs p (rs.flatMap b ++ tail) i
  | [], i, _, _, _, _ => by
    simp only [List.map_nil, List.nil_append, List.flatMap_nil, List.flatMap_cons, List.append_nil]
    rw [idxs_none _ tail i ht, idxs_none _ tail i fun a ha => by simp [ht a ha]]
  | r :: rs, i, hn, hinj, htr, hg => by
    have hr : r ∉ rs := (List.nodup_cons.1 hn).1
    have hother : ∀ q ∈ rs, str q ≠ str r := fun q hq e => hr (hinj q (by simp [hq]) r (by simp) e ▸ hq)
    have ih := idxs_by_regime p str b hb tail ht rs (i + (b r).length) (List.nodup_cons.1 hn).2
      (fun r hr q hq => hinj r (by simp [hr]) q (by simp [hq])) (fun q hq => htr q (by simp [hq]))
      (fun q hq => hg q (by simp [hq]))
    simp only [List.map_cons, List.cons_append, List.flatMap_cons, List.append_assoc]
    rw [idxs_append p (b r), ← ih, idxs_append _ (b r),
      idxs_congr _ p (b r) i (fun a ha => by simp [hb r a ha]),
      idxs_none _ (rs.flatMap b ++ tail) _ (by
        intro a ha
        have : a.regime ≠ str r := by
          rcases List.mem_append.1 ha with ha | ha
          · obtain ⟨q, hq, ha⟩ := List.mem_flatMap.1 ha
            rw [hb q a ha]; exact hother q hq
          · exact htr r (by simp) a ha
        simp [this]), List.append_nil]
    congr 1
    refine List.flatMap_congr fun m hm => ?_
    rw [idxs_append _ (b r), idxs_none _ (b r) i, List.nil_append]
    intro a ha
    have : str r ≠ m := by
      rcases List.mem_append.1 hm with hm | hm
      · obtain ⟨q, hq, rfl⟩ := List.mem_map.1 hm
        exact (hother q hq).symm
      · rw [List.mem_singleton.1 hm]; exact hg r (by simp)
    simp [hb r a ha, this]

theorem blk_regime (P X Z : List Kind) (m : String) : ∀ a ∈ blk P X Z m, a.regime = m := by
  intro a ha
  simp only [blk, List.mem_append, List.mem_map] at ha
  rcases ha with ⟨k, _, rfl⟩ | ⟨k, _, rfl⟩ | ⟨k, _, rfl⟩ <;> rfl

theorem blk_length (P X Z : List Kind) (m : String) : (blk P X Z m).length = P.length + (X.length + Z.length) := by
  simp [blk]

theorem idxs_blk_x (P X Z : List Kind) (m : String) (i : ℕ) :
    idxs (fun a => decide (a.vt = .x)) (blk P X Z m) i = List.range' (i + P.length) X.length := by
  rw [blk, idxs_append, idxs_append, idxs_none _ (P.map _) _ (by simp), idxs_none _ (Z.map _) _ (by simp),
    idxs_all _ (X.map _) _ (by simp)]
  simp

theorem idxs_blk_wx (P X Z : List Kind) (m : String) (i : ℕ) :
    idxs (fun a => decide (a.vt = .wx)) (blk P X Z m) i = List.range' (i + (P.length + X.length)) Z.length := by
  rw [blk, idxs_append, idxs_append, idxs_none _ (P.map _) _ (by simp), idxs_none _ (X.map _) _ (by simp),
    idxs_all _ (Z.map _) _ (by simp)]
  simp [Nat.add_assoc]

theorem tail_regime (G : List Kind) : ∀ a ∈ G.map (fun k => (⟨k, .o, "_Global"⟩ : Row)) ++ [rhoRow],
    a.regime = "_Global" ∧ a.vt ≠ .x ∧ a.vt ≠ .wx := by
  intro a ha
  simp only [List.mem_append, List.mem_map, List.mem_singleton] at ha
  rcases ha with ⟨k, _, rfl⟩ | rfl <;> simp [rhoRow]

/-- Positions of the coefficients of type "x" of a table. -/
theorem idx_lay (P X Z G : List Kind) (str : ℕ → String) (rs : List ℕ) :
    idxs (fun a => decide (a.vt = .x)) (lay P X Z G str rs) 0 =
      (List.range rs.length).flatMap fun r =>
        List.range' (r * (P.length + (X.length + Z.length)) + P.length) X.length := by
  rw [lay, idxs_append, idxs_none _ (_ ++ [rhoRow]) _ (fun a ha => by simpa using (tail_regime G a ha).2.1),
    List.append_nil, idxs_blocks _ _ _ P.length X.length (fun r => blk_length P X Z _)
      (fun r i => idxs_blk_x P X Z _ i)]
  simp

theorem xIdx_lay (P X Z G : List Kind) (str : ℕ → String) (rs : List ℕ) (h : Names str rs)
    (h0 : P ++ (X ++ Z) ≠ []) :
    xIdx (lay P X Z G str rs) = (List.range rs.length).flatMap fun r =>
        List.range' (r * (P.length + (X.length + Z.length)) + P.length) X.length := by
  rw [← idx_lay, xIdx, lay, uniq_blocks str _ (fun r => blk_regime P X Z _)
    (fun r e => h0 (by
      have := congrArg List.length e
      rw [blk_length] at this
      apply List.length_eq_zero_iff.1
      simpa using this)) _
    (fun a ha => (tail_regime G a ha).1) (by simp) rs h.nodup h.inj h.glob]
  exact idxs_by_regime _ str _ (fun r => blk_regime P X Z _) _
    (fun a ha => by simpa using (tail_regime G a ha).2.1) rs 0 h.nodup h.inj
    (fun r hr a ha => by rw [(tail_regime G a ha).1]; exact (h.glob r hr).symm) h.glob

theorem wxIdx_lay (P X Z G : List Kind) (str : ℕ → String) (rs : List ℕ) (h : Names str rs) :
    wxIdx (lay P X Z G str rs) = (List.range rs.length).flatMap fun r =>
        List.range' (r * (P.length + (X.length + Z.length)) + (P.length + X.length)) Z.length := by
  rw [wxIdx, idxs_congr _ (fun a => decide (a.vt = .wx)) _ _ (by
    intro a ha
    rcases List.mem_append.1 ha with ha | ha
    · obtain ⟨q, hq, ha⟩ := List.mem_flatMap.1 ha
      simp [blk_regime P X Z _ a ha, h.glob q hq]
    · simp [(tail_regime G a ha).2.2])]
  rw [lay, idxs_append, idxs_none _ (_ ++ [rhoRow]) _ (fun a ha => by simpa using (tail_regime G a ha).2.2),
    List.append_nil, idxs_blocks _ _ _ (P.length + X.length) Z.length (fun r => blk_length P X Z _)
      (fun r i => idxs_blk_wx P X Z _ i)]
  simp

theorem zip_range' (a b : ℕ) : ∀ c : ℕ, (List.range' a c).zip (List.range' b c) =
    (List.range c).map fun j => (a + j, b + j) := by
  intro c
  simp only [List.range'_eq_map_range, List.zip_map']

theorem zip_flatMap {α β γ : Type} (f : α → List β) (g : α → List γ) : ∀ (l : List α),
    (∀ a ∈ l, (f a).length = (g a).length) → (l.flatMap f).zip (l.flatMap g) = l.flatMap fun a => (f a).zip (g a)
  | [], _ => rfl
  | a :: l, h => by
    simp only [List.flatMap_cons]
    rw [List.zip_append (h a (by simp)), zip_flatMap f g l fun b hb => h b (by simp [hb])]

/-- The pairs of the common factor test of a table. -/
theorem cfhPairs_lay (P X Z G : List Kind) (str : ℕ → String) (rs : List ℕ) (h : Names str rs)
    (h0 : X ≠ []) (hXZ : X.length = Z.length) :
    cfhPairs (lay P X Z G str rs) = .ok ((List.range rs.length).flatMap fun r => (List.range X.length).map fun j =>
      (r * (P.length + (X.length + Z.length)) + P.length + j,
       r * (P.length + (X.length + Z.length)) + (P.length + X.length) + j)) := by
  rw [cfhPairs, xIdx_lay P X Z G str rs h (by simp [h0]), wxIdx_lay P X Z G str rs h, if_pos (by
    simp [List.length_flatMap, hXZ]), zip_flatMap _ _ _ (by simp [hXZ])]
  congr 2
  funext r
  rw [← hXZ, zip_range']

theorem cfhPairs_lay_ne (P X Z G : List Kind) (str : ℕ → String) (rs : List ℕ) (h : Names str rs)
    (h0 : P ++ (X ++ Z) ≠ []) (hXZ : X.length ≠ Z.length) :
    cfhPairs (lay P X Z G str rs) = .error .valueError := by
  have hr : rs.length ≠ 0 := by simpa using h.ne
  rw [cfhPairs, xIdx_lay P X Z G str rs h h0, wxIdx_lay P X Z G str rs h, if_neg (by
    simp [List.length_flatMap, hXZ, hr])]

theorem get_lay (P X Z G : List Kind) (str : ℕ → String) (rs : List ℕ) (i t : ℕ) (hi : i < rs.length)
    (ht : t < P.length + (X.length + Z.length)) :
    (lay P X Z G str rs)[i * (P.length + (X.length + Z.length)) + t]? = (blk P X Z (str rs[i]))[t]? :=
  get_blocks _ _ (fun _ => blk_length P X Z _) _ rs i t hi ht

theorem length_lay (P X Z G : List Kind) (str : ℕ → String) (rs : List ℕ) :
    (lay P X Z G str rs).length = rs.length * (P.length + (X.length + Z.length)) + (G.length + 1) := by
  simp [lay, List.length_flatMap, blk_length]

theorem chunk_lay (P X Z G : List Kind) (str : ℕ → String) (rs : List ℕ) (h : Names str rs)
    (h0 : P ++ (X ++ Z) ≠ []) : chunk (lay P X Z G str rs) = X.length := by
  obtain ⟨r, rs, rfl⟩ := List.exists_cons_of_ne_nil h.ne
  have hr : r ∉ rs := (List.nodup_cons.1 h.nodup).1
  have hhead : ((lay P X Z G str (r :: rs)).head?.map Row.regime) = some (str r) := by
    obtain ⟨a, l, e⟩ := List.exists_cons_of_ne_nil (show blk P X Z (str r) ≠ [] from fun e => h0 (by
      have := congrArg List.length e
      rw [blk_length] at this
      apply List.length_eq_zero_iff.1
      simpa using this))
    have := blk_regime P X Z (str r) a (by rw [e]; simp)
    simp [lay, e, this]
  rw [chunk, hhead, lay, List.flatMap_cons, List.append_assoc, List.filter_append]
  rw [(List.filter_eq_nil_iff (l := rs.flatMap (fun r => blk P X Z (str r)) ++
    (G.map (fun k => (⟨k, .o, "_Global"⟩ : Row)) ++ [rhoRow]))).2 (by
    intro a ha
    rcases List.mem_append.1 ha with ha | ha
    · obtain ⟨q, hq, ha⟩ := List.mem_flatMap.1 ha
      have : str q ≠ str r := fun e => hr (h.inj q (by simp [hq]) r (by simp) e ▸ hq)
      simp [blk_regime P X Z _ a ha, this]
    · simp [(tail_regime G a ha).2.1])]
  simp [blk, List.filter_append, List.filter_map, Function.comp_def]

/-! ### The tables of the two classes -/

/-- Constant in every regime. -/
def Pm (many : Bool) : List Kind := if many then [.const] else []
/-- Constant common to the regimes. -/
def Gm (many : Bool) : List Kind := if many then [] else [.const]

theorem frame_lay (str : ℕ → String) (rs : List ℕ) (many : Bool) (vary : List Bool) (cols : List Kind)
    (hl : vary.length = cols.length) (hv : ∀ b ∈ vary, b = true) :
    frameRows str rs many vary cols ++ [rhoRow] = lay (Pm many) cols [] (Gm many) str rs := by
  have h := select_all true vary (cols.map fun k => (k, VT.x)) (by simpa using hl) hv
  have e1 : select vary true (cols.map fun k => (k, VT.x)) = cols.map fun k => (k, VT.x) := h.1
  have e2 : select vary false (cols.map fun k => (k, VT.x)) = [] := h.2
  have c1 : ∀ b, select (many :: vary) b ((Kind.const, VT.o) :: cols.map fun k => (k, VT.x)) =
      (if many == b then [(Kind.const, VT.o)] else []) ++ select vary b (cols.map fun k => (k, VT.x)) := by
    intro b
    simp only [select, List.zip_cons_cons, List.filter_cons]
    split <;> simp
  rw [frameRows, c1, c1, e1, e2]
  cases many <;> simp [lay, blk, Pm, Gm, Function.comp_def]

theorem mark_block (P X Z : List Kind) (m : String) (A C : List Row) (hC : ∀ a ∈ C, a.regime ≠ m) (hZ : Z ≠ []) :
    markLast (inRegime m) Z.length (A ++ (blk P (X ++ Z) [] m ++ C)) = A ++ (blk P X Z m ++ C) := by
  have := markLast_at (inRegime m) (A ++ (P.map (fun k => ⟨k, .o, m⟩) ++ X.map (fun k => ⟨k, .x, m⟩)))
    (Z.map (fun k => ⟨k, .x, m⟩)) C (by simp [inRegime])
    (fun a ha => by simp [inRegime, hC a ha]) (by simpa using hZ)
  simpa [blk, Function.comp_def] using this

theorem mark_all (X : List Kind) (m : String) (A C : List Row) (hA : ∀ a ∈ A, a.regime ≠ m)
    (hC : ∀ a ∈ C, a.regime ≠ m) :
    markLast (inRegime m) 0 (A ++ (blk [] X [] m ++ C)) = A ++ (blk [] [] X m ++ C) := by
  rw [markLast_zero, List.map_append, List.map_append]
  have hz : ∀ B : List Row, (∀ a ∈ B, a.regime ≠ m) →
      B.map (fun a => if inRegime m a then { a with vt := .wx } else a) = B := by
    intro B hB
    conv_rhs => rw [← List.map_id B]
    refine List.map_congr_left fun a ha => ?_
    simp [inRegime, hB a ha]
  rw [hz A hA, hz C hC]
  simp [blk, Function.comp_def, inRegime]

theorem count_block (P X : List Kind) (m : String) (A C : List Row) (hA : ∀ a ∈ A, a.regime ≠ m)
    (hC : ∀ a ∈ C, a.regime ≠ m) :
    ((A ++ (blk P X [] m ++ C)).filter (inRegime m)).length = P.length + X.length := by
  have hz : ∀ B : List Row, (∀ a ∈ B, a.regime ≠ m) → B.filter (inRegime m) = [] := by
    intro B hB
    rw [List.filter_eq_nil_iff]
    intro a ha
    simp [inRegime, hB a ha]
  rw [List.filter_append, List.filter_append, hz A hA, hz C hC, List.filter_eq_self.2 (by
    intro a ha
    have := blk_regime P X [] m a ha
    simp only [blk, List.mem_append, List.mem_map] at ha
    rcases ha with ⟨k, _, rfl⟩ | ⟨k, _, rfl⟩ | ⟨k, hk, rfl⟩
    · simp [inRegime]
    · simp [inRegime]
    · simp at hk)]
  simp [blk_length]

theorem fold_lay (step : List Row → String → List Row) (P X Z X' Z' G : List Kind) (str : ℕ → String) (rs : List ℕ)
    (h : Names str rs)
    (hstep : ∀ m A C, (∀ a ∈ A, a.regime ≠ m) → (∀ a ∈ C, a.regime ≠ m) →
      step (A ++ (blk P X Z m ++ C)) m = A ++ (blk P X' Z' m ++ C)) :
    rs.foldl (fun t r => step t (str r)) (lay P X Z G str rs) = lay P X' Z' G str rs := by
  have := fold_blocks str step (fun r => blk P X Z (str r)) (fun r => blk P X' Z' (str r))
    (fun r => blk_regime P X Z _) (fun r => blk_regime P X' Z' _) (fun r A C => hstep (str r) A C)
    (G.map (fun k => (⟨k, .o, "_Global"⟩ : Row)) ++ [rhoRow]) rs [] h.nodup h.inj (by simp)
    (fun r hr a ha => by rw [(tail_regime G a ha).1]; exact (h.glob r hr).symm)
  simpa [lay] using this

/-- The columns of the variables and of their lags. -/
def xs (kx : ℕ) : List Kind := (List.range kx).map .x
def wxs (kx s : ℕ) : List Kind := (List.range s).flatMap fun l => (List.range kx).map (.wx (l + 1))

@[simp] theorem length_xs (kx : ℕ) : (xs kx).length = kx := by simp [xs]
@[simp] theorem length_wxs (kx s : ℕ) : (wxs kx s).length = s * kx := by simp [wxs, List.length_flatMap]

theorem wxs_ne {kx s : ℕ} (hk : 0 < kx) (hs : 0 < s) : wxs kx s ≠ [] := by
  intro e
  have := congrArg List.length e
  simp at this
  omega

theorem gm_lay (str : ℕ → String) (rs : List ℕ) (vary : List Bool) (kx s : ℕ) (h : Names str rs)
    (hl : vary.length = kx + s * kx) (hv : ∀ b ∈ vary, b = true) (hk : 0 < kx) (hs : 0 < s) :
    gmRows str rs true vary kx s (List.range kx) = lay [.const] (xs kx) (wxs kx s) [] str rs := by
  have hs' : s ≠ 0 := by omega
  rw [gmRows, frame_lay str rs true vary (columns kx s (List.range kx)) (by
    rw [hl]; change _ = (xs kx ++ wxs kx s).length; simp) hv]
  simp only [hs', if_false]
  refine fold_lay (gmStep s) [.const] (xs kx ++ wxs kx s) [] (xs kx) (wxs kx s) [] str rs h ?_
  intro m A C hA hC
  rw [gmStep, count_block _ _ _ _ _ hA hC]
  have : ([Kind.const].length + (xs kx ++ wxs kx s).length - 1) / (s + 1) * s = (wxs kx s).length := by
    simp only [List.length_append, length_xs, length_wxs, List.length_singleton, Nat.add_sub_cancel_left]
    rw [show kx + s * kx = kx * (s + 1) by ring, Nat.mul_div_cancel _ (by omega)]; ring
  rw [this]
  exact mark_block _ _ _ _ _ _ hC (wxs_ne hk hs)

theorem ml_lay (str : ℕ → String) (rs : List ℕ) (many : Bool) (vary : List Bool) (kx s : ℕ) (h : Names str rs)
    (hl : vary.length = kx + s * kx) (hv : ∀ b ∈ vary, b = true) (hk : 0 < kx) (hs : 0 < s) :
    mlRows str rs many vary kx s (List.range kx) = lay (Pm many) (xs kx) (wxs kx s) (Gm many) str rs := by
  have hs' : s ≠ 0 := by omega
  have hf : ((vary.drop (vary.length - s * (List.range kx).length)).filter (· = false)).length = 0 := by
    rw [List.length_eq_zero_iff, List.filter_eq_nil_iff]
    intro b hb
    simp [hv b (List.mem_of_mem_drop hb)]
  have hsk : s * kx ≠ 0 := Nat.mul_ne_zero hs' (by omega)
  rw [mlRows, frame_lay str rs many vary (columns kx s (List.range kx)) (by
    rw [hl]; change _ = (xs kx ++ wxs kx s).length; simp) hv]
  simp only [hs', if_false]
  rw [hf]
  simp only [if_true, Nat.sub_zero, List.length_range, hsk, if_false]
  refine fold_lay (fun t m => markLast (inRegime m) (s * kx) t) (Pm many) (xs kx ++ wxs kx s) [] (xs kx) (wxs kx s)
    (Gm many) str rs h ?_
  intro m A C hA hC
  rw [← length_wxs kx s]
  exact mark_block _ _ _ _ _ _ hC (wxs_ne hk hs)

/-- `GM_Lag_Regimes` with a common constant: one lag per order is not recognised. -/
theorem gm_one_lay (str : ℕ → String) (rs : List ℕ) (vary : List Bool) (kx s : ℕ) (h : Names str rs)
    (hl : vary.length = kx + s * kx) (hv : ∀ b ∈ vary, b = true) (hk : 1 < kx) (hs : 0 < s) :
    gmRows str rs false vary kx s (List.range kx) =
      lay [] (xs kx ++ (wxs kx s).take s) ((wxs kx s).drop s) [.const] str rs := by
  have hs' : s ≠ 0 := by omega
  rw [gmRows, frame_lay str rs false vary (columns kx s (List.range kx)) (by
    rw [hl]; change _ = (xs kx ++ wxs kx s).length; simp) hv]
  simp only [hs', if_false]
  refine fold_lay (gmStep s) [] (xs kx ++ wxs kx s) [] _ _ [.const] str rs h ?_
  intro m A C hA hC
  rw [gmStep, count_block _ _ _ _ _ hA hC]
  have : (([] : List Kind).length + (xs kx ++ wxs kx s).length - 1) / (s + 1) * s = ((wxs kx s).drop s).length := by
    obtain ⟨k, rfl⟩ : ∃ k, kx = k + 1 := ⟨kx - 1, by omega⟩
    simp only [List.length_append, length_xs, length_wxs, List.length_nil, List.length_drop, Nat.zero_add]
    rw [show k + 1 + s * (k + 1) - 1 = s + (s + 1) * k by
      rw [show k + 1 + s * (k + 1) = s + (s + 1) * k + 1 by ring]; omega, Nat.add_mul_div_left _ _ (by omega),
      Nat.div_eq_of_lt (by omega), show s * (k + 1) = s * k + s by ring]
    simp [Nat.mul_comm]
  rw [this]
  have e := mark_block [] (xs kx ++ (wxs kx s).take s) ((wxs kx s).drop s) m A C hC (by
    intro e
    have := congrArg List.length e
    simp only [List.length_drop, length_wxs, List.length_nil] at this
    nlinarith [Nat.sub_eq_zero_iff_le.1 this])
  rwa [List.append_assoc, List.take_append_drop] at e

theorem gm_one_lay1 (str : ℕ → String) (rs : List ℕ) (vary : List Bool) (s : ℕ) (h : Names str rs)
    (hl : vary.length = 1 + s * 1) (hv : ∀ b ∈ vary, b = true) (hs : 0 < s) :
    gmRows str rs false vary 1 s (List.range 1) = lay [] [] (xs 1 ++ wxs 1 s) [.const] str rs := by
  have hs' : s ≠ 0 := by omega
  rw [gmRows, frame_lay str rs false vary (columns 1 s (List.range 1)) (by
    rw [hl]; change _ = (xs 1 ++ wxs 1 s).length; simp) hv]
  simp only [hs', if_false]
  refine fold_lay (gmStep s) [] (xs 1 ++ wxs 1 s) [] _ _ [.const] str rs h ?_
  intro m A C hA hC
  rw [gmStep, count_block _ _ _ _ _ hA hC]
  have : (([] : List Kind).length + (xs 1 ++ wxs 1 s).length - 1) / (s + 1) * s = 0 := by
    simp
  rw [this]
  exact mark_all _ _ _ _ hA hC

/-! ### What the test and the impacts should use -/

/-- Position `p` of the table holds the coefficient of `k` in regime `m`. -/
def At (rows : List Row) (k : Kind) (m : String) (p : ℕ) : Prop := ∃ a, rows[p]? = some a ∧ a.kind = k ∧ a.regime = m

/-- The table has a coefficient for every variable and every lag in every regime, each once. -/
def FullTable (rows : List Row) (str : ℕ → String) (rs : List ℕ) (kx s : ℕ) : Prop :=
  (∀ r ∈ rs, ∀ j < kx, ∃! p, At rows (.x j) (str r) p) ∧
  ∀ r ∈ rs, ∀ l < s, ∀ j < kx, ∃! p, At rows (.wx (l + 1) j) (str r) p

/-- Every variable of every regime is compared, once, with its own lag in the same regime. -/
def RightPairs (rows : List Row) (str : ℕ → String) (rs : List ℕ) (kx : ℕ) (ps : List (ℕ × ℕ)) : Prop :=
  ps.Nodup ∧ ∀ a b, (a, b) ∈ ps ↔ ∃ r ∈ rs, ∃ j < kx, At rows (.x j) (str r) a ∧ At rows (.wx 1 j) (str r) b

/-- One line for every variable of every regime, with the direct effect of its coefficient and the total effect of this and of
the coefficients of its lags in the same regime. -/
def RightImpacts (rows : List Row) (str : ℕ → String) (rs : List ℕ) (kx s : ℕ) (betas : ℕ → ℝ) (m1 m2 : ℝ)
    (ims : List Impact) : Prop :=
  (ims.map Impact.pos).Nodup ∧
  (∀ p, p ∈ ims.map Impact.pos ↔ ∃ r ∈ rs, ∃ j < kx, At rows (.x j) (str r) p) ∧
  ∀ im ∈ ims, ∀ r ∈ rs, ∀ j < kx, At rows (.x j) (str r) im.pos →
    ∀ q : ℕ → ℕ, (∀ l < s, At rows (.wx (l + 1) j) (str r) (q l)) →
      im.direct = m2 * betas im.pos ∧ im.total = m1 * (betas im.pos + ∑ l ∈ Finset.range s, betas (q l)) ∧
      im.indirect = im.total - im.direct

theorem nodup_blk {P X Z : List Kind} (h : (P ++ (X ++ Z)).Nodup) (m : String) :
    ((blk P X Z m).map fun a => (a.kind, a.regime)).Nodup := by
  have : (blk P X Z m).map (fun a => (a.kind, a.regime)) = (P ++ (X ++ Z)).map fun k => (k, m) := by
    simp [blk, Function.comp_def]
  rw [this]
  exact h.map fun a b e => (Prod.mk.inj e).1

theorem nodup_lay {P X Z G : List Kind} (h : (P ++ (X ++ Z)).Nodup) (hG : G.Nodup) (hl : Kind.lagY ∉ G)
    (str : ℕ → String) (rs : List ℕ) (hn : Names str rs) :
    ((lay P X Z G str rs).map fun a => (a.kind, a.regime)).Nodup := by
  rw [lay, List.map_append, List.nodup_append, List.map_flatMap, List.nodup_flatMap]
  refine ⟨⟨fun r _ => nodup_blk h _, ?_⟩, ?_, ?_⟩
  · refine hn.nodup.imp_of_mem fun {r q} hr hq hne => ?_
    intro a ha hb
    obtain ⟨x, hx, rfl⟩ := List.mem_map.1 ha
    obtain ⟨y, hy, e⟩ := List.mem_map.1 hb
    rw [blk_regime P X Z _ x hx, blk_regime P X Z _ y hy] at e
    exact hne (hn.inj r hr q hq (Prod.mk.inj e).2.symm)
  · rw [List.map_append, List.nodup_append]
    refine ⟨?_, by simp, ?_⟩
    · rw [List.map_map]
      exact hG.map fun a b e => (Prod.mk.inj e).1
    · intro a ha b hb e
      simp only [List.map_map, List.mem_map, Function.comp_apply] at ha
      obtain ⟨k, hk, rfl⟩ := ha
      simp only [rhoRow, List.map_cons, List.map_nil, List.mem_singleton] at hb
      rw [hb] at e
      exact hl ((Prod.mk.inj e).1 ▸ hk)
  · intro a ha b hb e
    obtain ⟨r, hr, ha⟩ := List.mem_flatMap.1 ha
    obtain ⟨x, hx, rfl⟩ := List.mem_map.1 ha
    obtain ⟨y, hy, rfl⟩ := List.mem_map.1 hb
    have := (Prod.mk.inj e).2
    rw [blk_regime P X Z _ x hx, (tail_regime G y hy).1] at this
    exact hn.glob r hr this

theorem at_unique {rows : List Row} (h : (rows.map fun a => (a.kind, a.regime)).Nodup) {k : Kind} {m : String}
    {p q : ℕ} (hp : At rows k m p) (hq : At rows k m q) : p = q := by
  obtain ⟨a, ha, rfl, rfl⟩ := hp
  obtain ⟨b, hb, e1, e2⟩ := hq
  have hpl := (List.getElem?_eq_some_iff.1 ha).1
  refine (List.nodup_iff_injective_get.1 h).eq_iff.1 ?_ |> fun (e : (⟨p, by simpa using hpl⟩ : Fin _) =
    ⟨q, by simpa using (List.getElem?_eq_some_iff.1 hb).1⟩) => congrArg Fin.val e
  have h1 := (List.getElem?_eq_some_iff.1 ha).2
  have h2 := (List.getElem?_eq_some_iff.1 hb).2
  simp [h1, h2, e1, e2]

theorem wxs_get (kx s l j : ℕ) (hl : l < s) (hj : j < kx) : (wxs kx s)[l * kx + j]? = some (.wx (l + 1) j) := by
  have := get_blocks (fun l => (List.range kx).map (Kind.wx (l + 1))) kx (by simp) [] (List.range s) l j
    (by simpa using hl) hj
  rw [List.append_nil] at this
  rw [wxs, this]
  simp [hj]

theorem nodup_cols (many : Bool) (kx s : ℕ) : (Pm many ++ (xs kx ++ wxs kx s)).Nodup := by
  have h1 : (xs kx).Nodup := List.nodup_range.map fun a b e => Kind.x.inj e
  have h2 : (wxs kx s).Nodup := by
    rw [wxs, List.nodup_flatMap]
    refine ⟨fun l _ => List.nodup_range.map fun a b e => (Kind.wx.inj e).2, ?_⟩
    refine List.nodup_range.imp fun {l m} hne => ?_
    intro a ha hb
    obtain ⟨x, _, rfl⟩ := List.mem_map.1 ha
    obtain ⟨y, _, e⟩ := List.mem_map.1 hb
    have := (Kind.wx.inj e).1
    omega
  have h3 : (xs kx ++ wxs kx s).Nodup := by
    rw [List.nodup_append]
    refine ⟨h1, h2, ?_⟩
    intro a ha b hb e
    subst e
    simp only [xs, wxs, List.mem_map, List.mem_flatMap] at ha hb
    obtain ⟨_, _, rfl⟩ := ha
    obtain ⟨_, _, _, _, e⟩ := hb
    cases e
  cases many
  · simpa [Pm] using h3
  · rw [Pm, if_pos rfl, List.singleton_append, List.nodup_cons]
    refine ⟨?_, h3⟩
    simp [xs, wxs]

/-- The table with every coefficient in its place. -/
def good (many : Bool) (kx s : ℕ) (str : ℕ → String) (rs : List ℕ) : List Row :=
  lay (Pm many) (xs kx) (wxs kx s) (Gm many) str rs

/-- Rows of a block. -/
def K (many : Bool) (kx s : ℕ) : ℕ := (Pm many).length + (kx + s * kx)

theorem nodup_good (many : Bool) (kx s : ℕ) (str : ℕ → String) (rs : List ℕ) (hn : Names str rs) :
    ((good many kx s str rs).map fun a => (a.kind, a.regime)).Nodup :=
  nodup_lay (nodup_cols many kx s) (by cases many <;> simp [Gm]) (by cases many <;> simp [Gm]) str rs hn

theorem at_x (many : Bool) (kx s : ℕ) (str : ℕ → String) (rs : List ℕ) (i j : ℕ) (hi : i < rs.length) (hj : j < kx) :
    At (good many kx s str rs) (.x j) (str rs[i]) (i * K many kx s + (Pm many).length + j) := by
  have h := get_lay (Pm many) (xs kx) (wxs kx s) (Gm many) str rs i ((Pm many).length + j) hi (by simp; omega)
  refine ⟨⟨.x j, .x, str rs[i]⟩, ?_, rfl, rfl⟩
  rw [good, K, Nat.add_assoc (i * _)]
  simp only [length_xs, length_wxs] at h
  rw [h, blk, List.getElem?_append_right (by simp), List.getElem?_append_left (by simpa using hj)]
  simp [xs, hj]

theorem at_wx (many : Bool) (kx s : ℕ) (str : ℕ → String) (rs : List ℕ) (i l j : ℕ) (hi : i < rs.length) (hl : l < s)
    (hj : j < kx) :
    At (good many kx s str rs) (.wx (l + 1) j) (str rs[i])
      (i * K many kx s + (Pm many).length + j + (l + 1) * kx) := by
  have hlt : kx + (l * kx + j) < kx + s * kx := by nlinarith
  have h := get_lay (Pm many) (xs kx) (wxs kx s) (Gm many) str rs i ((Pm many).length + (kx + (l * kx + j))) hi (by
    simp only [length_xs, length_wxs]; omega)
  refine ⟨⟨.wx (l + 1) j, .wx, str rs[i]⟩, ?_, rfl, rfl⟩
  rw [good, K, show i * ((Pm many).length + (kx + s * kx)) + (Pm many).length + j + (l + 1) * kx =
    i * ((Pm many).length + (kx + s * kx)) + ((Pm many).length + (kx + (l * kx + j))) by ring]
  simp only [length_xs, length_wxs] at h
  rw [h, blk, List.getElem?_append_right (by simp), List.getElem?_append_right (by simp)]
  simp [wxs_get kx s l j hl hj]

theorem full_good (many : Bool) (kx s : ℕ) (str : ℕ → String) (rs : List ℕ) (hn : Names str rs) :
    FullTable (good many kx s str rs) str rs kx s := by
  refine ⟨?_, ?_⟩
  · intro r hr j hj
    obtain ⟨i, hi, rfl⟩ := List.getElem_of_mem hr
    exact ⟨_, at_x many kx s str rs i j hi hj, fun p hp =>
      at_unique (nodup_good many kx s str rs hn) hp (at_x many kx s str rs i j hi hj)⟩
  · intro r hr l hl j hj
    obtain ⟨i, hi, rfl⟩ := List.getElem_of_mem hr
    exact ⟨_, at_wx many kx s str rs i l j hi hl hj, fun p hp =>
      at_unique (nodup_good many kx s str rs hn) hp (at_wx many kx s str rs i l j hi hl hj)⟩

theorem pos_inj (many : Bool) (kx s i j i' j' : ℕ) (hj : j < kx) (hj' : j' < kx)
    (e : i * K many kx s + (Pm many).length + j = i' * K many kx s + (Pm many).length + j') : i = i' ∧ j = j' := by
  have hK : kx ≤ K many kx s := by unfold K; omega
  have e' : i * K many kx s + j = i' * K many kx s + j' := by omega
  rcases Nat.lt_trichotomy i i' with h | h | h
  · have : (i + 1) * K many kx s ≤ i' * K many kx s := Nat.mul_le_mul_right _ h
    rw [Nat.add_mul] at this; omega
  · subst h; exact ⟨rfl, by omega⟩
  · have : (i' + 1) * K many kx s ≤ i * K many kx s := Nat.mul_le_mul_right _ h
    rw [Nat.add_mul] at this; omega

theorem pairs_good (many : Bool) (kx : ℕ) (hk : 0 < kx) (str : ℕ → String) (rs : List ℕ) (hn : Names str rs) :
    ∃ ps, cfhPairs (good many kx 1 str rs) = .ok ps ∧ RightPairs (good many kx 1 str rs) str rs kx ps := by
  refine ⟨_, cfhPairs_lay (Pm many) (xs kx) (wxs kx 1) (Gm many) str rs hn (by
    intro e
    have := congrArg List.length e
    simp at this; omega) (by simp), ?_⟩
  simp only [length_xs, length_wxs]
  have hK : (Pm many).length + (kx + 1 * kx) = K many kx 1 := rfl
  rw [hK]
  have nd := nodup_good many kx 1 str rs hn
  refine ⟨?_, ?_⟩
  · rw [List.nodup_flatMap]
    refine ⟨fun r _ => List.nodup_range.map fun a b e => by have := (Prod.mk.inj e).1; omega, ?_⟩
    refine List.nodup_range.imp fun {i i'} hne => ?_
    intro a ha hb
    obtain ⟨j, hj, rfl⟩ := List.mem_map.1 ha
    obtain ⟨j', hj', e⟩ := List.mem_map.1 hb
    exact hne (pos_inj many kx 1 i' j' i j (by simpa using hj') (by simpa using hj) (Prod.mk.inj e).1).1.symm
  · intro a b
    simp only [List.mem_flatMap, List.mem_map, List.mem_range, Prod.mk.injEq]
    constructor
    · rintro ⟨i, hi, j, hj, rfl, rfl⟩
      refine ⟨rs[i], List.getElem_mem hi, j, hj, at_x many kx 1 str rs i j hi hj, ?_⟩
      have := at_wx many kx 1 str rs i 0 j hi (by omega) hj
      rwa [show i * K many kx 1 + (Pm many).length + j + (0 + 1) * kx =
        i * K many kx 1 + ((Pm many).length + kx) + j by ring] at this
    · rintro ⟨r, hr, j, hj, ha, hb⟩
      obtain ⟨i, hi, rfl⟩ := List.getElem_of_mem hr
      refine ⟨i, hi, j, hj, at_unique nd (at_x many kx 1 str rs i j hi hj) ha, ?_⟩
      rw [at_unique nd hb (at_wx many kx 1 str rs i 0 j hi (by omega) hj)]
      ring

theorem impacts_good (many : Bool) (kx s : ℕ) (hk : 0 < kx) (str : ℕ → String) (rs : List ℕ) (hn : Names str rs)
    (betas : ℕ → ℝ) (m1 m2 : ℝ) :
    ∃ ims, impacts (good many kx s str rs) betas s m1 m2 = .ok ims ∧
      RightImpacts (good many kx s str rs) str rs kx s betas m1 m2 ims := by
  have nd := nodup_good many kx s str rs hn
  have hne : Pm many ++ (xs kx ++ wxs kx s) ≠ [] := by
    intro e
    have := congrArg List.length e
    simp at this; omega
  have hch : chunk (good many kx s str rs) = kx := by
    rw [good, chunk_lay _ _ _ _ _ _ hn hne]; simp
  have hix := idx_lay (Pm many) (xs kx) (wxs kx s) (Gm many) str rs
  simp only [length_xs, length_wxs] at hix
  rw [show (Pm many).length + (kx + s * kx) = K many kx s from rfl] at hix
  have hmem : ∀ p, p ∈ (List.range rs.length).flatMap
      (fun r => List.range' (r * K many kx s + (Pm many).length) kx) ↔
      ∃ i, i < rs.length ∧ ∃ j, j < kx ∧ p = i * K many kx s + (Pm many).length + j := by
    intro p
    simp only [List.mem_flatMap, List.mem_range, List.mem_range'_1]
    constructor
    · rintro ⟨i, hi, h1, h2⟩
      exact ⟨i, hi, p - (i * K many kx s + (Pm many).length), by omega, by omega⟩
    · rintro ⟨i, hi, j, hj, rfl⟩
      exact ⟨i, hi, by omega, by omega⟩
  rw [impacts]
  simp only [hch]
  rw [show idxs (fun a => decide (a.vt = .x)) (good many kx s str rs) 0 = _ from hix, if_pos (by
    intro p hp l hl
    obtain ⟨i, hi, j, hj, rfl⟩ := (hmem p).1 hp
    obtain ⟨a, ha, _⟩ := at_wx many kx s str rs i l j hi hl hj
    exact (List.getElem?_eq_some_iff.1 ha).1)]
  refine ⟨_, rfl, ?_, ?_, ?_⟩
  · rw [List.map_map]
    simp only [Function.comp_def, List.map_id']
    rw [List.nodup_flatMap]
    refine ⟨fun r _ => List.nodup_range', List.nodup_range.imp fun {i i'} hne => ?_⟩
    intro p hp hp'
    rw [List.mem_range'_1] at hp hp'
    exact hne (pos_inj many kx s i (p - (i * K many kx s + (Pm many).length)) i'
      (p - (i' * K many kx s + (Pm many).length)) (by omega) (by omega) (by omega)).1
  · intro p
    rw [List.map_map]
    simp only [Function.comp_def, List.map_id']
    rw [hmem]
    constructor
    · rintro ⟨i, hi, j, hj, rfl⟩
      exact ⟨rs[i], List.getElem_mem hi, j, hj, at_x many kx s str rs i j hi hj⟩
    · rintro ⟨r, hr, j, hj, ha⟩
      obtain ⟨i, hi, rfl⟩ := List.getElem_of_mem hr
      exact ⟨i, hi, j, hj, at_unique nd ha (at_x many kx s str rs i j hi hj)⟩
  · intro im him r hr j hj hat q hq
    obtain ⟨p, hp, rfl⟩ := List.mem_map.1 him
    obtain ⟨i, hi, rfl⟩ := List.getElem_of_mem hr
    have hpe : p = i * K many kx s + (Pm many).length + j := at_unique nd hat (at_x many kx s str rs i j hi hj)
    refine ⟨rfl, ?_, rfl⟩
    show m1 * betas p + _ = _
    rw [mul_add, Finset.mul_sum]
    congr 1
    refine Finset.sum_congr rfl fun l hl => ?_
    have hl := Finset.mem_range.1 hl
    rw [hpe, at_unique nd (hq l hl) (at_wx many kx s str rs i l j hi hl hj)]

/-- The types and the regimes of the rows are those that `Regimes_Frame` returns, whatever varies. -/
theorem frameRows_types (str : ℕ → String) (rs : List ℕ) (many : Bool) (vary : List Bool) (cols : List Kind)
    (names : List String) (hn : names.length = cols.length) :
    let out := setNameXRegimes str ("CONSTANT" :: names) (many :: vary) rs (VT.o :: cols.map fun _ => VT.x)
    (frameRows str rs many vary cols).map Row.vt = out.2.1 ∧
      (frameRows str rs many vary cols).map Row.regime = out.2.2 := by
  have key : ∀ {α β γ : Type} (f : α → β) (b : Bool) (mask : List Bool) (l : List α),
      select mask b (l.map f) = (select mask b l).map f := by
    intro α β γ f b mask
    induction mask with
    | nil => intro l; simp [select]
    | cons m t ih =>
      intro l
      cases l with
      | nil => simp [select]
      | cons a l =>
        have := ih l
        simp only [select, List.map_cons, List.zip_cons_cons, List.filter_cons] at this ⊢
        split <;> simp [this]
  have hlen : ∀ {α β : Type} (b : Bool) (mask : List Bool) (l : List α) (l' : List β), l.length = l'.length →
      (select mask b l).length = (select mask b l').length := by
    intro α β b mask
    induction mask with
    | nil => intro l l' _; simp [select]
    | cons m t ih =>
      intro l l' h
      cases l with
      | nil => cases l' with | nil => simp [select] | cons _ _ => simp at h
      | cons a l =>
        cases l' with
        | nil => simp at h
        | cons a' l' =>
          have := ih l l' (by simpa using h)
          simp only [select, List.zip_cons_cons, List.filter_cons, List.length_map] at this ⊢
          split <;> simp [this]
  intro out
  have e1 : (VT.o :: cols.map fun _ => VT.x) = ((Kind.const, VT.o) :: cols.map (·, VT.x)).map Prod.snd := by
    simp only [List.map_cons, List.map_map, Function.comp_def]
  have c1 : ∀ (b : Bool) (m : String), (select (many :: vary) b ((Kind.const, VT.o) :: cols.map (·, VT.x))).map
      (fun _ => m) = (select (many :: vary) b ("CONSTANT" :: names)).map fun _ => m := by
    intro b m
    rw [List.map_const', List.map_const', hlen b _ _ ("CONSTANT" :: names) (by simp [hn])]
  refine ⟨?_, ?_⟩
  · show _ = rs.flatMap (fun _ => select (many :: vary) true _) ++ select (many :: vary) false _
    rw [e1, key (γ := Unit), key (γ := Unit)]
    simp [frameRows, List.map_flatMap, Function.comp_def]
  · show _ = rs.flatMap (fun r => (select (many :: vary) true _).map _) ++ (select (many :: vary) false _).map _
    simp only [← c1]
    simp [frameRows, List.map_flatMap, Function.comp_def]

theorem pairs_length {str : ℕ → String} {rs : List ℕ} {kx : ℕ} (h : Names str rs)
    (hk : 0 < kx) {many : Bool} {ps : List (ℕ × ℕ)} (e : cfhPairs (good many kx 1 str rs) = .ok ps) :
    ps.length = rs.length * kx := by
  rw [good, cfhPairs_lay (Pm many) (xs kx) (wxs kx 1) (Gm many) str rs h (by
    intro e
    have := congrArg List.length e
    simp at this; omega) (by simp)] at e
  obtain rfl := Except.ok.inj e
  simp [List.length_flatMap]

/-- **C157** (partial), `GM_Lag_Regimes`: when the constant and every variable vary by regime and every variable is lagged, the
common factor test compares every variable of every regime with its own lag and the impacts combine a variable with its own
lags of the same regime. Missing: constant common to the regimes, a choice of lagged variables, variables that do not vary;
see the theorems `_violated`. -/
theorem C157_gm_partial (str : ℕ → String) (rs : List ℕ) (vary : List Bool) (kx s : ℕ) (h : Names str rs)
    (hl : vary.length = kx + s * kx) (hv : ∀ b ∈ vary, b = true) (hk : 0 < kx) (hs : 0 < s) :
    let rows := gmRows str rs true vary kx s (List.range kx)
    FullTable rows str rs kx s ∧
    (s = 1 → ∃ ps, cfhPairs rows = .ok ps ∧ RightPairs rows str rs kx ps ∧ ps.length = rs.length * kx) ∧
    ∀ betas m1 m2, ∃ ims, impacts rows betas s m1 m2 = .ok ims ∧ RightImpacts rows str rs kx s betas m1 m2 ims := by
  intro rows
  have e : rows = good true kx s str rs := gm_lay str rs vary kx s h hl hv hk hs
  rw [e]
  refine ⟨full_good true kx s str rs h, ?_, fun betas m1 m2 => impacts_good true kx s hk str rs h betas m1 m2⟩
  rintro rfl
  obtain ⟨ps, h1, h2⟩ := pairs_good true kx hk str rs h
  exact ⟨ps, h1, h2, pairs_length h hk h1⟩

/-- **C157** (partial), `ML_Lag_Regimes`: as for `GM_Lag_Regimes`, and also with a constant common to the regimes. Missing: a
choice of lagged variables, variables that do not vary; see the theorems `_violated`. -/
theorem C157_ml_partial (str : ℕ → String) (rs : List ℕ) (many : Bool) (vary : List Bool) (kx s : ℕ) (h : Names str rs)
    (hl : vary.length = kx + s * kx) (hv : ∀ b ∈ vary, b = true) (hk : 0 < kx) (hs : 0 < s) :
    let rows := mlRows str rs many vary kx s (List.range kx)
    FullTable rows str rs kx s ∧
    (s = 1 → ∃ ps, cfhPairs rows = .ok ps ∧ RightPairs rows str rs kx ps ∧ ps.length = rs.length * kx) ∧
    ∀ betas m1 m2, ∃ ims, impacts rows betas s m1 m2 = .ok ims ∧ RightImpacts rows str rs kx s betas m1 m2 ims := by
  intro rows
  have e : rows = good many kx s str rs := ml_lay str rs many vary kx s h hl hv hk hs
  rw [e]
  refine ⟨full_good many kx s str rs h, ?_, fun betas m1 m2 => impacts_good many kx s hk str rs h betas m1 m2⟩
  rintro rfl
  obtain ⟨ps, h1, h2⟩ := pairs_good many kx hk str rs h
  exact ⟨ps, h1, h2, pairs_length h hk h1⟩

open Matrix in
/-- The common factor test computed is the Wald test of the restrictions `rho * beta + gamma = 0` for these pairs, with their
delta-method covariances, one degree of freedom per pair. -/
theorem C157_test (rows : List Row) (betas : ℕ → ℝ) (vm : ℕ → ℕ → ℝ) (rho : ℝ) (rhoPos : ℕ) (ps : List (ℕ × ℕ))
    (h : cfhPairs rows = .ok ps) :
    let res : Fin ps.length → ℝ := fun i => rho * betas ps[i].1 + betas ps[i].2
    let cov : Matrix (Fin ps.length) (Fin ps.length) ℝ := Matrix.of fun i j =>
      let b := ps[i].1
      let g := ps[i].2
      let b' := ps[j].1
      let g' := ps[j].2
      rho ^ 2 * vm b b' + rho * vm b g' + rho * vm g b' + vm g g' + betas b' * (rho * vm b rhoPos + vm g rhoPos) +
        betas b * (rho * vm rhoPos b' + vm rhoPos g') + betas b * betas b' * vm rhoPos rhoPos
    ∃ t, cfhTest rows betas vm rho rhoPos = .ok t ∧
      ∀ T, t = some T → T.df = ps.length ∧ IsUnit cov.det ∧ T.stat = res ⬝ᵥ (cov⁻¹ *ᵥ res) := by
  intro res cov
  refine ⟨_, by rw [cfhTest, h]; rfl, ?_⟩
  intro T hT
  obtain ⟨h1, h2, h3⟩ := LM.C58_wald _ _ _ _ _ hT
  exact ⟨by rw [h2, Fintype.card_fin], h1, h3⟩

/-- **C157 violated**: `GM_Lag_Regimes(constant_regi="one")` with lags of all variables: the common factor test raises
ValueError for all data, and the impacts are never those of the variables. -/
theorem C157_const_one_violated (str : ℕ → String) (rs : List ℕ) (vary : List Bool) (kx s : ℕ) (h : Names str rs)
    (hl : vary.length = kx + s * kx) (hv : ∀ b ∈ vary, b = true) (hk : 0 < kx) (hs : 0 < s) :
    let rows := gmRows str rs false vary kx s (List.range kx)
    (s = 1 → cfhPairs rows = .error .valueError) ∧
    ∀ betas m1 m2 ims, impacts rows betas s m1 m2 = .ok ims → ¬ RightImpacts rows str rs kx s betas m1 m2 ims := by
  intro rows
  obtain ⟨r, rs', ers⟩ := List.exists_cons_of_ne_nil h.ne
  rcases Nat.lt_or_ge 1 kx with hk1 | hk1
  · have e : rows = _ := gm_one_lay str rs vary kx s h hl hv hk1 hs
    rw [e]
    refine ⟨?_, ?_⟩
    · rintro rfl
      refine cfhPairs_lay_ne _ _ _ _ _ _ h (by
        intro e
        have := congrArg List.length e
        simp at this; omega) (by simp; omega)
    · intro betas m1 m2 ims him hR
      rw [impacts] at him
      split at him
      swap; · cases him
      obtain rfl := Except.ok.inj him
      have hp := hR.2.1 kx
      rw [List.map_map] at hp
      simp only [Function.comp_def, List.map_id'] at hp
      rw [idx_lay] at hp
      obtain ⟨q, hq, j, hj, a, ha, hak, -⟩ := hp.1 (by
        rw [List.mem_flatMap]
        refine ⟨0, by simp [ers], ?_⟩
        rw [List.mem_range'_1]
        have : s ≤ s * kx := Nat.le_mul_of_pos_right _ hk
        simp [Nat.min_eq_left this]; omega)
      have hlt : kx < (([] : List Kind).length + ((xs kx ++ (wxs kx s).take s).length + ((wxs kx s).drop s).length)) := by
        have : s ≤ s * kx := Nat.le_mul_of_pos_right _ hk
        simp [Nat.min_eq_left this]; omega
      have hg := get_lay [] (xs kx ++ (wxs kx s).take s) ((wxs kx s).drop s) [.const] str rs 0 kx (by simp [ers]) hlt
      rw [Nat.zero_mul, Nat.zero_add, ha] at hg
      have hs0 : (wxs kx s)[0]? = some (.wx 1 0) := by simpa using wxs_get kx s 0 0 hs hk
      have hlt2 : kx < (xs kx ++ (wxs kx s).take s).length := by
        have : s ≤ s * kx := Nat.le_mul_of_pos_right _ hk
        simp [Nat.min_eq_left this]; omega
      simp only [blk, List.map_nil, List.nil_append] at hg
      rw [List.getElem?_append_left (by rw [List.length_map]; exact hlt2), List.getElem?_map,
        List.getElem?_append_right (by simp), length_xs, Nat.sub_self, List.getElem?_take_of_lt hs, hs0] at hg
      have := congrArg Row.kind (Option.some.inj hg)
      rw [hak] at this
      cases this
  · obtain rfl : kx = 1 := by omega
    have e : rows = _ := gm_one_lay1 str rs vary s h hl hv hs
    rw [e]
    refine ⟨?_, ?_⟩
    · rintro rfl
      exact cfhPairs_lay_ne _ _ _ _ _ _ h (by
        intro e
        have := congrArg List.length e
        simp at this) (by simp)
    · intro betas m1 m2 ims him hR
      rw [impacts] at him
      split at him
      swap; · cases him
      obtain rfl := Except.ok.inj him
      have hp := hR.2.1 0
      rw [List.map_map] at hp
      simp only [Function.comp_def, List.map_id'] at hp
      rw [idx_lay] at hp
      have := hp.2 ⟨r, by simp [ers], 0, by omega, ⟨.x 0, .wx, str r⟩, by
        simp [ers, lay, blk, xs], rfl, rfl⟩
      simp at this

/-! ### Concrete tables -/

/-- Two regimes. -/
def exStr : ℕ → String := fun n => if n = 0 then "0" else "1"

theorem exNames : Names exStr [0, 1] := ⟨by decide, by decide, by decide, by decide⟩

/-- The hypotheses are met: two variables, two regimes, one lag. -/
example : ∃ ps, cfhPairs (gmRows exStr [0, 1] true [true, true, true, true] 2 1 (List.range 2)) = .ok ps ∧
    ps = [(1, 3), (2, 4), (6, 8), (7, 9)] := ⟨_, rfl, by decide⟩

/-- **C157 violated**: `GM_Lag_Regimes` with three variables of which only the first is lagged (`slx_vars=[True, False,
False]`). The test goes through: it compares the first variable with the third and the second with the lag of the first. -/
theorem C157_mask_violated :
    let rows := gmRows exStr [0, 1] true [true, true, true, true] 3 1 [0]
    cfhPairs rows = .ok [(1, 3), (2, 4), (6, 8), (7, 9)] ∧
    At rows (.x 0) "0" 1 ∧ At rows (.x 2) "0" 3 ∧ At rows (.x 1) "0" 2 ∧ At rows (.wx 1 0) "0" 4 ∧
    ¬ RightPairs rows exStr [0, 1] 3 [(1, 3), (2, 4), (6, 8), (7, 9)] := by
  refine ⟨by decide, ⟨⟨.x 0, .x, "0"⟩, by decide, rfl, rfl⟩, ⟨⟨.x 2, .wx, "0"⟩, by decide, rfl, rfl⟩,
    ⟨⟨.x 1, .x, "0"⟩, by decide, rfl, rfl⟩, ⟨⟨.wx 1 0, .wx, "0"⟩, by decide, rfl, rfl⟩, ?_⟩
  intro h
  obtain ⟨r, _, j, _, _, a, ha, hk, _⟩ := (h.2 1 3).1 (by decide)
  rw [show (gmRows exStr [0, 1] true [true, true, true, true] 3 1 [0])[3]? = some ⟨.x 2, .wx, "0"⟩ by decide] at ha
  rw [← Option.some.inj ha] at hk
  cases hk

/-- **C157 violated**: `ML_Lag_Regimes` where only the lag of the second variable varies (`cols2regi=[False, False, False,
True]`). The test goes through: it compares both variables with the lag of the second, in different regimes. -/
theorem C157_ml_partly_violated :
    let rows := mlRows exStr [0, 1] true [false, false, false, true] 2 1 (List.range 2)
    cfhPairs rows = .ok [(4, 1), (5, 3)] ∧
    At rows (.x 0) "_Global" 4 ∧ At rows (.wx 1 1) "0" 1 ∧ At rows (.x 1) "_Global" 5 ∧ At rows (.wx 1 1) "1" 3 :=
  ⟨by decide, ⟨⟨.x 0, .x, "_Global"⟩, by decide, rfl, rfl⟩, ⟨⟨.wx 1 1, .wx, "0"⟩, by decide, rfl, rfl⟩,
    ⟨⟨.x 1, .x, "_Global"⟩, by decide, rfl, rfl⟩, ⟨⟨.wx 1 1, .wx, "1"⟩, by decide, rfl, rfl⟩⟩

/-- **C157 violated**: `GM_Lag_Regimes(cols2regi=False)`, only the constant varies. The test goes through: it compares the
variable and its lag with the two constants, and the impacts show the lag as a variable. -/
theorem C157_gm_global_violated :
    let rows := gmRows exStr [0, 1] true [false, false] 1 1 (List.range 1)
    cfhPairs rows = .ok [(2, 0), (3, 1)] ∧
    At rows (.x 0) "_Global" 2 ∧ At rows .const "0" 0 ∧ At rows (.wx 1 0) "_Global" 3 ∧ At rows .const "1" 1 ∧
    ∀ betas m1 m2 ims, impacts rows betas 1 m1 m2 = .ok ims → ims.map Impact.pos = [2, 3] := by
  refine ⟨by decide, ⟨⟨.x 0, .x, "_Global"⟩, by decide, rfl, rfl⟩, ⟨⟨.const, .wx, "0"⟩, by decide, rfl, rfl⟩,
    ⟨⟨.wx 1 0, .x, "_Global"⟩, by decide, rfl, rfl⟩, ⟨⟨.const, .wx, "1"⟩, by decide, rfl, rfl⟩, ?_⟩
  intro betas m1 m2 ims him
  rw [impacts, show idxs (fun a => decide (a.vt = .x))
    (gmRows exStr [0, 1] true [false, false] 1 1 (List.range 1)) 0 = [2, 3] by decide] at him
  split at him
  · obtain rfl := Except.ok.inj him
    rfl
  · cases him

/-- **C157 violated**: `ML_Lag_Regimes` where only the constant varies: the total effect of the variable counts its own
coefficient twice and never that of its lag. -/
theorem C157_ml_global_violated (betas : ℕ → ℝ) (m1 m2 : ℝ) :
    let rows := mlRows exStr [0, 1] true [false, false] 1 1 (List.range 1)
    At rows (.x 0) "_Global" 2 ∧ At rows (.wx 1 0) "_Global" 3 ∧
    ∃ im, impacts rows betas 1 m1 m2 = .ok [im] ∧ im.pos = 2 ∧ im.total = m1 * (betas 2 + betas 2) := by
  refine ⟨⟨⟨.x 0, .x, "_Global"⟩, by decide, rfl, rfl⟩, ⟨⟨.wx 1 0, .wx, "_Global"⟩, by decide, rfl, rfl⟩, ?_⟩
  have h1 : idxs (fun a => decide (a.vt = .x))
    (mlRows exStr [0, 1] true [false, false] 1 1 (List.range 1)) 0 = [2] := by decide
  have h2 : chunk (mlRows exStr [0, 1] true [false, false] 1 1 (List.range 1)) = 0 := by decide
  have h3 : (mlRows exStr [0, 1] true [false, false] 1 1 (List.range 1)).length = 5 := by decide
  rw [impacts]
  simp only [h1, h2, h3]
  rw [if_pos (by simp)]
  exact ⟨_, rfl, rfl, by simp [mul_add]⟩

end Spreg.RegDurbin
