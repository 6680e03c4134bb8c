import Verif.Props.Lags
import Verif.Model.GMLag
/-
Property C54: names of spatial instruments; names of regressors and instruments of the lag model.
-/
namespace Spreg.Lags
open Spreg Spreg.Spec
variable {α : Type}

/-! ### helpers about strings and the counting dictionary -/

theorem startsW_append (b : String) : startsW ("W_" ++ b) = true := by
  unfold startsW
  rw [String.toList_append]
  rfl

theorem drop2_append (b : String) : drop2 ("W_" ++ b) = b := by
  unfold drop2
  rw [String.toList_append]
  have : ("W_").toList = ['W', '_'] := by decide
  rw [this]; simp

theorem W_inj (b b' : String) : "W_" ++ b = "W_" ++ b' ↔ b = b' := by
  constructor
  · intro h; rw [← drop2_append b, h, drop2_append]
  · intro h; rw [h]

theorem Wnum_ne (c : Nat) (b b' : String) : "W" ++ toString c ++ "_" ++ b ≠ "W_" ++ b' := by
  intro h
  have h2 := congrArg String.toList h
  simp only [String.toList_append] at h2
  have e : (toString c).toList = Nat.toDigits 10 c := by
    show (Nat.repr c).toList = _
    exact Nat.toList_repr
  rw [e] at h2
  have eW : ("W").toList = ['W'] := by decide
  have eU : ("W_").toList = ['W', '_'] := by decide
  rw [eW, eU] at h2
  cases hd : Nat.toDigits 10 c with
  | nil => exact Nat.toDigits_ne_nil hd
  | cons d ds =>
    rw [hd] at h2
    simp at h2
    have : '_' ∈ Nat.toDigits 10 c := by rw [hd, ← h2.1]; simp
    exact Nat.underscore_not_in_toDigits this

theorem get_set_self (c : Counts) (k : String) (v : Nat) : (c.set k v).get k = some v := by
  simp [Counts.get, Counts.set]

theorem get_set_ne (c : Counts) (k k' : String) (v : Nat) (h : k ≠ k') :
    (c.set k v).get k' = c.get k' := by
  unfold Counts.get Counts.set
  rw [List.find?_cons_of_neg (by simpa using h)]
  congr 1
  induction c with
  | nil => rfl
  | cons p c ih =>
    by_cases hp : p.1 = k
    · have : (p.1 == k') = false := by simp [hp, h]
      simp [List.filter_cons, hp, h, ih]
    · simp only [List.filter_cons, beq_eq_false_iff_ne.mpr hp, Bool.not_false, if_true, List.find?_cons]
      rw [ih]

/-- A name in the list of variables to be lagged: either a plain name (`0, b`) or the name of a first
spatial lag (`1, b`), displayed as `b` resp. `W_b`. -/
def shown (e : Bool × String) : String := if e.1 then "W_" ++ e.2 else e.2

/-- lag order already present in the name -/
def ord (e : Bool × String) : Nat := if e.1 then 1 else 0

theorem shown_eq (e : Bool × String) : shown e = lagLabel (ord e) e.2 := by
  unfold shown ord lagLabel; cases e.1 <;> simp

theorem startsW_shown (e : Bool × String) (h : e.1 = false → startsW e.2 = false) :
    startsW (shown e) = e.1 := by
  unfold shown
  cases he : e.1
  · simpa [he] using h he
  · simp [startsW_append]

theorem initCounts_get (L : List (Bool × String)) (hL : ∀ e ∈ L, e.1 = false → startsW e.2 = false)
    (hnd : (L.map (·.2)).Nodup) (e : Bool × String) (he : e ∈ L) :
    (initCounts (L.map shown)).get e.2 = some 2 := by
  unfold initCounts
  suffices H : ∀ (L : List (Bool × String)) (c : Counts),
      (∀ e ∈ L, e.1 = false → startsW e.2 = false) →
      ∀ b, ((∃ e ∈ L, e.2 = b) ∨ c.get b = some 2) → (c.get b = none ∨ c.get b = some 2) →
      ((L.map shown).foldl (fun c nm =>
        if startsW nm then
          (if (c.get (drop2 nm)).isNone then c.set (drop2 nm) 2 else c)
        else c.set nm 2) c).get b = some 2 by
    exact H L [] hL e.2 (Or.inl ⟨e, he, rfl⟩) (Or.inl rfl)
  intro L
  induction L with
  | nil => intro c _ b h _; simpa using h
  | cons a L ih =>
    intro c hL b h hc
    simp only [List.map_cons, List.foldl_cons]
    have hsa := startsW_shown a (hL a (by simp))
    -- value of the updated dictionary at b
    have key : ∀ c' : Counts,
        c' = (if startsW (shown a) then
          (if (c.get (drop2 (shown a))).isNone then c.set (drop2 (shown a)) 2 else c)
        else c.set (shown a) 2) →
        (c'.get b = if a.2 = b then some 2 else c.get b) := by
      intro c' hc'
      rw [hsa] at hc'
      cases ha : a.1
      · rw [ha] at hc'
        have hs : shown a = a.2 := by unfold shown; simp [ha]
        rw [hs] at hc'
        simp only [Bool.false_eq_true, if_false] at hc'
        rw [hc']
        by_cases hb : a.2 = b
        · rw [if_pos hb, hb, get_set_self]
        · rw [if_neg hb, get_set_ne _ _ _ _ hb]
      · rw [ha] at hc'
        have hs : drop2 (shown a) = a.2 := by unfold shown; simp [ha, drop2_append]
        rw [hs] at hc'
        simp only [if_true] at hc'
        by_cases hb : a.2 = b
        · rw [if_pos hb]
          rw [hb] at hc'
          rcases hc with hn | hn
          · rw [hc', hn]; simp [get_set_self]
          · rw [hc', hn]; simp [hn]
        · rw [if_neg hb]
          rw [hc']
          split
          · rw [get_set_ne _ _ _ _ hb]
          · rfl
    have hk := key _ rfl
    apply ih _ (fun e he => hL e (by simp [he])) b
    · rw [hk]
      by_cases hb : a.2 = b
      · right; simp [hb]
      · simp only [hb, if_false]
        rcases h with ⟨e, he, heb⟩ | h
        · rw [List.mem_cons] at he
          rcases he with rfl | he
          · exact absurd heb hb
          · exact Or.inl ⟨e, he, heb⟩
        · exact Or.inr h
    · rw [hk]
      by_cases hb : a.2 = b
      · right; simp [hb]
      · simpa [hb] using hc

/-- Invariant of the double loop before round `r`, for the names in `L`. -/
structure QInv (L : List (Bool × String)) (r : Nat) (st : QState) : Prop where
  cnt : ∀ e ∈ L, st.counts.get e.2 = some (max (ord e + r + 1) 2)
  ex : ∀ e ∈ L, e.1 = false → (("W_" ++ e.2) ∈ st.existing ↔ 1 ≤ r)

theorem qStep_spec (st : QState) (e : Bool × String) (r : Nat)
    (hs : e.1 = false → startsW e.2 = false)
    (hc : st.counts.get e.2 = some (max (ord e + r + 1) 2))
    (hx : e.1 = false → (("W_" ++ e.2) ∈ st.existing ↔ 1 ≤ r)) :
    (qStep st (shown e)).out = st.out ++ [lagLabel (ord e + r + 1) e.2] ∧
    (qStep st (shown e)).counts.get e.2 = some (max (ord e + (r + 1) + 1) 2) ∧
    (∀ b, b ≠ e.2 → (qStep st (shown e)).counts.get b = st.counts.get b) ∧
    (e.1 = false → ("W_" ++ e.2) ∈ (qStep st (shown e)).existing) ∧
    (∀ b, b ≠ e.2 → (("W_" ++ b) ∈ (qStep st (shown e)).existing ↔ ("W_" ++ b) ∈ st.existing)) := by
  have hsw := startsW_shown e hs
  unfold qStep
  rw [hsw]
  cases he : e.1
  · have hsh : shown e = e.2 := by unfold shown; simp [he]
    have ho : ord e = 0 := by unfold ord; simp [he]
    rw [ho] at hc ⊢
    simp only [Bool.false_eq_true, if_false, hsh]
    by_cases hr : 1 ≤ r
    · have hin := (hx he).2 hr
      rw [if_neg (by simpa using hin)]
      have hmax : max (0 + r + 1) 2 = r + 1 := by omega
      rw [hmax] at hc
      simp only [hc, Option.getD_some]
      refine ⟨?_, ?_, ?_, ?_, ?_⟩
      · congr 2
        unfold lagLabel
        rw [if_neg (by omega), if_neg (by omega), Nat.zero_add]
      · rw [get_set_self]; congr 1; omega
      · intro b hb; exact get_set_ne _ _ _ _ (Ne.symm hb)
      · intro _; exact List.mem_cons_of_mem _ hin
      · intro b hb
        rw [List.mem_cons]
        constructor
        · rintro (h | h)
          · exact absurd h.symm (Wnum_ne _ _ _)
          · exact h
        · exact Or.inr
    · have hr0 : r = 0 := by omega
      subst hr0
      have hin : ("W_" ++ e.2) ∉ st.existing := fun h => hr ((hx he).1 h)
      rw [if_pos hin]
      refine ⟨?_, ?_, ?_, ?_, ?_⟩
      · simp [lagLabel]
      · simpa using hc
      · intro b _; rfl
      · intro _; simp
      · intro b hb
        rw [List.mem_cons, W_inj]
        constructor
        · rintro (h | h)
          · exact absurd h hb
          · exact h
        · exact Or.inr
  · have hsh : drop2 (shown e) = e.2 := by unfold shown; simp [he, drop2_append]
    have ho : ord e = 1 := by unfold ord; simp [he]
    rw [ho] at hc ⊢
    have hmax : max (1 + r + 1) 2 = r + 2 := by omega
    rw [hmax] at hc
    simp only [if_true, hsh, hc, Option.getD_some]
    refine ⟨?_, ?_, ?_, ?_, ?_⟩
    · congr 2
      unfold lagLabel
      rw [if_neg (by omega), if_neg (by omega)]
      have : 1 + r + 1 = r + 2 := by omega
      rw [this]
    · rw [get_set_self]; congr 1; omega
    · intro b hb; exact get_set_ne _ _ _ _ (Ne.symm hb)
    · intro h; cases h
    · intro b hb
      rw [List.mem_cons]
      constructor
      · rintro (h | h)
        · exact absurd h.symm (Wnum_ne _ _ _)
        · exact h
      · exact Or.inr

theorem qRound (T : List (Bool × String)) (r : Nat) (st : QState)
    (hs : ∀ e ∈ T, e.1 = false → startsW e.2 = false)
    (hnd : (T.map (·.2)).Nodup) (hI : QInv T r st) :
    ((T.map shown).foldl qStep st).out = st.out ++ T.map (fun e => lagLabel (ord e + r + 1) e.2) ∧
    QInv T (r + 1) ((T.map shown).foldl qStep st) ∧
    (∀ b, b ∉ T.map (·.2) →
      ((T.map shown).foldl qStep st).counts.get b = st.counts.get b ∧
      (("W_" ++ b) ∈ ((T.map shown).foldl qStep st).existing ↔ ("W_" ++ b) ∈ st.existing)) := by
  induction T generalizing st with
  | nil => exact ⟨by simp, ⟨by simp, by simp⟩, by simp⟩
  | cons a T ih =>
    simp only [List.map_cons, List.nodup_cons] at hnd
    have ha := qStep_spec st a r (hs a (by simp)) (hI.cnt a (by simp)) (hI.ex a (by simp))
    obtain ⟨h1, h2, h3, h4, h5⟩ := ha
    have hne : ∀ e ∈ T, e.2 ≠ a.2 := by
      intro e he h
      exact hnd.1 (by rw [← h]; exact List.mem_map_of_mem he)
    have hI' : QInv T r (qStep st (shown a)) := by
      constructor
      · intro e he; rw [h3 _ (hne e he)]; exact hI.cnt e (by simp [he])
      · intro e he hf; rw [h5 _ (hne e he)]; exact hI.ex e (by simp [he]) hf
    obtain ⟨i1, i2, i3⟩ := ih (qStep st (shown a)) (fun e he => hs e (by simp [he])) hnd.2 hI'
    simp only [List.map_cons, List.foldl_cons]
    refine ⟨?_, ?_, ?_⟩
    · rw [i1, h1]; simp
    · have hna := i3 a.2 hnd.1
      constructor
      · intro e he
        rw [List.mem_cons] at he
        rcases he with rfl | he
        · rw [hna.1, h2]
        · exact i2.cnt e he
      · intro e he hf
        rw [List.mem_cons] at he
        rcases he with rfl | he
        · rw [hna.2]; simp [h4 hf]
        · exact i2.ex e he hf
    · intro b hb
      simp only [List.mem_cons, not_or] at hb
      have := i3 b hb.2
      rw [this.1, this.2, h3 b hb.1, h5 b hb.1]
      exact ⟨rfl, Iff.rfl⟩

theorem repeat_out (L : List (Bool × String))
    (hs : ∀ e ∈ L, e.1 = false → startsW e.2 = false) (hnd : (L.map (·.2)).Nodup)
    (m : Nat) (st : QState) (hI : QInv L 0 st) :
    (Nat.repeat (fun st => (L.map shown).foldl qStep st) m st).out
      = st.out ++ (List.range m).flatMap (fun r => L.map fun e => lagLabel (ord e + r + 1) e.2) ∧
    QInv L m (Nat.repeat (fun st => (L.map shown).foldl qStep st) m st) := by
  induction m with
  | zero => simpa [Nat.repeat] using hI
  | succ m ih =>
    have := qRound L m _ hs hnd ih.2
    simp only [Nat.repeat]
    refine ⟨?_, this.2.1⟩
    rw [this.1, ih.1]
    simp [List.range_succ]

/-- C54: instrument names. Let the variables to be lagged be displayed as plain names `b` or as first lags
`W_b`, with distinct underlying names, no plain name itself starting with `W_`. Then
`set_name_q_sp` returns, for round `r = 0,...,w_lags-1` and each variable in order, the label of the
lag one order higher in each round. -/
theorem C54_setNameQSp (L : List (Bool × String))
    (hs : ∀ e ∈ L, e.1 = false → startsW e.2 = false) (hnd : (L.map (·.2)).Nodup)
    (nameX nameQ : List String) (lagQ forceAll : Bool) (p : Nat)
    (hL : L.map shown = (if forceAll then nameX else nameX.tail) ++ (if lagQ then nameQ else [])) :
    setNameQSp nameX p nameQ lagQ forceAll
      = (List.range p).flatMap (fun r => L.map fun e => lagLabel (ord e + r + 1) e.2) := by
  unfold setNameQSp
  have hn : (if lagQ = true then (if forceAll = true then nameX else nameX.tail) ++ nameQ
      else (if forceAll = true then nameX else nameX.tail)) = L.map shown := by
    rw [hL]; cases lagQ <;> simp
  simp only [hn]
  have hI : QInv L 0 ⟨[], L.map shown, initCounts (L.map shown)⟩ := by
    constructor
    · intro e he
      rw [initCounts_get L hs hnd e he]
      congr 1
      unfold ord; cases e.1 <;> simp
    · intro e he hf
      constructor
      · intro h
        exfalso
        rw [List.mem_map] at h
        obtain ⟨e', he', hh⟩ := h
        have h1 : startsW (shown e') = true := by rw [hh]; exact startsW_append _
        rw [startsW_shown e' (hs e' he')] at h1
        have h2 : shown e' = "W_" ++ e'.2 := by unfold shown; simp [h1]
        rw [h2, W_inj] at hh
        have : e' = e := List.inj_on_of_nodup_map hnd he' he hh
        rw [this, hf] at h1
        cases h1
      · intro h; omega
  simpa using (repeat_out L hs hnd p _ hI).1

/-- C54, the common case: distinct plain names. -/
theorem C54_plain (names : List String) (hs : ∀ s ∈ names, startsW s = false) (hnd : names.Nodup)
    (nameX nameQ : List String) (lagQ forceAll : Bool) (p : Nat)
    (hL : names = (if forceAll then nameX else nameX.tail) ++ (if lagQ then nameQ else [])) :
    setNameQSp nameX p nameQ lagQ forceAll = lagNames names 1 p := by
  have h := C54_setNameQSp (names.map fun s => (false, s)) (by simpa using hs)
    (by simpa [Function.comp_def] using hnd) nameX nameQ lagQ forceAll p
    (by rw [← hL]; simp [shown, Function.comp_def])
  rw [h]
  simp [lagNames, ord, List.range'_eq_map_range, List.flatMap_map, Function.comp_def, Nat.add_comm]

/-- Non-vacuity for `C54_setNameQSp`: a Durbin list (`W_a`, `W_b`) with a plain instrument `z`. -/
example : setNameQSp ["CONSTANT", "W_a", "W_b"] 2 ["z"] true false
    = ["W2_a", "W2_b", "W_z", "W3_a", "W3_b", "W2_z"] := by decide
example : (∀ e ∈ [(true, "a"), (true, "b"), (false, "z")], e.1 = false → startsW e.2 = false) ∧
    ([(true, "a"), (true, "b"), (false, "z")].map (·.2)).Nodup ∧
    [(true, "a"), (true, "b"), (false, "z")].map shown
      = (if false then ["CONSTANT", "W_a", "W_b"] else ["CONSTANT", "W_a", "W_b"].tail)
        ++ (if true then ["z"] else []) := by decide

/-! ### names of the whole lag model -/

/-- C55: lag model without Durbin terms: regressor names describe the regressors `1, x, yend, Wy`, and
instrument names describe the instruments. `xv`, `ev`, `qv` are the named exogenous, endogenous and
instrument variables (`ev = []`, `qv = []` when not given). -/
theorem C55_gmLag_names (W : α → α) (one y : α) (nameY : String) (xv ev qv : List (String × α))
    (p : Nat) (hp : 1 ≤ p) (lagQ : Bool) (slx : Option (List Bool))
    (hs : ∀ s ∈ (xv ++ qv).map (·.1), startsW s = false) (hnd : ((xv ++ qv).map (·.1)).Nodup)
    (given : Bool) (hg : given = false → ev = [] ∧ qv = []) :
    ∃ out, gmLag W one y nameY (xv.map (·.2)) (xv.map (·.1))
        (if given then some (ev.map (·.2)) else none) (if given then some (qv.map (·.2)) else none)
        (ev.map (·.1)) (qv.map (·.1)) p lagQ 0 slx = .ok out ∧
      out.z = one :: xv.map (·.2) ++ ev.map (·.2) ++ [W y] ∧
      out.nameZ = "CONSTANT" :: xv.map (·.1) ++ ev.map (·.1) ++ ["W_" ++ nameY] ∧
      Describes W (xv ++ qv) out.nameQ out.q := by
  set lv := xv ++ (if lagQ then qv else []) with hlv
  have hlsub : ∀ b ∈ lv, b ∈ xv ++ qv := by
    intro b hb; rw [hlv] at hb; cases lagQ <;> simp at hb ⊢
    · exact Or.inl hb
    · exact hb
  have hsl : List.Sublist lv (xv ++ qv) := by
    rw [hlv]; cases lagQ
    · simp
    · simp
  have hnames : setNameQSp ("CONSTANT" :: xv.map (·.1)) p (qv.map (·.1)) lagQ false
      = lagNames (lv.map (·.1)) 1 p := by
    apply C54_plain (lv.map (·.1))
    · intro s hs'
      rw [List.mem_map] at hs'
      obtain ⟨b, hb, rfl⟩ := hs'
      exact hs _ (List.mem_map_of_mem (hlsub b hb))
    · exact (hsl.map _).nodup hnd
    · rw [hlv]; cases lagQ <;> simp
  have hmax : max p 1 = p := by omega
  have hqd : Describes W (xv ++ qv) (qv.map (·.1)) (qv.map (·.2)) :=
    describes_base W _ _ (by intro b hb; simp [hb])
  have hld := describes_blocks W (xv ++ qv) lv hlsub 1 p
  cases hgv : given with
  | true =>
    simp only [if_true]
    refine ⟨⟨one :: xv.map (·.2) ++ (ev.map (·.2) ++ [W y]),
      "CONSTANT" :: xv.map (·.1) ++ (ev.map (·.1) ++ ["W_" ++ nameY]),
      qv.map (·.2) ++ lagBlocks W (lv.map (·.2)) 1 p,
      qv.map (·.1) ++ lagNames (lv.map (·.1)) 1 p⟩, ?_, by simp, by simp,
      List.rel_append hqd hld⟩
    unfold gmLag
    simp only [C04_setEndog_some, hmax]
    have e : (if lagQ = true then xv.map (·.2) ++ qv.map (·.2) else xv.map (·.2)) = lv.map (·.2) := by
      rw [hlv]; cases lagQ <;> simp
    simp [bind, Except.bind, pure, Except.pure, hnames, e, lagPow]
  | false =>
    obtain ⟨he, hq⟩ := hg hgv
    subst he; subst hq
    have hlx : lv = xv := by rw [hlv]; cases lagQ <;> simp
    rw [hlx] at hnames hld
    refine ⟨⟨one :: xv.map (·.2) ++ [W y],
      "CONSTANT" :: xv.map (·.1) ++ ["W_" ++ nameY],
      lagBlocks W (xv.map (·.2)) 1 p, lagNames (xv.map (·.1)) 1 p⟩, ?_, by simp, by simp, hld⟩
    unfold gmLag
    simp only [Bool.false_eq_true, if_false, C04_setEndog_none, hmax]
    simp only [List.map_nil] at hnames
    simp [bind, Except.bind, pure, Except.pure, hnames, lagPow]

/-- Non-vacuity of the hypotheses of `C55_gmLag_names` and what the model computes there. -/
example : (gmLag (fun v : Nat => 2 * v) 1 100 "HR" [3, 5] ["a", "b"] (some [7]) (some [9]) ["e"] ["z"]
    1 true 0 none).toOption.map (fun o => (o.z, o.nameZ, o.q, o.nameQ))
  = some ([1, 3, 5, 7, 200], ["CONSTANT", "a", "b", "e", "W_HR"], [9, 6, 10, 18],
      ["z", "W_a", "W_b", "W_z"]) := by decide

/-- C55, Durbin lag model with one lag of all variables, no other endogenous variables:
names describe columns. -/
theorem C55_gmLag_durbin1_partial (W : α → α) (one y : α) (nameY : String) (xv : List (String × α))
    (p : Nat) (hp : 1 ≤ p) (lagQ : Bool) (hx : xv ≠ []) (hnd : (xv.map (·.1)).Nodup) :
    ∃ out, gmLag W one y nameY (xv.map (·.2)) (xv.map (·.1)) none none [] [] p lagQ 1 none = .ok out ∧
      out.z = one :: xv.map (·.2) ++ lagBlocks W (xv.map (·.2)) 1 1 ++ [W y] ∧
      out.nameZ = "CONSTANT" :: xv.map (·.1) ++ lagNames (xv.map (·.1)) 1 1 ++ ["W_" ++ nameY] ∧
      out.q = lagBlocks W (xv.map (·.2)) 2 p ∧
      Describes W xv out.nameQ out.q := by
  have hset := C05_setEndog_none_partial W y (xv.map (·.2)) none p 1 lagQ (le_refl 1) hp
  have hkpos : 0 < xv.length := List.length_pos_iff.mpr hx
  have hn1 : setNameSpatialLags (xv.map (·.1)) 1 none = (xv.map (·.1)).map ("W_" ++ ·) := by
    rw [C02_setNameSpatialLags]; simp [lagNames, lagLabel]
  have hlb : lagBlocks W (xv.map (·.2)) 1 1 = xv.map (fun b => W b.2) := by
    simp [lagBlocks, lagPow, Function.comp_def]
  have hln : lagNames (xv.map (·.1)) 1 1 = (xv.map (·.1)).map ("W_" ++ ·) := by
    simp [lagNames, lagLabel]
  have hnames : setNameQSp ("CONSTANT" :: (xv.map (·.1)).map ("W_" ++ ·)) p [] lagQ false
      = lagNames (xv.map (·.1)) 2 p := by
    have h := C54_setNameQSp (xv.map fun b => (true, b.1)) (by simp)
      (by simpa [Function.comp_def] using hnd) ("CONSTANT" :: (xv.map (·.1)).map ("W_" ++ ·)) [] lagQ
      false p (by simp [shown, Function.comp_def])
    rw [h]
    simp only [lagNames, ord, List.range'_eq_map_range, List.flatMap_map, List.map_map,
      Function.comp_def, if_true]
    congr 1; funext r; congr 1; funext b; congr 1; omega
  refine ⟨⟨one :: xv.map (·.2) ++ lagBlocks W (xv.map (·.2)) 1 1 ++ [W y],
    "CONSTANT" :: xv.map (·.1) ++ lagNames (xv.map (·.1)) 1 1 ++ ["W_" ++ nameY],
    lagBlocks W (xv.map (·.2)) 2 p, lagNames (xv.map (·.1)) 2 p⟩, ?_, rfl, rfl, rfl,
    describes_blocks W xv xv (fun _ h => h) 2 p⟩
  have hlast : lastN ("CONSTANT" :: xv.map (·.1) ++ (xv.map (·.1)).map ("W_" ++ ·))
      ((one :: xv.map (·.2) ++ xv.map (fun b => W b.2)).length - 1
        |> (· / (1 + 1))) = (xv.map (·.1)).map ("W_" ++ ·) := by
    have e : ((one :: xv.map (·.2) ++ xv.map (fun b => W b.2)).length - 1) / (1 + 1) = xv.length := by
      simp; omega
    simp only [e]
    unfold lastN
    rw [if_neg (by omega)]
    have e2 : ("CONSTANT" :: xv.map (·.1) ++ (xv.map (·.1)).map ("W_" ++ ·)).length - xv.length
        = ("CONSTANT" :: xv.map (·.1)).length := by simp; omega
    rw [e2, List.drop_left]
  unfold gmLag
  simp only [bind, Except.bind, pure, Except.pure, gt_iff_lt, Nat.zero_lt_one, if_true]
  rw [hset]
  simp only [hn1, hln, hlb, Option.getD_some]
  simp only at hlast
  simp only [List.cons_append] at hlast ⊢
  rw [hlast, hnames]
  simp [lagPow]

/-- C55 is violated when other endogenous variables are present in a Durbin lag model: the
second instrument column is `W³a` but is called `W2_a`. -/
theorem C55_violated_yend :
    (gmLag (fun v : Nat => 2 * v) 1 100 "y" [1] ["a"] (some [7]) (some [9]) ["e"] ["z"] 1 false 1
      none).toOption.map (fun o => (o.q, o.nameQ)) = some ([9, 8], ["z", "W2_a"]) ∧
    lagPow (fun v : Nat => 2 * v) 3 1 = 8 := by decide

/-- C55 is violated with a flag list: with variables `a` (not lagged) and `b` (lagged), the instrument
columns are `W²a, W²b` while the names are `W_a, W2_b`. -/
theorem C55_violated_mask :
    (gmLag (fun v : Nat => 2 * v) 1 100 "y" [1, 3] ["a", "b"] none none [] [] 1 false 1
      (some [false, true])).toOption.map (fun o => (o.q, o.nameQ)) = some ([4, 12], ["W_a", "W2_b"]) ∧
    lagPow (fun v : Nat => 2 * v) 2 1 = 4 := by decide

end Spreg.Lags
