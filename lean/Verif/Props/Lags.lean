import Verif.Model.Lags
import Verif.Spec.Lags
import Mathlib.Data.List.Forall2
import Mathlib.Data.List.Nodup
import Mathlib.Tactic.Ring
/-
Properties C01-C05: spatial lags, instruments and their names.
-/
namespace Spreg.Lags
open Spreg Spreg.Spec

variable {α : Type}

/-! ### helper lemmas -/

theorem lagPow_succ' (W : α → α) (p : Nat) (v : α) : lagPow W p (W v) = lagPow W (p + 1) v := by
  induction p with
  | zero => rfl
  | succ p ih => simp only [lagPow] at *; rw [ih]

theorem lagM_pow (W : α → α) (x : List α) (p : Nat) :
    lagM W (x.map (lagPow W p)) = x.map (lagPow W (p + 1)) := by
  simp [lagM, lagPow]

theorem lagM_eq (W : α → α) (x : List α) : lagM W x = x.map (lagPow W 1) := by
  simp [lagM, lagPow]

theorem getLagsLoop_eq (W : α → α) (x : List α) (m p : Nat) (acc : List α) :
    getLagsLoop W m (x.map (lagPow W p)) acc = acc ++ lagBlocks W x (p + 1) m := by
  induction m generalizing p acc with
  | zero => simp [getLagsLoop, lagBlocks]
  | succ m ih =>
    rw [getLagsLoop, lagM_pow, ih]
    simp [lagBlocks, List.range'_succ]

theorem splitLoopL_eq (W : α → α) (x : List α) (m p : Nat) (acc : List α) :
    splitLoopL W m (x.map (lagPow W p)) acc
      = (x.map (lagPow W (p + m)), acc ++ lagBlocks W x (p + 1) m) := by
  induction m generalizing p acc with
  | zero => simp [splitLoopL, lagBlocks]
  | succ m ih =>
    rw [splitLoopL, lagM_pow, ih]
    simp only [lagBlocks, List.range'_succ, List.flatMap_cons, List.append_assoc]
    congr 3; omega

theorem splitLoopH_some (W : α → α) (x : List α) (m p : Nat) (acc : List α) :
    splitLoopH W m (x.map (lagPow W p)) (some acc) = some (acc ++ lagBlocks W x (p + 1) m) := by
  induction m generalizing p acc with
  | zero => simp [splitLoopH, lagBlocks]
  | succ m ih =>
    rw [splitLoopH, lagM_pow, ih]
    simp [lagBlocks, List.range'_succ]

theorem splitLoopH_none (W : α → α) (x : List α) (m p : Nat) :
    splitLoopH W (m + 1) (x.map (lagPow W p)) none = some (lagBlocks W x (p + 1) (m + 1)) := by
  rw [splitLoopH, lagM_pow, splitLoopH_some]
  simp [lagBlocks, List.range'_succ]

theorem nameBlock_eq (p : Nat) (names : List String) :
    nameBlock (p + 2) names = names.map (lagLabel (p + 2)) := by
  simp [nameBlock, lagLabel]

theorem nameLoop_eq (names : List String) (m d : Nat) (acc : List String) :
    nameLoop names m d acc = acc ++ lagNames names (d + 2) m := by
  induction m generalizing d acc with
  | zero => simp [nameLoop, lagNames]
  | succ m ih =>
    rw [nameLoop, ih, nameBlock_eq]
    simp [lagNames, List.range'_succ]

theorem nameLoop2_eq (names : List String) (nI m d : Nat) (h : 1 ≤ nI) (acc : List String) :
    nameLoop2 names nI m d acc = acc ++ lagNames names (d + nI + 1) m := by
  induction m generalizing d acc with
  | zero => simp [nameLoop2, lagNames]
  | succ m ih =>
    rw [nameLoop2, ih]
    obtain ⟨j, rfl⟩ : ∃ j, nI = j + 1 := ⟨nI - 1, by omega⟩
    have : nameBlock (d + (j + 1) + 1) names = names.map (lagLabel (d + (j+1) + 1)) :=
      nameBlock_eq (d + j) names
    rw [this]
    simp only [lagNames, List.range'_succ, List.flatMap_cons, List.append_assoc]
    congr 5; omega

theorem length_flatMap_const {β γ : Type} (l : List β) (f : β → List γ) (k : Nat)
    (h : ∀ b, (f b).length = k) : (l.flatMap f).length = l.length * k := by
  induction l with
  | nil => simp
  | cons a l ih => simp [h, ih, Nat.succ_mul, Nat.add_comm]

/-! ### C01 -/

/-- C01: the lag builder returns the blocks `Wx, W²x, ..., W^L x` in this order (for `L ≥ 1`;
the call with `L = 0` behaves as `L = 1`). -/
theorem C01_getLags (W : α → α) (x : List α) (L : Nat) :
    getLags W x L = lagBlocks W x 1 (max L 1) := by
  unfold getLags
  rw [lagM_eq, getLagsLoop_eq]
  obtain ⟨m, hm⟩ : ∃ m, max L 1 = m + 1 := ⟨max L 1 - 1, by omega⟩
  have : L - 1 = m := by omega
  rw [hm, this]
  simp [lagBlocks, List.range'_succ]

/-- C01: number of columns. -/
theorem C01_getLags_length (W : α → α) (x : List α) (L : Nat) :
    (getLags W x L).length = max L 1 * x.length := by
  rw [C01_getLags, lagBlocks, length_flatMap_const (k := x.length)] <;> simp

/-- C01: pointwise form. Column `i*k + j` is `W^{i+1}` applied to variable `j`. -/
theorem C01_getLags_get (W : α → α) (x : List α) (L i j : Nat) (hi : i < L) (hj : j < x.length) :
    (getLags W x L)[i * x.length + j]? = some (lagPow W (i + 1) x[j]) := by
  rw [C01_getLags]
  have hL : max L 1 = L := by omega
  rw [hL]
  have key : ∀ (c f i : Nat), i < c →
      (lagBlocks W x f c)[i * x.length + j]? = some (lagPow W (f + i) x[j]) := by
    intro c
    induction c with
    | zero => intro f i h; omega
    | succ c ih =>
      intro f i h
      have e : lagBlocks W x f (c + 1) = x.map (lagPow W f) ++ lagBlocks W x (f + 1) c := by
        simp [lagBlocks, List.range'_succ]
      rw [e]
      cases i with
      | zero => simp [List.getElem?_append, hj]
      | succ i =>
        have h2 := ih (f + 1) i (by omega)
        rw [List.getElem?_append_right (by simp; rw [Nat.succ_mul]; omega)]
        simp only [List.length_map]
        have : (i + 1) * x.length + j - x.length = i * x.length + j := by
          rw [Nat.succ_mul]; omega
        rw [this, h2]
        congr 2; omega
  rw [key L 1 i hi, Nat.add_comm]

/-- C01: the split variant returns the same blocks, separated after power `s`; outside
`0 < s < m` it raises `ValueError`. -/
theorem C01_getLagsSplit (W : α → α) (x : List α) (m s : Nat) :
    getLagsSplit W x m s =
      if 0 < s ∧ s < m then .ok (lagBlocks W x 1 s, lagBlocks W x (s + 1) (m - s))
      else .error .valueError := by
  unfold getLagsSplit
  split
  · next h =>
    obtain ⟨s', rfl⟩ : ∃ s', s = s' + 1 := ⟨s - 1, by omega⟩
    obtain ⟨d, hd⟩ : ∃ d, m - (s' + 1) = d + 1 := ⟨m - (s' + 1) - 1, by omega⟩
    have e1 : splitLoopL W (s' + 1 - 1) (lagM W x) (lagM W x)
        = (x.map (lagPow W (1 + s')), lagBlocks W x 1 (s' + 1)) := by
      rw [lagM_eq, Nat.add_sub_cancel, splitLoopL_eq]
      simp [lagBlocks, List.range'_succ]
    simp only [e1, hd]
    rw [splitLoopH_none]
    simp [Nat.add_comm]
  · rfl

/-- C01: joining both parts of the split gives `get_lags`. -/
theorem C01_split_join (W : α → α) (x : List α) (m s : Nat) (lo hi : List α)
    (h : getLagsSplit W x m s = .ok (lo, hi)) : lo ++ hi = getLags W x m := by
  rw [C01_getLagsSplit] at h
  split at h
  · next hs =>
    simp only [Except.ok.injEq, Prod.mk.injEq] at h
    obtain ⟨rfl, rfl⟩ := h
    rw [C01_getLags]
    have : max m 1 = s + (m - s) := by omega
    rw [this]
    simp only [lagBlocks, ← List.flatMap_append, ← List.range'_append_1]
    rw [Nat.add_comm 1 s]
  · cases h

/-- Non-vacuity: two variables, three lags, `W = (· * 2)`. -/
example : getLags (fun v : Nat => 2 * v) [1, 5] 3 = [2, 10, 4, 20, 8, 40] := by decide
example : (getLagsSplit (fun v : Nat => 2 * v) [1, 5] 3 1).toOption = some ([2, 10], [4, 20, 8, 40]) := by
  decide

/-! ### C02 -/

/-- C02: generated names are the labels of the blocks, in the same order. -/
theorem C02_setNameSpatialLags (names : List String) (L : Nat) :
    setNameSpatialLags names L none = lagNames names 1 (max L 1) := by
  unfold setNameSpatialLags
  simp only
  rw [nameLoop_eq]
  obtain ⟨m, hm⟩ : ∃ m, max L 1 = m + 1 := ⟨max L 1 - 1, by omega⟩
  have : L - 1 = m := by omega
  rw [hm, this]
  simp [lagNames, List.range'_succ, lagLabel, Function.comp_def]

theorem setName_mask (names : List String) (L : Nat) (m : List Bool) :
    setNameSpatialLags names L (some m) = setNameSpatialLags (compress names m) L none := rfl

theorem setNameSpatialLags2_eq (names : List String) (s a : Nat) (hs : 0 < s) :
    setNameSpatialLags2 names s a = (lagNames names 1 s, lagNames names (s + 1) a) := by
  unfold setNameSpatialLags2
  rw [C02_setNameSpatialLags, nameLoop2_eq _ _ _ _ (by omega)]
  have h1 : max s 1 = s := by omega
  have h2 : 0 + (1 + (s - 1)) + 1 = s + 1 := by omega
  rw [h1, h2]; simp

/-- Blocks and labels over the same named variables describe each other. -/
theorem describes_blocks (W : α → α) (base : List (String × α)) (nv : List (String × α))
    (hb : ∀ b ∈ nv, b ∈ base) (f c : Nat) :
    Describes W base (lagNames (nv.map (·.1)) f c) (lagBlocks W (nv.map (·.2)) f c) := by
  unfold Describes
  induction c generalizing f with
  | zero => simp [lagNames, lagBlocks]
  | succ c ih =>
    have e1 : lagNames (nv.map (·.1)) f (c + 1)
        = (nv.map (·.1)).map (lagLabel f) ++ lagNames (nv.map (·.1)) (f + 1) c := by
      simp [lagNames, List.range'_succ]
    have e2 : lagBlocks W (nv.map (·.2)) f (c + 1)
        = (nv.map (·.2)).map (lagPow W f) ++ lagBlocks W (nv.map (·.2)) (f + 1) c := by
      simp [lagBlocks, List.range'_succ]
    rw [e1, e2]
    refine List.rel_append ?_ (ih (f + 1))
    clear e1 e2 ih
    induction nv with
    | nil => simp
    | cons b nv ihn =>
      simp only [List.map_cons, List.forall₂_cons]
      exact ⟨⟨f, b, hb b (by simp), rfl, rfl⟩, ihn fun b' h' => hb b' (by simp [h'])⟩

theorem describes_base (W : α → α) (base nv : List (String × α)) (hb : ∀ b ∈ nv, b ∈ base) :
    Describes W base (nv.map (·.1)) (nv.map (·.2)) := by
  unfold Describes
  induction nv with
  | nil => simp
  | cons b nv ih =>
    simp only [List.map_cons, List.forall₂_cons]
    exact ⟨⟨0, b, hb b (by simp), by simp [lagLabel], rfl⟩, ih fun b' h' => hb b' (by simp [h'])⟩

theorem compress_map {β γ : Type} (f : β → γ) (l : List β) (m : List Bool) :
    compress (l.map f) m = (compress l m).map f := by
  unfold compress
  induction l generalizing m with
  | nil => simp
  | cons a l ih =>
    cases m with
    | nil => simp
    | cons b m => cases b <;> simp [List.filter_cons, ih]

theorem maskCols_eq (m : List Bool) (x : List α) (h : m.length = x.length) :
    maskCols m x = .ok (compress x m) := by simp [maskCols, compress, h]

theorem mem_compress {β : Type} (l : List β) (m : List Bool) (b : β) (h : b ∈ compress l m) :
    b ∈ l := by
  unfold compress at h
  simp only [List.mem_map, List.mem_filter] at h
  obtain ⟨⟨c, b'⟩, ⟨hz, _⟩, rfl⟩ := h
  exact (List.of_mem_zip hz).2

/-- The variables that a Durbin specification lags: all, or those flagged, the constant excluded. -/
def selected {β : Type} (l : List β) (constant : Bool) (slx : Option (List Bool)) : List β :=
  let work := if constant then l.tail else l
  match slx with
  | none => work
  | some m => compress work m

/-- C02: `flex_wx` without instruments. For named variables `nv` (constant first iff `constant`), any
number of lags `L ≥ 1` and any flag list of the right length, the result is the original columns
followed by `Wx,...,W^L x` of the selected variables, with exactly the corresponding names. -/
theorem C02_flexWx (W : α → α) (nv : List (String × α)) (constant : Bool) (L : Nat) (hL : 1 ≤ L)
    (slx : Option (List Bool))
    (hm : ∀ m, slx = some m → m.length = (selected nv constant none).length) :
    ∃ out, flexWx W (nv.map (·.2)) (nv.map (·.1)) constant L slx 0 = .ok out ∧
      out.x = nv.map (·.2) ++ lagBlocks W ((selected nv constant slx).map (·.2)) 1 L ∧
      out.nameX = nv.map (·.1) ++ lagNames ((selected nv constant slx).map (·.1)) 1 L ∧
      out.q = none ∧ Describes W nv out.nameX out.x := by
  have hmax : max L 1 = L := by omega
  have hwork : ∀ (f : String × α → String), (if constant = true then (nv.map f).tail else nv.map f)
      = (selected nv constant none).map f := by
    intro f; unfold selected; cases constant <;> simp
  have hwork2 : ∀ (f : String × α → α), (if constant = true then (nv.map f).tail else nv.map f)
      = (selected nv constant none).map f := by
    intro f; unfold selected; cases constant <;> simp
  have hsub : ∀ b ∈ selected nv constant none, b ∈ nv := by
    intro b hb; unfold selected at hb; cases constant <;> simp at hb
    · exact hb
    · exact List.mem_of_mem_tail hb
  have hD : ∀ sel : List (String × α), (∀ b ∈ sel, b ∈ nv) →
      Describes W nv (nv.map (·.1) ++ lagNames (sel.map (·.1)) 1 L)
        (nv.map (·.2) ++ lagBlocks W (sel.map (·.2)) 1 L) := fun sel hs =>
    List.rel_append (describes_base W nv nv fun _ h => h) (describes_blocks W nv sel hs 1 L)
  cases slx with
  | none =>
    refine ⟨_, rfl, ?_, ?_, rfl, ?_⟩
    · simp only [C01_getLags, hmax, hwork2]
    · simp only [C02_setNameSpatialLags, hmax, hwork]
    · simp only [C01_getLags, C02_setNameSpatialLags, hmax, hwork, hwork2]
      exact hD _ hsub
  | some m =>
    have hml := hm m rfl
    have hsel : selected nv constant (some m) = compress (selected nv constant none) m := by
      simp [selected]
    refine ⟨⟨nv.map (·.2) ++ lagBlocks W ((selected nv constant (some m)).map (·.2)) 1 L,
      nv.map (·.1) ++ lagNames ((selected nv constant (some m)).map (·.1)) 1 L, none⟩,
      ?_, rfl, rfl, rfl, ?_⟩
    · unfold flexWx
      simp only [hwork, hwork2, List.length_map, hml, if_true]
      rw [maskCols_eq _ _ (by simp [hml])]
      simp only [C01_getLags, C02_setNameSpatialLags, hmax, compress_map, hsel]
      rfl
    · refine hD _ ?_
      intro b hb; rw [hsel] at hb
      exact hsub b (mem_compress _ _ _ hb)

/-- C02: a flag list of the wrong length is rejected. -/
theorem C02_flexWx_reject (W : α → α) (x : List α) (names : List String) (constant : Bool)
    (L qL : Nat) (m : List Bool)
    (h : m.length ≠ (if constant then names.tail else names).length) :
    flexWx W x names constant L (some m) qL = .error .exception := by
  unfold flexWx; simp [h]

/-- Non-vacuity: constant plus three variables, the second not lagged, two lags. -/
example :
    (flexWx (fun v : Nat => 2 * v) [1, 3, 5, 7] ["CONSTANT", "a", "b", "c"] true 2
      (some [true, false, true]) 0).toOption.map (fun o => (o.x, o.nameX))
    = some ([1, 3, 5, 7, 6, 14, 12, 28],
        ["CONSTANT", "a", "b", "c", "W_a", "W_c", "W2_a", "W2_c"]) := by decide

/-! ### C03 -/

/-- C03, good part: if every variable is lagged (no flag list, or all flags true), instrument names and
columns agree, for every number of lags. `_partial`: the full statement, for every flag list, is false,
see `C03_violated`. -/
theorem C03_flexWx_q_partial (W : α → α) (nv : List (String × α)) (constant : Bool) (L qL : Nat)
    (hL : 1 ≤ L) (hq : 1 ≤ qL) (slx : Option (List Bool))
    (hm : ∀ m, slx = some m →
      m = List.replicate (selected nv constant none).length true) :
    ∃ out q nq, flexWx W (nv.map (·.2)) (nv.map (·.1)) constant L slx qL = .ok out ∧
      out.q = some (q, nq) ∧
      q = lagBlocks W ((selected nv constant none).map (·.2)) (L + 1) qL ∧
      Describes W nv nq q ∧ Describes W nv out.nameX out.x := by
  have hwork : ∀ (f : String × α → String), (if constant = true then (nv.map f).tail else nv.map f)
      = (selected nv constant none).map f := by
    intro f; unfold selected; cases constant <;> simp
  have hwork2 : ∀ (f : String × α → α), (if constant = true then (nv.map f).tail else nv.map f)
      = (selected nv constant none).map f := by
    intro f; unfold selected; cases constant <;> simp
  have hsub : ∀ b ∈ selected nv constant none, b ∈ nv := by
    intro b hb; unfold selected at hb; cases constant <;> simp at hb
    · exact hb
    · exact List.mem_of_mem_tail hb
  set sel := selected nv constant none with hsel
  have hD : Describes W nv (nv.map (·.1) ++ lagNames (sel.map (·.1)) 1 L)
        (nv.map (·.2) ++ lagBlocks W (sel.map (·.2)) 1 L) :=
    List.rel_append (describes_base W nv nv fun _ h => h) (describes_blocks W nv sel hsub 1 L)
  have hDq := describes_blocks W nv sel hsub (L + 1) qL
  have hsplit : getLagsSplit W (sel.map (·.2)) (L + qL) L
      = .ok (lagBlocks W (sel.map (·.2)) 1 L, lagBlocks W (sel.map (·.2)) (L + 1) qL) := by
    rw [C01_getLagsSplit, if_pos (by omega)]; simp
  refine ⟨⟨nv.map (·.2) ++ lagBlocks W (sel.map (·.2)) 1 L,
    nv.map (·.1) ++ lagNames (sel.map (·.1)) 1 L,
    some (lagBlocks W (sel.map (·.2)) (L + 1) qL, lagNames (sel.map (·.1)) (L + 1) qL)⟩,
    _, _, ?_, rfl, rfl, hDq, hD⟩
  cases slx with
  | none =>
    unfold flexWx
    simp only [hwork, hwork2, hsplit, setNameSpatialLags2_eq _ _ _ hL]
    rw [if_pos (by omega)]; rfl
  | some m =>
    have hmm := hm m rfl
    subst hmm
    have hc : ∀ {β : Type} (l : List β), compress l (List.replicate l.length true) = l := by
      intro β l; unfold compress
      induction l with
      | nil => rfl
      | cons a l ih => simp [List.replicate_succ, ih]
    have hc1 := hc (sel.map (·.1))
    have hc2 := hc (sel.map (·.2))
    simp only [List.length_map] at hc1 hc2
    unfold flexWx
    simp only [hwork, hwork2, List.length_map, List.length_replicate, if_true]
    rw [maskCols_eq _ _ (by simp)]
    have hany : (List.map not (List.replicate sel.length true)).any id = false := by simp
    simp only [hany, hc1, hc2]
    simp only [bind, Except.bind, if_pos (by omega : qL > 0)]
    simp only [Bool.false_eq_true, if_false, pure, Except.pure, hsplit,
      setNameSpatialLags2_eq _ _ _ hL, List.nil_append]

/-- C03 is violated by the code: with one lagged variable `a` and one unlagged variable `b`,
`flex_wx(..., slx_vars=[True, False], q_lags=1)` returns the columns `[W²a, W b]` with the names
`["W_b", "W2_a"]`. -/
theorem C03_violated :
    (flexWx (fun v : Nat => 2 * v) [3, 5] ["a", "b"] false 1 (some [true, false]) 1).toOption.map
      (·.q) = some (some ([12, 10], ["W_b", "W2_a"])) ∧
    ¬ Describes (fun v : Nat => 2 * v) [("a", 3), ("b", 5)] ["W_b", "W2_a"] [12, 10] := by
  refine ⟨by decide, ?_⟩
  intro h
  unfold Describes at h
  rw [List.forall₂_cons] at h
  obtain ⟨⟨p, b, hb, hn, hv⟩, -⟩ := h
  have hpow : ∀ (p v : Nat), lagPow (fun v : Nat => 2 * v) p v = 2 ^ p * v := by
    intro p v
    induction p with
    | zero => simp [lagPow]
    | succ p ih => simp only [lagPow, ih]; rw [Nat.pow_succ]; ring
  rw [hpow] at hv
  simp only [List.mem_cons, List.not_mem_nil, or_false] at hb
  rcases hb with rfl | rfl
  · -- name "W_b" cannot be a label of "a"
    have : ("W_b").toList.getLast? = (lagLabel p "a").toList.getLast? := by rw [hn]
    unfold lagLabel at this
    split at this
    · revert this; decide
    · split at this
      · revert this; decide
      · rw [String.toList_append] at this
        simp only [List.getLast?_append] at this
        revert this
        have e1 : ("W_b").toList.getLast? = some 'b' := by decide
        have e2 : ("a").toList.getLast? = some 'a' := by decide
        rw [e1, e2]; simp
  · -- 12 = 2^p * 5 is impossible
    simp only at hv
    have : 5 ∣ 12 := ⟨2 ^ p, by rw [hv]; ring⟩
    omega

/-! ### C04 -/

/-- C04: without other endogenous variables, the lag model's instruments are `Wx,...,W^p x`. -/
theorem C04_setEndog_none (W : α → α) (y : α) (x : List α) (q : Option (List α)) (p : Nat)
    (lagQ : Bool) (sv : SlxVars) :
    setEndog W y x none q p lagQ 0 sv
      = .ok ⟨[lagPow W 1 y], lagBlocks W x 1 (max p 1), none⟩ := by
  unfold setEndog
  simp only [C01_getLags]
  rfl

/-- C04: with other endogenous variables and their instruments, `Wy` is appended last and the
instruments are the user's followed by the lags of `x` (and of `q` when `lag_q`). -/
theorem C04_setEndog_some (W : α → α) (y : α) (x ye q : List α) (p : Nat) (lagQ : Bool)
    (sv : SlxVars) :
    setEndog W y x (some ye) (some q) p lagQ 0 sv
      = .ok ⟨ye ++ [lagPow W 1 y], q ++ lagBlocks W (if lagQ then x ++ q else x) 1 (max p 1), none⟩ := by
  unfold setEndog
  simp only [C01_getLags]
  rfl

/-- C04: endogenous variables without instruments raise. -/
theorem C04_setEndog_noq (W : α → α) (y : α) (x ye : List α) (p : Nat) (lagQ : Bool)
    (sv : SlxVars) : setEndog W y x (some ye) none p lagQ 0 sv = .error .exception := by
  unfold setEndog; rfl

/-- C04, sparse variant: agrees with the dense one for `w_lags ≤ 2`. `_partial`: for larger `w_lags` the
sparse variant duplicates columns (`C04_sparse_violated`, `C04_sparse_length`). -/
theorem C04_sparse_eq_dense_partial (W : α → α) (y : α) (x : List α) (ye q : Option (List α)) (p : Nat)
    (lagQ : Bool) (sv : SlxVars) (hp : p ≤ 2) :
    setEndogSparse W y x ye q p lagQ = setEndog W y x ye q p lagQ 0 sv := by
  have key : ∀ v : List α, sparseLoop W (p - 1) (lagM W v) = getLags W v p := by
    intro v
    unfold getLags
    have : p - 1 = 0 ∨ p - 1 = 1 := by omega
    rcases this with h | h <;> rw [h]
    · rfl
    · rfl
  unfold setEndogSparse setEndog
  cases ye with
  | none => simp only [key]; rfl
  | some ye =>
    cases q with
    | none => rfl
    | some q => simp only [key]; rfl

theorem sparseLoop_length (W : α → α) (m : Nat) (s : List α) :
    (sparseLoop W m s).length = 2 ^ m * s.length := by
  induction m generalizing s with
  | zero => simp [sparseLoop]
  | succ m ih =>
    rw [sparseLoop, ih]
    simp only [List.length_append, lagM, List.length_map]
    rw [Nat.pow_succ]; ring

/-- C04: what the sparse variant really returns: `2^(p-1) * k` instruments instead of `p * k`. -/
theorem C04_sparse_length (W : α → α) (y : α) (x : List α) (q : Option (List α)) (p : Nat)
    (lagQ : Bool) :
    ∃ out, setEndogSparse W y x none q p lagQ = .ok out ∧ out.q.length = 2 ^ (p - 1) * x.length := by
  refine ⟨_, rfl, ?_⟩
  simp [sparseLoop_length, lagM]

/-- C04 is violated by `set_endog_sparse` for every `w_lags ≥ 3` and every non-empty `x`: the instrument
matrices of the sparse and dense variants differ (the sparse one contains `W²x` twice). -/
theorem C04_sparse_violated (W : α → α) (y : α) (x : List α) (q : Option (List α)) (p : Nat)
    (lagQ : Bool) (sv : SlxVars) (hp : 3 ≤ p) (hx : x ≠ []) :
    setEndogSparse W y x none q p lagQ ≠ setEndog W y x none q p lagQ 0 sv := by
  rw [C04_setEndog_none]
  intro h
  obtain ⟨out, ho, hl⟩ := C04_sparse_length W y x q p lagQ
  rw [ho] at h
  injection h with h
  rw [h] at hl
  have hl2 := C01_getLags_length W x p
  rw [C01_getLags] at hl2
  simp only at hl
  rw [hl2] at hl
  have hpos : 0 < x.length := List.length_pos_iff.mpr hx
  have e := Nat.eq_of_mul_eq_mul_right hpos hl
  have h3 : max p 1 = p := by omega
  rw [h3] at e
  obtain ⟨j, rfl⟩ : ∃ j, p = j + 3 := ⟨p - 3, by omega⟩
  have : ∀ j : Nat, j + 3 < 2 ^ (j + 2) := by
    intro j
    induction j with
    | zero => decide
    | succ j ih => rw [Nat.pow_succ]; omega
  have := this j
  have e2 : j + 3 - 1 = j + 2 := by omega
  rw [e2] at e
  omega

/-- the witness spelled out: three lags of one variable, column `W²x` twice. -/
example : (setEndogSparse (fun v : Nat => 2 * v) 1 [1] none none 3 true).toOption.map (·.q)
    = some [2, 4, 4, 8] := by decide
example : (setEndog (fun v : Nat => 2 * v) 1 [1] none none 3 true 0 .all).toOption.map (·.q)
    = some [2, 4, 8] := by decide

/-! ### C05 -/

/-- C05, good part: without other endogenous variables and with all variables lagged, the Durbin
lag model with `s ≥ 1` and `p ≥ 1` uses `W^{s+1}x,...,W^{s+p}x` as instruments and adds `Wx,...,W^s x`. -/
theorem C05_setEndog_none_partial (W : α → α) (y : α) (x : List α) (q : Option (List α)) (p s : Nat)
    (lagQ : Bool) (hs : 1 ≤ s) (hp : 1 ≤ p) :
    setEndog W y x none q p lagQ s .all
      = .ok ⟨[lagPow W 1 y], lagBlocks W x (s + 1) p, some (lagBlocks W x 1 s)⟩ := by
  unfold setEndog
  have : getLagsSplit W x (s + p) s = .ok (lagBlocks W x 1 s, lagBlocks W x (s + 1) p) := by
    rw [C01_getLagsSplit, if_pos (by omega)]; simp
  simp only [this, if_pos (by omega : s > 0), if_neg (by omega : ¬ s = 0)]
  rfl

/-- C05: with one lag (`s = 1`) a flag list of the right length works and selects the flagged lags. -/
theorem C05_setEndog_mask1_partial (W : α → α) (y : α) (x : List α) (q : Option (List α)) (p : Nat)
    (lagQ : Bool) (hp : 1 ≤ p) (m : List Bool) (hm : m.length = x.length) :
    setEndog W y x none q p lagQ 1 (.mask m)
      = .ok ⟨[lagPow W 1 y], lagBlocks W x 2 p, some (compress (lagBlocks W x 1 1) m)⟩ := by
  unfold setEndog
  have : getLagsSplit W x (1 + p) 1 = .ok (lagBlocks W x 1 1, lagBlocks W x 2 p) := by
    rw [C01_getLagsSplit, if_pos (by omega)]; simp
  simp only [this]
  have h2 : maskCols m (lagBlocks W x 1 1) = .ok (compress (lagBlocks W x 1 1) m) := by
    apply maskCols_eq; simp [lagBlocks, hm]
  simp [hm, h2, bind, Except.bind, pure, Except.pure, lagPow]

/-- C05 is violated by the code: a flag list always raises `IndexError` when two or more lags are
requested (the mask is as long as `x`, the lagged matrix is `s` times wider). -/
theorem C05_mask_violated (W : α → α) (y : α) (x : List α) (q : Option (List α)) (p s : Nat)
    (lagQ : Bool) (hs : 2 ≤ s) (hp : 1 ≤ p) (hx : x ≠ []) (m : List Bool) (hm : m.length = x.length) :
    setEndog W y x none q p lagQ s (.mask m) = .error .indexError := by
  unfold setEndog
  have : getLagsSplit W x (s + p) s = .ok (lagBlocks W x 1 s, lagBlocks W x (s + 1) p) := by
    rw [C01_getLagsSplit, if_pos (by omega)]; simp
  simp only [this, if_pos (by omega : s > 0), if_neg (by omega : ¬ s = 0)]
  have hl : (lagBlocks W x 1 s).length = s * x.length := by
    rw [lagBlocks, length_flatMap_const (k := x.length)] <;> simp
  have h2 : maskCols m (lagBlocks W x 1 s) = .error .indexError := by
    unfold maskCols
    rw [if_neg]
    rw [hm, hl]
    have hpos : 0 < x.length := List.length_pos_iff.mpr hx
    intro e
    have : 2 * x.length ≤ s * x.length := Nat.mul_le_mul_right _ hs
    omega
  simp [hm, h2, bind, Except.bind, pure, Except.pure]

/-- C05: what the code does when other endogenous variables are present: the instruments built from
`x` are `W^{s+2}x,...,W^{s+1+p}x`. -/
theorem C05_setEndog_some (W : α → α) (y : α) (x ye q : List α) (p s : Nat)
    (hs : 1 ≤ s) (hp : 1 ≤ p) :
    setEndog W y x (some ye) (some q) p false s .all
      = .ok ⟨ye ++ [lagPow W 1 y], q ++ lagBlocks W x (s + 2) p, some (lagBlocks W x 1 s)⟩ := by
  unfold setEndog
  have : getLagsSplit W x (s + 1) s = .ok (lagBlocks W x 1 s, lagBlocks W x (s + 1) 1) := by
    rw [C01_getLagsSplit, if_pos (by omega)]; simp
  have h3 : getLags W (lagBlocks W x (s + 1) 1) p = lagBlocks W x (s + 2) p := by
    have e : lagBlocks W x (s + 1) 1 = x.map (lagPow W (s + 1)) := by simp [lagBlocks]
    unfold getLags
    rw [e, lagM_pow, getLagsLoop_eq]
    obtain ⟨j, rfl⟩ : ∃ j, p = j + 1 := ⟨p - 1, by omega⟩
    simp [lagBlocks, List.range'_succ]
  simp only [this, if_pos (by omega : s > 0), if_neg (by omega : ¬ s = 0), bind, Except.bind,
    pure, Except.pure, Bool.false_eq_true, if_false, h3]
  rfl

/-- C05 is violated by the code when other endogenous variables are present: with one lag and
`w_lags = 1` the instrument for `Wy` is `W³x` and not `W²x`. -/
theorem C05_yend_violated :
    (setEndog (fun v : Nat => 2 * v) 1 [1] (some [7]) (some [9]) 1 false 1 .all).toOption.map (·.q)
      = some [9, 8] ∧
    (4 : Nat) ∉ [9, 8] ∧ lagPow (fun v : Nat => 2 * v) 2 1 = 4 := by decide

end Spreg.Lags
