import Verif.Props.Output2
import Mathlib.Algebra.BigOperators.Group.Finset.Basic
import Mathlib.Tactic.Ring
/-
C133: labels of the spatially lagged variables. C134: impacts with regimes.
-/
namespace Spreg.Output
open Spreg Spreg.Regimes

/-! ### C133 -/

/-- Position of a variable among the constant (0), `kx` exogenous variables and their spatial lags gives its type (specification). -/
def typeOf (kx v : ℕ) : VT := if v = 0 then .o else if v ≤ kx then .x else .wx

/-- The rows that a table should have: regime and type of every coefficient (`expectedDesc`: for each regime in turn the varying
variables, then the fixed ones), then endogenous variables and the spatial lag (specification). -/
def wanted {L : Type} (str : L → String) (rs : List L) (mask : List Bool) (kx : ℕ) (endo : List (String × VT)) : List (String × VT) :=
  (expectedDesc rs mask).map (fun d => (match d.1 with | some r => str r | none => "_Global", typeOf kx d.2)) ++
    (endo ++ [("_Global", .rho)])

def isXO (t : VT) : Prop := t = .x ∨ t = .o

theorem rIndex_append (A B : List (String × VT)) (m : String) : rIndex (A ++ B) m = rIndex A m ++ (rIndex B m).map (A.length + ·) := by
  unfold rIndex
  rw [List.length_append, List.range_add, List.filter_append, List.filter_map]
  congr 1
  · refine List.filter_congr fun i hi => ?_
    rw [List.mem_range] at hi
    rw [List.getD_append _ _ _ _ hi]
  · congr 1
    refine List.filter_congr fun i _ => ?_
    simp only [Function.comp]
    rw [List.getD_append_right _ _ _ _ (by omega), Nat.add_sub_cancel_left]

theorem rIndex_none (A : List (String × VT)) (m : String) (h : ∀ r ∈ A, r.1 ≠ m ∨ ¬ isXO r.2) : rIndex A m = [] := by
  unfold rIndex
  rw [List.filter_eq_nil_iff]
  intro i hi
  rw [List.mem_range] at hi
  rw [List.getD_eq_getElem _ _ hi]
  have := h _ (List.getElem_mem hi)
  simp only [decide_eq_true_eq]
  rintro ⟨h1, h2⟩
  rcases this with h3 | h3
  · exact h3 h1
  · exact h3 h2

theorem rIndex_all (B : List (String × VT)) (m : String) (h : ∀ r ∈ B, r.1 = m ∧ isXO r.2) : rIndex B m = List.range B.length := by
  unfold rIndex
  rw [List.filter_eq_self]
  intro i hi
  rw [List.mem_range] at hi
  rw [List.getD_eq_getElem _ _ hi]
  have := h _ (List.getElem_mem hi)
  unfold isXO at this
  simpa using this

theorem setWx_block (P Q R : List (String × VT)) :
    setWx (P ++ Q ++ R) (List.range' P.length Q.length) = P ++ Q.map (fun r => (r.1, .wx)) ++ R := by
  unfold setWx
  apply List.ext_getElem
  · simp
  · intro i h1 h2
    rw [List.getElem_mapIdx]
    by_cases hp : i < P.length
    · rw [if_neg (by rw [List.mem_range'_1]; omega)]
      simp [List.getElem_append, hp]
    · by_cases hq : i < P.length + Q.length
      · rw [if_pos (by rw [List.mem_range'_1]; omega)]
        have : i - P.length < Q.length := by omega
        simp [List.getElem_append, hp, this, hq]
      · rw [if_neg (by rw [List.mem_range'_1]; omega)]
        have : ¬ i - P.length < Q.length := by omega
        simp [List.getElem_append, hp, this, hq]

/-- Types of a block after its last `n` have been labelled (all if `n` is 0). -/
def lab (n : ℕ) (b : List VT) : List VT :=
  if n = 0 then b.map fun _ => .wx else b.take (b.length - n) ++ (b.drop (b.length - n)).map fun _ => .wx

theorem label_block (A C : List (String × VT)) (b : List VT) (m : String) (n : ℕ) (hA : ∀ r ∈ A, r.1 ≠ m ∨ ¬ isXO r.2)
    (hC : ∀ r ∈ C, r.1 ≠ m ∨ ¬ isXO r.2) (hb : ∀ t ∈ b, isXO t) :
    (rIndex (A ++ b.map (fun t => (m, t)) ++ C) m).length = b.length ∧
    setWx (A ++ b.map (fun t => (m, t)) ++ C) (lastN n (rIndex (A ++ b.map (fun t => (m, t)) ++ C) m)) =
      A ++ (lab n b).map (fun t => (m, t)) ++ C := by
  have hr : rIndex (A ++ b.map (fun t => (m, t)) ++ C) m = List.range' A.length b.length := by
    rw [rIndex_append, rIndex_append, rIndex_none A m hA, rIndex_none C m hC, rIndex_all]
    · simp [List.range'_eq_map_range]
    · intro r hr
      obtain ⟨t, ht, rfl⟩ := List.mem_map.1 hr
      exact ⟨rfl, hb t ht⟩
  refine ⟨by rw [hr, List.length_range'], ?_⟩
  rw [hr]
  unfold lastN lab
  by_cases hn : n = 0
  · rw [if_pos hn, if_pos hn]
    have := setWx_block A (b.map (fun t => (m, t))) C
    rw [List.length_map] at this
    rw [this, List.map_map, List.map_map]
    rfl
  · rw [if_neg hn, if_neg hn, List.length_range', List.drop_range']
    have e : b.map (fun t => (m, t)) = (b.take (b.length - n)).map (fun t => (m, t)) ++ (b.drop (b.length - n)).map (fun t => (m, t)) := by
      rw [← List.map_append, List.take_append_drop]
    rw [e]
    have := setWx_block (A ++ (b.take (b.length - n)).map (fun t => (m, t))) ((b.drop (b.length - n)).map (fun t => (m, t))) C
    have hl1 : (A ++ (b.take (b.length - n)).map (fun t => (m, t))).length = A.length + (b.length - n) := by simp
    have hl2 : ((b.drop (b.length - n)).map (fun t => (m, t))).length = b.length - (b.length - n) := by simp
    rw [hl1, hl2] at this
    rw [← List.append_assoc, mul_one, this, List.map_append, List.map_map, List.map_map, List.append_assoc A]
    rfl

theorem foldl_label (F : ℕ → ℕ) (b : List VT) (hb : ∀ t ∈ b, isXO t) (G : List (String × VT)) : ∀ (ms : List String)
    (pre : List (String × VT)), ms.Nodup → (∀ r ∈ pre, r.1 ∉ ms) → (∀ m ∈ ms, ∀ r ∈ G, r.1 ≠ m ∨ ¬ isXO r.2) →
    ms.foldl (fun rows m => setWx rows (lastN (F (rIndex rows m).length) (rIndex rows m)))
      (pre ++ ms.flatMap (fun m => b.map fun t => (m, t)) ++ G) =
      pre ++ ms.flatMap (fun m => (lab (F b.length) b).map fun t => (m, t)) ++ G := by
  intro ms
  induction ms with
  | nil => intros; rfl
  | cons m ms ih =>
    intro pre hnd hpre hG
    rw [List.nodup_cons] at hnd
    rw [List.foldl_cons, List.flatMap_cons]
    have e1 : pre ++ (b.map (fun t => (m, t)) ++ ms.flatMap fun m => b.map fun t => (m, t)) ++ G =
        pre ++ b.map (fun t => (m, t)) ++ (ms.flatMap (fun m => b.map fun t => (m, t)) ++ G) := by simp
    have hC : ∀ r ∈ ms.flatMap (fun m => b.map fun t => (m, t)) ++ G, r.1 ≠ m ∨ ¬ isXO r.2 := by
      intro r hr
      rcases List.mem_append.1 hr with hr | hr
      · obtain ⟨m', hm', hr⟩ := List.mem_flatMap.1 hr
        obtain ⟨t, -, rfl⟩ := List.mem_map.1 hr
        left
        rintro rfl
        exact hnd.1 hm'
      · exact hG m List.mem_cons_self r hr
    have hA : ∀ r ∈ pre, r.1 ≠ m ∨ ¬ isXO r.2 := fun r hr => Or.inl fun e => hpre r hr (e ▸ List.mem_cons_self)
    obtain ⟨h1, h2⟩ := label_block pre _ b m (F b.length) hA hC hb
    rw [e1, h1, h2]
    have e2 : pre ++ (lab (F b.length) b).map (fun t => (m, t)) ++ (ms.flatMap (fun m => b.map fun t => (m, t)) ++ G) =
        (pre ++ (lab (F b.length) b).map (fun t => (m, t))) ++ ms.flatMap (fun m => b.map fun t => (m, t)) ++ G := by simp
    rw [e2, ih _ hnd.2 _ fun m' hm' => hG m' (List.mem_cons_of_mem _ hm'), List.flatMap_cons]
    · simp
    · intro r hr
      rcases List.mem_append.1 hr with hr | hr
      · exact fun h => hpre r hr (List.mem_cons_of_mem _ h)
      · obtain ⟨t, -, rfl⟩ := List.mem_map.1 hr
        exact hnd.1

theorem lagRows_eq {L : Type} (str : L → String) (rs : List L) (mask : List Bool) (endo : List (String × VT)) (hm : mask ≠ []) :
    lagRows str rs mask endo = (rs.map str).flatMap (fun m => (select mask true (VT.o :: List.replicate (mask.length - 1) VT.x)).map fun t => (m, t)) ++
      ((select mask false (VT.o :: List.replicate (mask.length - 1) VT.x)).map (fun t => ("_Global", t)) ++ (endo ++ [("_Global", .rho)])) := by
  unfold lagRows
  simp only [setNameXRegimes]
  have hpos := List.length_pos_iff.2 hm
  have hlt : mask.length = (VT.o :: List.replicate (mask.length - 1) VT.x).length := by simp; omega
  have hln : mask.length = (List.replicate mask.length "").length := by simp
  generalize VT.o :: List.replicate (mask.length - 1) VT.x = types at hlt
  generalize List.replicate mask.length "" = nms at hln
  have e1 : (select mask true nms).length = (select mask true types).length := by rw [length_select _ _ _ hln, length_select _ _ _ hlt]
  have e2 : (select mask false nms).length = (select mask false types).length := by rw [length_select _ _ _ hln, length_select _ _ _ hlt]
  have hz : ∀ (l : List String) (t : List VT) (a : String), l.length = t.length → (l.map fun _ => a).zip t = t.map fun t => (a, t) := by
    intro l
    induction l with
    | nil => intro t a h; cases t with
      | nil => rfl
      | cons => simp at h
    | cons x l ih => intro t a h; cases t with
      | nil => simp at h
      | cons y t => rw [List.map_cons, List.zip_cons_cons, ih t a (by simpa using h), List.map_cons]
  rw [List.zip_append, ← List.append_assoc _ _ (endo ++ _), hz _ _ _ e2]
  · congr 2
    induction rs with
    | nil => rfl
    | cons r rs ih =>
      rw [List.flatMap_cons, List.flatMap_cons, List.map_cons, List.flatMap_cons, List.zip_append (by simp [e1]), ih, hz _ _ _ e1]
  · induction rs with
    | nil => rfl
    | cons r rs ih => simp only [List.flatMap_cons, List.length_append, List.length_map, ih, e1]

theorem select_replicate {α : Type} (b : Bool) (a : α) : ∀ m : List Bool,
    select m b (List.replicate m.length a) = List.replicate (m.filter (· = b)).length a
  | [] => rfl
  | c :: m => by
    have ih := select_replicate b a m
    unfold select at ih ⊢
    rw [List.length_cons, List.replicate_succ, List.zip_cons_cons, List.filter_cons, List.filter_cons]
    by_cases h : c = b
    · subst h
      simp only [beq_self_eq_true, if_true, List.map_cons, decide_true, ih]
      rfl
    · simp only [beq_eq_false_iff_ne.2 h, Bool.false_eq_true, if_false, decide_eq_false h, ih]

/-- The wanted types of the variables with flag `b`. -/
theorem wantedTypes (b : Bool) (many : Bool) (fx fw : List Bool) :
    ((List.range (many :: (fx ++ fw)).length).filter fun v => (many :: (fx ++ fw))[v]? = some b).map (typeOf fx.length) =
      select (many :: fx) b (VT.o :: List.replicate fx.length VT.x) ++ List.replicate (fw.filter (· = b)).length VT.wx := by
  rw [← select_replicate, ← select_append _ _ _ _ _ (by simp), select_eq b .o _ _ (by simp)]
  rw [List.cons_append]
  refine List.map_congr_left fun v hv => ?_
  have hv' := List.mem_range.1 (List.mem_filter.1 hv).1
  unfold typeOf
  cases v with
  | zero => simp
  | succ v =>
    rw [if_neg (by omega), List.getD_cons_succ]
    by_cases h : v < fx.length
    · rw [if_pos (by omega), List.getD_append _ _ _ _ (by simpa using h), List.getD_replicate _ h]
    · rw [if_neg (by omega), List.getD_append_right _ _ _ _ (by simpa using h), List.getD_replicate]
      simp at hv' ⊢
      omega

theorem wanted_eq {L : Type} (str : L → String) (rs : List L) (many : Bool) (fx fw : List Bool) (endo : List (String × VT)) :
    wanted str rs (many :: (fx ++ fw)) fx.length endo =
      (rs.map str).flatMap (fun m => (select (many :: fx) true (VT.o :: List.replicate fx.length VT.x) ++
        List.replicate (fw.filter (· = true)).length VT.wx).map fun t => (m, t)) ++
      ((select (many :: fx) false (VT.o :: List.replicate fx.length VT.x) ++
        List.replicate (fw.filter (· = false)).length VT.wx).map (fun t => ("_Global", t)) ++ (endo ++ [("_Global", .rho)])) := by
  unfold wanted expectedDesc
  rw [List.map_append, List.map_map, ← wantedTypes, ← wantedTypes, List.append_assoc]
  congr 1
  · induction rs with
    | nil => rfl
    | cons r rs ih =>
      rw [List.flatMap_cons, List.map_append, ih, List.map_cons, List.flatMap_cons, List.map_map, List.map_map]
      rfl
  · rw [List.map_map]; rfl

theorem select_types (b : Bool) (many : Bool) (fx fw : List Bool) :
    select (many :: (fx ++ fw)) b (VT.o :: List.replicate ((many :: (fx ++ fw)).length - 1) VT.x) =
      select (many :: fx) b (VT.o :: List.replicate fx.length VT.x) ++ List.replicate (fw.filter (· = b)).length VT.x := by
  rw [← select_replicate, ← select_append _ _ _ _ _ (by simp)]
  congr 1
  rw [List.cons_append, ← List.replicate_add]
  simp

theorem mem_select_xo (b : Bool) (m : List Bool) (n : ℕ) : ∀ t ∈ select m b (VT.o :: List.replicate n VT.x), isXO t := by
  intro t ht
  unfold select at ht
  obtain ⟨p, hp, rfl⟩ := List.mem_map.1 ht
  have := (List.of_mem_zip (List.mem_filter.1 hp).1).2
  rcases List.mem_cons.1 this with h | h
  · exact Or.inr h
  · exact Or.inl (List.mem_replicate.1 h).2

/-- C133: ML_Lag_Regimes labels as `wx` exactly the coefficients of the spatially lagged variables, varying or fixed, for every
`cols2regi`, `constant_regi` and set of lagged variables; constants are `o` and the other exogenous variables `x`. -/
theorem C133_ml {L : Type} (str : L → String) (rs : List L) (hrs : (rs.map str).Nodup) (hg : "_Global" ∉ rs.map str) (many : Bool)
    (fx fw : List Bool) :
    mlWxLabels (rs.map str) (fx ++ fw ++ [false]) fw.length (lagRows str rs (many :: (fx ++ fw)) []) =
      wanted str rs (many :: (fx ++ fw)) fx.length [] := by
  have hfix : (((fx ++ fw ++ [false]).dropLast.drop ((fx ++ fw ++ [false]).length - (fw.length + 1))).filter (· = false)).length =
      (fw.filter (· = false)).length := by
    rw [List.dropLast_concat, List.drop_left' (by simp)]
  have hcount : fw.length - (fw.filter (· = false)).length = (fw.filter (· = true)).length := by
    have h1 := List.length_eq_length_filter_add (l := fw) (fun b => decide (b = true))
    have h2 : (fun b : Bool => !decide (b = true)) = fun b => decide (b = false) := by funext b; cases b <;> rfl
    rw [h2] at h1
    omega
  unfold mlWxLabels
  simp only
  rw [hfix, hcount, lagRows_eq _ _ _ _ (by simp), wanted_eq, select_types, select_types]
  set A := select (many :: fx) true (VT.o :: List.replicate fx.length VT.x) with hA
  set GA := select (many :: fx) false (VT.o :: List.replicate fx.length VT.x)
  set kv := (fw.filter (· = true)).length
  set kf := (fw.filter (· = false)).length
  have hAxo : ∀ t ∈ A ++ List.replicate kv VT.x, isXO t := by
    intro t ht
    rcases List.mem_append.1 ht with h | h
    · exact mem_select_xo _ _ _ t h
    · exact Or.inl (List.mem_replicate.1 h).2
  have h1 : (if kv > 0 then (rs.map str).foldl (fun rows m => setWx rows (lastN kv (rIndex rows m)))
      ((rs.map str).flatMap (fun m => (A ++ List.replicate kv VT.x).map fun t => (m, t)) ++
        ((GA ++ List.replicate kf VT.x).map (fun t => ("_Global", t)) ++ ([] ++ [("_Global", VT.rho)])))
      else (rs.map str).flatMap (fun m => (A ++ List.replicate kv VT.x).map fun t => (m, t)) ++
        ((GA ++ List.replicate kf VT.x).map (fun t => ("_Global", t)) ++ ([] ++ [("_Global", VT.rho)]))) =
      (rs.map str).flatMap (fun m => (A ++ List.replicate kv VT.wx).map fun t => (m, t)) ++
        ((GA ++ List.replicate kf VT.x).map (fun t => ("_Global", t)) ++ ([] ++ [("_Global", VT.rho)])) := by
    split_ifs with hk
    · have := foldl_label (fun _ => kv) (A ++ List.replicate kv VT.x) hAxo
        ((GA ++ List.replicate kf VT.x).map (fun t => ("_Global", t)) ++ ([] ++ [("_Global", VT.rho)])) (rs.map str) [] hrs (by simp) (by
          intro m hm r hr
          left
          have : r.1 = "_Global" := by
            rcases List.mem_append.1 hr with h | h
            · obtain ⟨t, -, rfl⟩ := List.mem_map.1 h; rfl
            · simp at h; rw [h]
          rw [this]
          rintro rfl
          exact hg hm)
      simp only [List.nil_append] at this ⊢
      rw [this]
      congr 2
      funext m
      congr 1
      unfold lab
      rw [if_neg (by omega)]
      have hlen : (A ++ List.replicate kv VT.x).length - kv = A.length := by simp
      rw [hlen, List.take_left' rfl, List.drop_left' rfl, List.map_replicate]
    · have : kv = 0 := by omega
      rw [this]
      rfl
  rw [h1]
  by_cases hkf : kf > 0
  · rw [if_pos hkf]
    set P := (rs.map str).flatMap (fun m => (A ++ List.replicate kv VT.wx).map fun t => (m, t)) ++ GA.map (fun t => ("_Global", t)) with hP
    have e1 : (rs.map str).flatMap (fun m => (A ++ List.replicate kv VT.wx).map fun t => (m, t)) ++
        ((GA ++ List.replicate kf VT.x).map (fun t => ("_Global", t)) ++ ([] ++ [("_Global", VT.rho)])) =
        P ++ (List.replicate kf VT.x).map (fun t => ("_Global", t)) ++ [("_Global", VT.rho)] := by
      rw [hP, List.map_append]; simp only [List.append_assoc, List.nil_append]
    rw [e1]
    have hl : (P ++ (List.replicate kf VT.x).map (fun t => ("_Global", t)) ++ [("_Global", VT.rho)]).length - (kf + 1) = P.length := by
      simp only [List.length_append, List.length_map, List.length_replicate, List.length_singleton]; omega
    have h2 := setWx_block P ((List.replicate kf VT.x).map (fun t => ("_Global", t))) [("_Global", VT.rho)]
    rw [List.length_map, List.length_replicate] at h2
    rw [hl, h2, hP]
    simp only [List.map_append, List.append_assoc, List.nil_append, List.map_replicate]
  · rw [if_neg hkf]
    have : kf = 0 := by omega
    rw [this]
    rfl

/-- A case with a varying and a fixed lag. -/
example : mlWxLabels (["a", "b"].map id) ([true, false] ++ [true, false] ++ [false]) 2 (lagRows id ["a", "b"] (true :: ([true, false] ++ [true, false])) []) =
    [("a", .o), ("a", .x), ("a", .wx), ("b", .o), ("b", .x), ("b", .wx), ("_Global", .x), ("_Global", .wx), ("_Global", .rho)] := by
  decide +kernel

theorem lab_eq_iff (A : List VT) (hA : ∀ t ∈ A, isXO t) (kv n : ℕ) (hn : n ≤ A.length + kv) :
    lab n (A ++ List.replicate kv VT.x) = A ++ List.replicate kv VT.wx ↔
      if n = 0 then A = [] else n = kv := by
  unfold lab
  by_cases h0 : n = 0
  · rw [if_pos h0, if_pos h0, List.map_append, List.map_replicate]
    constructor
    · intro h
      have h := (List.append_inj' h rfl).1
      rcases A with _ | ⟨t, A⟩
      · rfl
      · rw [List.map_cons, List.cons.injEq] at h
        rcases hA t List.mem_cons_self with h1 | h1 <;> rw [h1] at h <;> simp at h
    · rintro rfl; rfl
  · rw [if_neg h0, if_neg h0]
    have hl : (A ++ List.replicate kv VT.x).length = A.length + kv := by simp
    rw [hl]
    constructor
    · intro h
      -- position A.length + kv - n is the first labelled
      have hc := congrArg (fun l => (l.filter (· = VT.wx)).length) h
      have f1 : ∀ l : List VT, (∀ t ∈ l, isXO t) → l.filter (· = VT.wx) = [] := by
        intro l hl
        rw [List.filter_eq_nil_iff]
        intro t ht
        rcases hl t ht with h | h <;> rw [h] <;> decide
      have hall : ∀ t ∈ A ++ List.replicate kv VT.x, isXO t := by
        intro t ht
        rcases List.mem_append.1 ht with h | h
        · exact hA t h
        · exact Or.inl (List.mem_replicate.1 h).2
      have f2 : ∀ k : ℕ, (List.replicate k VT.wx).filter (· = VT.wx) = List.replicate k VT.wx := by
        intro k; rw [List.filter_eq_self]; intro t ht; rw [(List.mem_replicate.1 ht).2]; rfl
      have f3 : ∀ l : List VT, l.map (fun _ => VT.wx) = List.replicate l.length VT.wx := by
        intro l; exact List.map_const' ..
      simp only [List.filter_append] at hc
      rw [f1 _ (fun t ht => hall t (List.mem_of_mem_take ht)), f3, f2, f1 A hA, f2, List.nil_append, List.nil_append,
        List.length_replicate, List.length_replicate, List.length_drop, hl] at hc
      omega
    · rintro rfl
      have : A.length + n - n = A.length := by omega
      rw [this, List.take_left' rfl, List.drop_left' rfl, List.map_replicate]

theorem flatMap_block_inj (b b' : List VT) (hl : b.length = b'.length) (C C' : List (String × VT)) (ms : List String) (hm : ms ≠ []) :
    ms.flatMap (fun m => b.map fun t => (m, t)) ++ C = ms.flatMap (fun m => b'.map fun t => (m, t)) ++ C' ↔ b = b' ∧ C = C' := by
  constructor
  · intro h
    have hlen : (ms.flatMap (fun m => b.map fun t => (m, t))).length = (ms.flatMap (fun m => b'.map fun t => (m, t))).length := by
      simp [List.length_flatMap, hl]
    obtain ⟨h1, h2⟩ := List.append_inj h hlen
    refine ⟨?_, h2⟩
    rcases ms with _ | ⟨m, ms⟩
    · exact absurd rfl hm
    · rw [List.flatMap_cons, List.flatMap_cons] at h1
      have h3 := (List.append_inj h1 (by simp [hl])).1
      exact List.map_injective_iff.2 (fun a b h => (Prod.mk.inj h).2) h3
  · rintro ⟨rfl, rfl⟩; rfl

/-- C133: when GM_Lag_Regimes labels the lagged variables right. With `A` constants and exogenous variables that vary over regimes,
`kv` lagged variables that vary and `kf` that do not, exactly if no lagged variable is fixed and the number that the code computes from
the size of a block is the number of lagged variables. -/
theorem C133_gm_partial {L : Type} (str : L → String) (rs : List L) (hrs : (rs.map str).Nodup) (hg : "_Global" ∉ rs.map str) (hne : rs ≠ [])
    (many : Bool) (fx fw : List Bool) (hfw : fw ≠ []) (endo : List (String × VT)) (hendo : ∀ r ∈ endo, r.2 = .yend) (slx : ℕ) :
    gmWxLabels (rs.map str) slx (lagRows str rs (many :: (fx ++ fw)) endo) = wanted str rs (many :: (fx ++ fw)) fx.length endo ↔
      (∀ b ∈ fw, b = true) ∧
        let a := ((many :: fx).filter (· = true)).length
        let n := (a + fw.length - 1) / (slx + 1) * slx
        if n = 0 then a = 0 else n = fw.length := by
  rw [lagRows_eq _ _ _ _ (by simp), wanted_eq, select_types, select_types]
  have hlA : (select (many :: fx) true (VT.o :: List.replicate fx.length VT.x)).length = ((many :: fx).filter (· = true)).length := by
    rw [length_select _ _ _ (by simp)]
  have hAxo0 : ∀ t ∈ select (many :: fx) true (VT.o :: List.replicate fx.length VT.x), isXO t := mem_select_xo _ _ _
  have hGxo0 : ∀ t ∈ select (many :: fx) false (VT.o :: List.replicate fx.length VT.x), isXO t := mem_select_xo _ _ _
  generalize select (many :: fx) true (VT.o :: List.replicate fx.length VT.x) = A at *
  generalize select (many :: fx) false (VT.o :: List.replicate fx.length VT.x) = GA at *
  have hAxo : ∀ t ∈ A ++ List.replicate (fw.filter (· = true)).length VT.x, isXO t := by
    intro t ht
    rcases List.mem_append.1 ht with h | h
    · exact hAxo0 t h
    · exact Or.inl (List.mem_replicate.1 h).2
  unfold gmWxLabels
  have := foldl_label (fun n => (n - 1) / (slx + 1) * slx) _ hAxo
      ((GA ++ List.replicate (fw.filter (· = false)).length VT.x).map (fun t => ("_Global", t)) ++ (endo ++ [("_Global", VT.rho)]))
      (rs.map str) [] hrs (by simp) (by
        intro m hm r hr
        rcases List.mem_append.1 hr with h | h
        · left
          obtain ⟨t, -, rfl⟩ := List.mem_map.1 h
          rintro rfl
          exact hg hm
        · right
          rcases List.mem_append.1 h with h | h
          · rw [hendo r h]; unfold isXO; decide
          · simp at h; rw [h]; unfold isXO; decide)
  simp only [List.nil_append] at this
  rw [this, flatMap_block_inj _ _ ?_ _ _ _ (by simpa using hne), List.append_left_inj]
  · have hinj : (GA ++ List.replicate (fw.filter (· = false)).length VT.x).map (fun t => ("_Global", t)) =
        (GA ++ List.replicate (fw.filter (· = false)).length VT.wx).map (fun t => ("_Global", t)) ↔ ∀ b ∈ fw, b = true := by
      have hk : (∀ b ∈ fw, b = true) ↔ (fw.filter (· = false)).length = 0 := by
        rw [List.length_eq_zero_iff, List.filter_eq_nil_iff]
        simp
      rw [hk]
      constructor
      · intro h
        have h := List.map_injective_iff.2 (fun a b (h : (("_Global" : String), a) = ("_Global", b)) => (Prod.mk.inj h).2) h
        have h := List.append_cancel_left h
        by_contra h0
        obtain ⟨k, hk⟩ := Nat.exists_eq_succ_of_ne_zero h0
        rw [hk, List.replicate_succ, List.replicate_succ] at h
        simp at h
      · intro h; rw [h]; rfl
    rw [hinj, and_comm]
    refine and_congr_right fun hall => ?_
    have hfl : fw.filter (· = true) = fw := by
      rw [List.filter_eq_self]; intro b hb; simpa using hall b hb
    rw [hfl]
    have hpos := List.length_pos_iff.2 hfw
    rw [lab_eq_iff _ hAxo0]
    · simp only [List.length_append, List.length_replicate, hlA]
      rw [← List.length_eq_zero_iff, hlA]
    · simp only [List.length_append, List.length_replicate]
      have := Nat.div_mul_le_self (A.length + fw.length - 1) (slx + 1)
      have h2 : (A.length + fw.length - 1) / (slx + 1) * slx ≤ (A.length + fw.length - 1) / (slx + 1) * (slx + 1) :=
        Nat.mul_le_mul_left _ (Nat.le_succ _)
      omega
  · unfold lab
    split_ifs <;> simp

/-- C133: with everything varying (`cols2regi='all'`, the default) and a constant in every regime, `slx` lags of `j` of `kx` variables
are labelled right exactly if at most `slx` variables are not lagged: with `slx_vars` a mask and `slx_lags=1`, two left out suffice
for wrong labels. -/
theorem C133_gm_all_partial {L : Type} (str : L → String) (rs : List L) (hrs : (rs.map str).Nodup) (hg : "_Global" ∉ rs.map str) (hne : rs ≠ [])
    (endo : List (String × VT)) (hendo : ∀ r ∈ endo, r.2 = .yend) (kx slx j : ℕ) (hs : 0 < slx) (hj : 0 < j) (hjk : j ≤ kx) :
    gmWxLabels (rs.map str) slx (lagRows str rs (true :: (List.replicate kx true ++ List.replicate (slx * j) true)) endo) =
      wanted str rs (true :: (List.replicate kx true ++ List.replicate (slx * j) true)) kx endo ↔ kx - j ≤ slx := by
  have hp : 0 < slx * j := Nat.mul_pos hs hj
  have := C133_gm_partial str rs hrs hg hne true (List.replicate kx true) (List.replicate (slx * j) true)
    (by intro h; have := congrArg List.length h; simp at this; omega) endo hendo slx
  rw [List.length_replicate] at this
  rw [this]
  simp only [List.length_replicate, List.mem_replicate]
  have hcnt : ((true :: List.replicate kx true).filter (· = true)).length = kx + 1 := by simp
  rw [hcnt]
  have e : kx + 1 + slx * j - 1 = j * (slx + 1) + (kx - j) := by
    rw [Nat.mul_succ, Nat.mul_comm j slx]; omega
  rw [e]
  have hq : j * (slx + 1) + (kx - j) = (slx + 1) * j + (kx - j) := by rw [Nat.mul_comm]
  constructor
  · rintro ⟨-, h⟩
    split_ifs at h with h0
    have h2 : (j * (slx + 1) + (kx - j)) / (slx + 1) = j := by
      have : (j * (slx + 1) + (kx - j)) / (slx + 1) * slx = j * slx := by rw [h, Nat.mul_comm]
      exact Nat.eq_of_mul_eq_mul_right hs this
    by_contra hc
    have : j + 1 ≤ (j * (slx + 1) + (kx - j)) / (slx + 1) := by
      rw [Nat.le_div_iff_mul_le (Nat.succ_pos _)]
      show (j + 1) * (slx + 1) ≤ _
      rw [Nat.add_mul, Nat.one_mul]
      omega
    omega
  · intro h
    have h2 : (j * (slx + 1) + (kx - j)) / (slx + 1) = j := by
      rw [hq, Nat.mul_add_div (Nat.succ_pos _), Nat.div_eq_of_lt (by omega), Nat.add_zero]
    refine ⟨fun b h => h.2, ?_⟩
    rw [h2, Nat.mul_comm, if_neg (by omega)]

/-- C133: with one constant for all regimes and all variables lagged, GM_Lag_Regimes never labels right. -/
theorem C133_gm_one_violated {L : Type} (str : L → String) (rs : List L) (hrs : (rs.map str).Nodup) (hg : "_Global" ∉ rs.map str) (hne : rs ≠ [])
    (endo : List (String × VT)) (hendo : ∀ r ∈ endo, r.2 = .yend) (kx slx : ℕ) (hs : 0 < slx) (hk : 0 < kx) :
    gmWxLabels (rs.map str) slx (lagRows str rs (false :: (List.replicate kx true ++ List.replicate (slx * kx) true)) endo) ≠
      wanted str rs (false :: (List.replicate kx true ++ List.replicate (slx * kx) true)) kx endo := by
  have hp : 0 < slx * kx := Nat.mul_pos hs hk
  have := C133_gm_partial str rs hrs hg hne false (List.replicate kx true) (List.replicate (slx * kx) true)
    (by intro h; have := congrArg List.length h; simp at this; omega) endo hendo slx
  rw [List.length_replicate] at this
  rw [Ne, this]
  simp only [List.length_replicate]
  have hcnt : ((false :: List.replicate kx true).filter (· = true)).length = kx := by simp
  rw [hcnt]
  rintro ⟨-, h⟩
  split_ifs at h with h0
  · omega
  · have h2 : (kx + slx * kx - 1) / (slx + 1) = kx := by
      have : (kx + slx * kx - 1) / (slx + 1) * slx = kx * slx := by rw [h, Nat.mul_comm]
      exact Nat.eq_of_mul_eq_mul_right hs this
    have h3 : (kx + slx * kx - 1) / (slx + 1) < kx := by
      rw [Nat.div_lt_iff_lt_mul (Nat.succ_pos _), Nat.mul_succ, Nat.mul_comm kx slx]; omega
    omega

/-- The smallest case, one regressor and its lag: the regressor itself becomes `wx`, and no impacts are reported for it. -/
example : gmWxLabels (["a", "b"].map id) 1 (lagRows id ["a", "b"] (false :: ([true] ++ [true])) []) =
    [("a", .wx), ("a", .wx), ("b", .wx), ("b", .wx), ("_Global", .o), ("_Global", .rho)] := by
  decide +kernel

/-- Three regressors, one of them lagged. -/
example : gmWxLabels (["a", "b"].map id) 1 (lagRows id ["a", "b"] (true :: ([true, true, true] ++ [true])) [("_Global", .yend)]) =
    [("a", .o), ("a", .x), ("a", .x), ("a", .wx), ("a", .wx), ("b", .o), ("b", .x), ("b", .x), ("b", .wx), ("b", .wx),
      ("_Global", .yend), ("_Global", .rho)] := by
  decide +kernel

/-! ### C134 -/

theorem betasAt_ok {V : Type} (betas : List V) (idx : List ℕ) (vs : List V) (h : List.Forall₂ (fun i v => betas[i]? = some v) idx vs) :
    betasAt betas idx = .ok vs := by
  unfold betasAt
  rw [mapM_ok]
  refine h.imp fun i v h => ?_
  unfold at?
  rw [h]

theorem impactIndex_append (A B : List (String × VT)) (p : ℕ → Bool) :
    impactIndex (A ++ B) p = impactIndex A p ++ (impactIndex B fun i => p (A.length + i)).map (A.length + ·) := by
  unfold impactIndex
  rw [List.length_append, List.range_add, List.filter_append, List.filter_map]
  congr 1
  · refine List.filter_congr fun i hi => ?_
    rw [List.mem_range] at hi
    rw [List.getD_append _ _ _ _ hi]
  · congr 1
    refine List.filter_congr fun i _ => ?_
    simp only [Function.comp]
    rw [List.getD_append_right _ _ _ _ (by omega), Nat.add_sub_cancel_left]

theorem impactIndex_none (A : List (String × VT)) (p : ℕ → Bool) (h : ∀ r ∈ A, r.2 ≠ .x) : impactIndex A p = [] := by
  unfold impactIndex
  rw [List.filter_eq_nil_iff]
  intro i hi
  rw [List.mem_range] at hi
  rw [List.getD_eq_getElem _ _ hi]
  have := h _ (List.getElem_mem hi)
  simp [this]

theorem impactIndex_all (A : List (String × VT)) (p : ℕ → Bool) (h : ∀ r ∈ A, r.2 = .x) (hp : ∀ i < A.length, p i = false) :
    impactIndex A p = List.range A.length := by
  unfold impactIndex
  rw [List.filter_eq_self]
  intro i hi
  rw [List.mem_range] at hi
  rw [List.getD_eq_getElem _ _ hi]
  have := h _ (List.getElem_mem hi)
  simp [this, hp i hi]

/-- Values of one table and coefficients of the blocks of regimes. `blk` are the types of a block: `c` of another type, `kx` of type x,
and others. -/
theorem blocks_lookup {L V : Type} (str : L → String) (cs : List VT) (hcs : ∀ t ∈ cs, t ≠ .x) (ds : List VT) (hds : ∀ t ∈ ds, t ≠ .x)
    (kx : ℕ) (coef : L → List V) (p : ℕ → Bool) (d : ℕ) (hd : d ≤ ds.length) (post : List V) :
    ∀ (rs : List L) (pre : List V), (∀ r ∈ rs, (coef r).length = cs.length + kx + ds.length) →
      (∀ i, p i = false) →
      List.Forall₂ (fun i v => (pre ++ (rs.flatMap coef ++ post))[i + d]? = some v)
        ((impactIndex ((rs.map str).flatMap fun m => (cs ++ List.replicate kx VT.x ++ ds).map fun t => (m, t)) p).map (pre.length + ·))
        (rs.flatMap fun r => ((coef r).drop (cs.length + d)).take kx) := by
  intro rs
  induction rs generalizing p with
  | nil => intro pre _ _; exact .nil
  | cons r rs ih =>
    intro pre hl hp
    rw [List.map_cons, List.flatMap_cons, List.flatMap_cons, impactIndex_append, List.map_append, List.flatMap_cons]
    have hr := hl r List.mem_cons_self
    refine List.rel_append ?_ ?_
    · rw [List.map_append, List.map_append, impactIndex_append, impactIndex_append, impactIndex_none (cs.map _) _ (by simpa using hcs),
        impactIndex_none (ds.map _) _ (by simpa using hds), impactIndex_all ((List.replicate kx VT.x).map _) _ (by simp) (by simp [hp])]
      simp only [List.length_map, List.length_replicate, List.nil_append, List.map_nil, List.append_nil, List.map_map]
      rw [List.forall₂_iff_get]
      refine ⟨by rw [List.length_map, List.length_range, List.length_take, List.length_drop, hr]; omega, ?_⟩
      intro i h1 h2
      simp only [List.get_eq_getElem, List.getElem_map, List.getElem_range, Function.comp, List.getElem_take, List.getElem_drop]
      simp only [List.length_map, List.length_range] at h1
      rw [List.getElem?_append_right (by omega), List.append_assoc, List.getElem?_append_left (by omega)]
      have e : pre.length + (cs.length + i) + d - pre.length = cs.length + d + i := by omega
      rw [e, List.getElem?_eq_getElem]
    · have := ih (fun i => p (((cs ++ List.replicate kx VT.x ++ ds).map fun t => (str r, t)).length + i)) (pre ++ coef r)
        (fun r' h' => hl r' (List.mem_cons_of_mem _ h')) (fun i => hp _)
      rw [List.append_assoc] at this
      have e : (coef r ++ rs.flatMap coef) ++ post = coef r ++ (rs.flatMap coef ++ post) := by simp
      rw [e, List.map_map]
      convert this using 2
      · funext i
        simp [hr]
        omega

theorem filter_positions {α : Type} (d : α) (P : α → Bool) (l : List α) :
    ((List.range l.length).filter fun i => P (l.getD i d)).length = (l.filter P).length := by
  have h : l = (List.range l.length).map (fun i => l.getD i d) := by
    apply List.ext_getElem
    · simp
    · intro i h1 h2
      rw [List.getElem_map, List.getElem_range, List.getD_eq_getElem _ _ h1]
  conv_rhs => rw [h, List.filter_map, List.length_map]
  rfl

theorem foldTotal {A V : Type} [CommSemiring V] (m1 : V) (flat : List A) (c0 : A → V) (c : A → ℕ → V) (f : ℕ → Py (List V)) :
    ∀ n, (∀ i < n, f i = .ok (flat.map fun a => c a i)) →
    (List.range n).foldlM (fun btot i => do
      let bw ← f i
      (.ok (List.zipWith (· + ·) btot (bw.map (m1 * ·))) : Py (List V))) ((flat.map c0).map (m1 * ·)) =
      .ok (flat.map fun a => m1 * (c0 a + ∑ i ∈ Finset.range n, c a i)) := by
  intro n
  induction n with
  | zero => intro _; rw [List.map_map]; simp [pure, Except.pure, Function.comp_def]
  | succ n ih =>
    intro h
    rw [List.range_succ, List.foldlM_append, ih fun i hi => h i (by omega)]
    show (do
      let bw ← f n
      (.ok (List.zipWith (· + ·) (flat.map fun a => m1 * (c0 a + ∑ i ∈ Finset.range n, c a i)) (bw.map (m1 * ·))) : Py (List V))) >>=
        pure = _
    rw [h n (by omega)]
    show Except.ok _ = _
    congr 1
    rw [List.map_map, List.zipWith_map, List.zipWith_self]
    refine List.map_congr_left fun a _ => ?_
    simp only [Function.comp]
    rw [Finset.sum_range_succ]
    ring

theorem mask_true (many : Bool) (K : ℕ) :
    ((List.range (many :: List.replicate K true).length).filter fun v => (many :: List.replicate K true)[v]? = some true) =
      (if many then [0] else []) ++ List.range' 1 K := by
  rw [List.length_cons, List.length_replicate, List.range_succ_eq_map, List.filter_cons, List.filter_map]
  have : (List.range K).filter ((fun v => decide ((many :: List.replicate K true)[v]? = some true)) ∘ Nat.succ) = List.range K := by
    rw [List.filter_eq_self]
    intro i hi
    rw [List.mem_range] at hi
    simp [hi]
  rw [this, List.range'_eq_map_range]
  have e : (fun x => 1 + x) = Nat.succ := by funext x; simp [Nat.succ_eq_add_one, Nat.add_comm]
  rw [e]
  cases many <;> simp

/-- C134: total impacts with regimes, when every regressor varies over regimes and all are lagged `slx` times. `coef r v` is the
coefficient in regime `r` of the variable at position `v`: 0 the constant, 1 to `kx` the regressors, `kx·i + v` the lag of order `i` of
`v`. Each total is the multiplier times the sum of the coefficients of that variable in that regime, direct and lagged. -/
theorem C134_totals_partial {L V : Type} [CommSemiring V] (str : L → String) (rs : List L) (hrs : (rs.map str).Nodup) (hg : "_Global" ∉ rs.map str)
    (hne : rs ≠ []) (many : Bool) (kx slx : ℕ) (hk : 0 < kx) (endo : List (String × VT)) (hendo : ∀ r ∈ endo, r.2 = .yend)
    (coef : Option L → ℕ → V) (post : List V) (m1 : V) :
    regimeTotal m1 (wanted str rs (many :: List.replicate (kx + slx * kx) true) kx endo) (fun _ => false)
      ((expectedDesc rs (many :: List.replicate (kx + slx * kx) true)).map (fun d => coef d.1 d.2) ++ post) slx =
      .ok (rs.flatMap fun r => (List.range kx).map fun v =>
        m1 * (coef (some r) (v + 1) + ∑ i ∈ Finset.range slx, coef (some r) (kx * (i + 1) + (v + 1)))) := by
  set cs : List VT := if many then [.o] else [] with hcs
  set gs : List VT := if many then [] else [.o] with hgs
  have hcx : ∀ t ∈ cs, t ≠ .x := by rw [hcs]; cases many <;> simp
  have hgx : ∀ t ∈ gs, t ≠ .x := by rw [hgs]; cases many <;> simp
  have hK : List.replicate (kx + slx * kx) true = List.replicate kx true ++ List.replicate (slx * kx) true := List.replicate_add ..
  have hsel : ∀ n, select (List.replicate n true) true (List.replicate n VT.x) = List.replicate n VT.x := by
    intro n
    have := select_replicate true VT.x (List.replicate n true)
    rw [List.length_replicate] at this
    rw [this]
    simp
  have hsel' : ∀ n, select (List.replicate n true) false (List.replicate n VT.x) = [] := by
    intro n
    have := select_replicate false VT.x (List.replicate n true)
    rw [List.length_replicate] at this
    rw [this]
    simp
  have hrows : wanted str rs (many :: List.replicate (kx + slx * kx) true) kx endo =
      (rs.map str).flatMap (fun m => (cs ++ List.replicate kx VT.x ++ List.replicate (slx * kx) VT.wx).map fun t => (m, t)) ++
        (gs.map (fun t => ("_Global", t)) ++ (endo ++ [("_Global", .rho)])) := by
    have := wanted_eq str rs many (List.replicate kx true) (List.replicate (slx * kx) true) endo
    rw [List.length_replicate] at this
    rw [hK, this]
    have h1 := select_append true [many] (List.replicate kx true) [VT.o] (List.replicate kx VT.x) rfl
    have h2 := select_append false [many] (List.replicate kx true) [VT.o] (List.replicate kx VT.x) rfl
    rw [hsel, List.singleton_append, List.singleton_append] at h1
    rw [hsel', List.singleton_append, List.singleton_append] at h2
    rw [h1, h2]
    have h3 : select [many] true [VT.o] = cs := by rw [hcs]; cases many <;> rfl
    have h4 : select [many] false [VT.o] = gs := by rw [hgs]; cases many <;> rfl
    rw [h3, h4]
    simp
  set cl : L → List V := fun r => ((if many then [0] else []) ++ List.range' 1 (kx + slx * kx)).map (coef (some r)) with hcl
  have hcll : ∀ r, (cl r).length = cs.length + kx + (List.replicate (slx * kx) VT.wx).length := by
    intro r
    rw [hcl, hcs]
    cases many <;> simp <;> omega
  have hbetas : ∃ post', (expectedDesc rs (many :: List.replicate (kx + slx * kx) true)).map (fun d => coef d.1 d.2) ++ post =
      rs.flatMap cl ++ post' := by
    unfold expectedDesc
    rw [mask_true, List.map_append, List.map_flatMap, List.append_assoc]
    refine ⟨_, congrArg₂ _ ?_ rfl⟩
    simp only [List.map_map]
    rfl
  obtain ⟨post', hbetas⟩ := hbetas
  rw [hbetas, hrows]
  have htail : ∀ r ∈ gs.map (fun t => ("_Global", t)) ++ (endo ++ [("_Global", VT.rho)]), r.2 ≠ .x := by
    intro r hr
    rcases List.mem_append.1 hr with h | h
    · obtain ⟨t, ht, rfl⟩ := List.mem_map.1 h; exact hgx t ht
    · rcases List.mem_append.1 h with h | h
      · rw [hendo r h]; decide
      · simp at h; rw [h]; decide
  generalize gs.map (fun t => ("_Global", t)) ++ (endo ++ [("_Global", VT.rho)]) = tail at htail
  set blocks := (rs.map str).flatMap (fun m => (cs ++ List.replicate kx VT.x ++ List.replicate (slx * kx) VT.wx).map fun t => (m, t)) with hblocks
  have hvi : impactIndex (blocks ++ tail) (fun _ => false) = impactIndex blocks (fun _ => false) := by
    rw [impactIndex_append, impactIndex_none tail _ htail, List.map_nil, List.append_nil]
  have hlook : ∀ d ≤ slx * kx, betasAt (rs.flatMap cl ++ post') ((impactIndex blocks (fun _ => false)).map (· + d)) =
      .ok (rs.flatMap fun r => ((cl r).drop (cs.length + d)).take kx) := by
    intro d hd
    have := blocks_lookup str cs hcx (List.replicate (slx * kx) VT.wx)
      (by intro t ht; rw [(List.mem_replicate.1 ht).2]; decide) kx cl (fun _ => false) d (by simpa using hd) post' rs []
      (fun r _ => hcll r) (fun _ => rfl)
    refine betasAt_ok _ _ _ ?_
    rw [List.forall₂_map_left_iff]
    have hid : (fun x => ([] : List V).length + x) = id := by funext x; simp
    rw [List.nil_append, hid, List.map_id] at this
    exact this
  have hval : ∀ d ≤ slx * kx, (rs.flatMap fun r => ((cl r).drop (cs.length + d)).take kx) =
      (rs.flatMap fun r => (List.range kx).map fun v => (r, v)).map fun a => coef (some a.1) (d + (a.2 + 1)) := by
    intro d hd
    rw [List.map_flatMap]
    congr 1
    funext r
    rw [List.map_map]
    have e : (cl r).drop (cs.length + d) = (List.range' (1 + d) (kx + slx * kx - d)).map (coef (some r)) := by
      rw [hcl, hcs]
      simp only [← List.map_drop]
      congr 1
      cases many
      · simp [List.drop_range']
      · have e : [VT.o].length + d = d + 1 := by simp [Nat.add_comm]
        simp only [if_true]
        rw [e, List.singleton_append, List.drop_succ_cons, List.drop_range', Nat.mul_one]
    have e2 : (List.range' (1 + d) (kx + slx * kx - d)).take kx = List.range' (1 + d) kx := by
      apply List.ext_getElem
      · simp; omega
      · intro i h1 h2; simp
    rw [e, ← List.map_take, e2, List.range'_eq_map_range, List.map_map]
    refine List.map_congr_left fun v _ => ?_
    simp only [Function.comp]
    congr 1
    omega
  have hw : ((impactIndex (blocks ++ tail) (fun _ => false)).filter fun i =>
      ((blocks ++ tail).getD i ("", .o)).1 = ((blocks ++ tail).getD 0 ("", .o)).1).length = kx := by
    obtain ⟨r0, rs', rfl⟩ := List.exists_cons_of_ne_nil hne
    have h0 : ((blocks ++ tail).getD 0 ("", VT.o)).1 = str r0 := by
      rw [hblocks, List.map_cons, List.flatMap_cons, hcs]
      obtain ⟨k, rfl⟩ := Nat.exists_eq_succ_of_ne_zero hk.ne'
      cases many <;> simp [List.replicate_succ]
    rw [h0]
    unfold impactIndex
    rw [List.filter_filter]
    have := filter_positions ("", VT.o) (fun r => decide (r.1 = str r0) && decide (r.2 = VT.x ∧ false = false)) (blocks ++ tail)
    rw [this, List.filter_append, hblocks, List.map_cons, List.flatMap_cons, List.filter_append]
    have f1 : tail.filter (fun r => decide (r.1 = str r0) && decide (r.2 = VT.x ∧ false = false)) = [] := by
      rw [List.filter_eq_nil_iff]
      intro r hr
      simp [htail r hr]
    have f2 : ((rs'.map str).flatMap (fun m => (cs ++ List.replicate kx VT.x ++ List.replicate (slx * kx) VT.wx).map fun t => (m, t))).filter
        (fun r => decide (r.1 = str r0) && decide (r.2 = VT.x ∧ false = false)) = [] := by
      rw [List.filter_eq_nil_iff]
      intro r hr
      obtain ⟨m, hm, hr⟩ := List.mem_flatMap.1 hr
      obtain ⟨t, -, rfl⟩ := List.mem_map.1 hr
      rw [List.map_cons, List.nodup_cons] at hrs
      have : m ≠ str r0 := by rintro rfl; exact hrs.1 hm
      simp [this]
    rw [f1, f2, List.filter_map, List.length_append, List.length_append, List.length_map, List.filter_append, List.filter_append]
    have f3 : cs.filter ((fun r => decide (r.1 = str r0) && decide (r.2 = VT.x ∧ false = false)) ∘ fun t => (str r0, t)) = [] := by
      rw [List.filter_eq_nil_iff]
      intro t ht
      simp [hcx t ht]
    rw [f3]
    simp
  unfold regimeTotal
  simp only []
  rw [hw, hvi]
  have hb0 := hlook 0 (Nat.zero_le _)
  rw [hval 0 (Nat.zero_le _)] at hb0
  have hmap0 : (impactIndex blocks (fun _ => false)).map (· + 0) = impactIndex blocks (fun _ => false) := by simp
  rw [hmap0] at hb0
  rw [hb0]
  have := foldTotal m1 (rs.flatMap fun r => (List.range kx).map fun v => (r, v)) (fun a => coef (some a.1) (0 + (a.2 + 1)))
    (fun a i => coef (some a.1) (kx * (i + 1) + (a.2 + 1)))
    (fun i => betasAt (rs.flatMap cl ++ post') ((impactIndex blocks (fun _ => false)).map (· + (i + 1) * kx))) slx (by
      intro i hi
      have hle : (i + 1) * kx ≤ slx * kx := Nat.mul_le_mul_right _ (by omega)
      rw [hlook _ hle, hval _ hle]
      simp only [Nat.mul_comm kx])
  refine Eq.trans this ?_
  rw [List.map_flatMap]
  simp only [List.map_map, Function.comp_def, Nat.zero_add]

/-- A case: two regimes, two regressors, one lag; positions of the coefficients in the table as values. -/
example : regimeTotal 1 (wanted id ["a", "b"] [true, true, true, true, true] 2 []) (fun _ => false)
    [0, 1, 2, 30, 40, 500, 600, 700, 8000, 9000, 7] 1 = .ok [1 + 30, 2 + 40, 600 + 8000, 700 + 9000] := by
  decide +kernel

/-- C134: not so when only some regressors are lagged (`slx_vars` a mask). Two regimes, two regressors `u` and `v`, only `v` lagged: the
total of `u` has the coefficient of the lag of `v`, that of `v` in the first regime the constant of the second, and that of `v` in the
last regime the coefficient of the spatial lag of `y`. -/
theorem C134_mask_violated {V : Type} [CommSemiring V] (m1 ca ua va wa cb ub vb wb rho : V) :
    regimeTotal m1 (wanted id ["a", "b"] [true, true, true, true] 2 []) (fun _ => false) [ca, ua, va, wa, cb, ub, vb, wb, rho] 1 =
      .ok [m1 * ua + m1 * wa, m1 * va + m1 * cb, m1 * ub + m1 * wb, m1 * vb + m1 * rho] := by
  rfl

/-- C134: nor when a regressor is fixed over regimes and two are not: the total of the fixed regressor `f` has the coefficient of the
spatial lag of `y` in place of that of its own lag. -/
theorem C134_fixed_violated {V : Type} [CommSemiring V] (m1 ca ua va wua wva cb ub vb wub wvb f wf rho : V) :
    regimeTotal m1 (wanted id ["a", "b"] [true, true, true, false, true, true, false] 3 []) (fun _ => false)
      [ca, ua, va, wua, wva, cb, ub, vb, wub, wvb, f, wf, rho] 1 =
      .ok [m1 * ua + m1 * wua, m1 * va + m1 * wva, m1 * ub + m1 * wub, m1 * vb + m1 * wvb, m1 * f + m1 * rho] := by
  rfl

end Spreg.Output
