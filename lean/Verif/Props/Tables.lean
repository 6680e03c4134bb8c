import Verif.Props.QNames
import Verif.Model.Tables
/-
Property C152: every row of a coefficient table shows name, type and coefficient of one and the same term.
-/
namespace Spreg.Tables
open Spreg Spreg.Lags Spreg.Spec
variable {α : Type}

/-! ### Specification -/

/-- The variables that are lagged: all of them, or the flagged ones. -/
def picked (xv : List (String × α)) : Option (List Bool) → List (String × α)
  | none => xv
  | some m => ((xv.zip m).filter (·.2)).map (·.1)

/-- One row per lag of a lagged variable: `W_x`, ..., then `W2_x`, ... -/
def wxRows (W : α → α) (ty : String) (lv : List (String × α)) (L : Nat) : List (Row α) :=
  (List.range' 1 L).flatMap fun p => lv.map fun v => (lagLabel p v.1, ty, .on (lagPow W p v.2))

/-- Rows of named variables. -/
def varRows (ty : String) (xv : List (String × α)) : List (Row α) := xv.map fun v => (v.1, ty, .on v.2)

/-- The table a reader expects: the constant (if any), the exogenous variables, their spatial lags, the endogenous variables, the
spatial lag of the dependent variable (if any), the parameters of the error process. -/
def expected (W : α → α) (one : Option α) (xv : List (String × α)) (L : Nat) (slx : Option (List Bool))
    (ev : List (String × α)) (rho : Option (String × α)) (pars : List String) : List (Row α) :=
  (match one with | some c => [("CONSTANT", "o", .on c)] | none => []) ++ varRows "x" xv ++ wxRows W "wx" (picked xv slx) L
    ++ varRows "yend" ev ++ (match rho with | some y => [("W_" ++ y.1, "rho", .on (W y.2))] | none => [])
    ++ pars.map fun p => (p, p, .par p)

/-- A flag list has one flag per variable. -/
def Fits (xv : List (String × α)) (slx : Option (List Bool)) : Prop := ∀ m, slx = some m → m.length = xv.length

/-! ### Lemmas -/

theorem mkTable_rows (names types : List String) (coefs : List (Coef α)) (rows : List (Row α))
    (h1 : names = rows.map (·.1)) (h2 : types = rows.map (·.2.1)) (h3 : coefs = rows.map (·.2.2)) :
    mkTable names types coefs = .ok rows := by
  subst h1 h2 h3
  unfold mkTable
  rw [if_neg (by simp), if_neg (by simp)]
  congr 1
  induction rows with
  | nil => rfl
  | cons r t ih => simp only [List.map_cons, List.zip_cons_cons, ih]

theorem picked_eq (xv : List (String × α)) (m : List Bool) : picked xv (some m) = compress xv m := by
  unfold picked compress
  simp only
  induction xv generalizing m with
  | nil => simp
  | cons a l ih =>
    cases m with
    | nil => simp
    | cons b m => cases b <;> simp [List.filter_cons, ih]

theorem count_picked (xv : List (String × α)) (m : List Bool) (h : m.length = xv.length) :
    m.count true = (picked xv (some m)).length := by
  unfold picked
  induction xv generalizing m with
  | nil => simp_all
  | cons a l ih =>
    cases m with
    | nil => simp at h
    | cons b m =>
      have := ih m (by simpa using h)
      cases b <;> simp_all [List.filter_cons]

theorem wxRows_names (W : α → α) (ty : String) (lv : List (String × α)) (L : Nat) :
    (wxRows W ty lv L).map (·.1) = lagNames (lv.map (·.1)) 1 L := by
  simp [wxRows, lagNames, List.map_flatMap, Function.comp_def]

theorem wxRows_cols (W : α → α) (ty : String) (lv : List (String × α)) (L : Nat) :
    (wxRows W ty lv L).map (·.2.2) = (lagBlocks W (lv.map (·.2)) 1 L).map .on := by
  simp [wxRows, lagBlocks, List.map_flatMap, Function.comp_def]

theorem wxRows_types (W : α → α) (ty : String) (lv : List (String × α)) (L : Nat) :
    (wxRows W ty lv L).map (·.2.1) = List.replicate (lv.length * L) ty := by
  rw [List.eq_replicate_iff]
  constructor
  · rw [List.length_map, wxRows, length_flatMap_const (k := lv.length)]
    · simp [Nat.mul_comm]
    · simp
  · intro b hb
    simp only [wxRows, List.mem_map, List.mem_flatMap] at hb
    obtain ⟨r, ⟨p, _, v, _, rfl⟩, rfl⟩ := hb
    rfl

@[simp] theorem varRows_nil (ty : String) : varRows ty ([] : List (String × α)) = [] := rfl

@[simp] theorem wxRows_zero (W : α → α) (ty : String) (lv : List (String × α)) : wxRows W ty lv 0 = [] := rfl

theorem varRows_names (ty : String) (xv : List (String × α)) : (varRows ty xv).map (·.1) = xv.map (·.1) := by
  simp [varRows, Function.comp_def]

theorem varRows_cols (ty : String) (xv : List (String × α)) :
    (varRows ty xv).map (·.2.2) = (xv.map (·.2)).map .on := by
  simp [varRows, Function.comp_def]

theorem varRows_types (ty : String) (xv : List (String × α)) :
    (varRows ty xv).map (·.2.1) = List.replicate xv.length ty := by
  rw [List.eq_replicate_iff]
  simp [varRows, Function.comp_def]

theorem lagBlocks_zero (W : α → α) (x : List α) : lagBlocks W x 1 0 = [] := rfl

theorem lagNames_length (names : List String) (f L : Nat) : (lagNames names f L).length = names.length * L := by
  rw [lagNames, length_flatMap_const (k := names.length)]
  · simp [Nat.mul_comm]
  · simp

theorem lagBlocks_length (W : α → α) (x : List α) (f L : Nat) : (lagBlocks W x f L).length = x.length * L := by
  rw [lagBlocks, length_flatMap_const (k := x.length)]
  · simp [Nat.mul_comm]
  · simp

theorem flexPart_eq (W : α → α) (one : α) (xv : List (String × α)) (L : Nat) (slx : Option (List Bool)) (h : Fits xv slx) :
    flexPart W one (xv.map (·.2)) (xv.map (·.1)) L slx =
      .ok (one :: xv.map (·.2) ++ lagBlocks W ((picked xv slx).map (·.2)) 1 L,
        "CONSTANT" :: xv.map (·.1) ++ lagNames ((picked xv slx).map (·.1)) 1 L) := by
  unfold flexPart
  rcases Nat.eq_zero_or_pos L with rfl | hL
  · simp [lagBlocks, lagNames]; rfl
  · rw [if_pos hL]
    obtain ⟨out, h1, h2, h3, -, -⟩ := C02_flexWx W (("CONSTANT", one) :: xv) true L hL slx
      (by simpa [selected, Fits] using h)
    have e : selected (("CONSTANT", one) :: xv) true slx = picked xv slx := by
      cases slx with
      | none => rfl
      | some m => rw [picked_eq]; rfl
    rw [e] at h2 h3
    simp only [List.map_cons] at h1 h2 h3
    rw [h1]
    show Except.ok (out.x, out.nameX) = _
    rw [h2, h3]

theorem preparePanel_eq (W : α → α) (one : Option α) (xv : List (String × α)) (L : Nat) (slx : Option (List Bool))
    (h : Fits xv slx) :
    preparePanel W one (xv.map (·.2)) (xv.map (·.1)) L slx =
      .ok ((match one with | some c => [c] | none => []) ++ xv.map (·.2) ++ lagBlocks W ((picked xv slx).map (·.2)) 1 L,
        (match one with | some _ => ["CONSTANT"] | none => []) ++ xv.map (·.1)
          ++ lagNames ((picked xv slx).map (·.1)) 1 L,
        (match one with | some _ => 1 | none => 0) + xv.length, (picked xv slx).length * L) := by
  unfold preparePanel
  rcases Nat.eq_zero_or_pos L with rfl | hL
  · cases one <;> simp [lagBlocks, lagNames, pure, Except.pure, bind, Except.bind] <;> omega
  · simp only [if_pos hL]
    cases one with
    | none =>
      obtain ⟨out, h1, h2, h3, -, -⟩ := C02_flexWx W xv false L hL slx (by simpa [selected, Fits] using h)
      have e : selected xv false slx = picked xv slx := by
        cases slx with
        | none => rfl
        | some m => rw [picked_eq]; rfl
      rw [e] at h2 h3
      simp only [Option.isSome_none]
      rw [h1]
      simp only [bind, Except.bind, pure, Except.pure, h2, h3, List.length_append, List.length_map, lagBlocks_length]
      simp
    | some c =>
      obtain ⟨out, h1, h2, h3, -, -⟩ := C02_flexWx W (("CONSTANT", c) :: xv) true L hL slx
        (by simpa [selected, Fits] using h)
      have e : selected (("CONSTANT", c) :: xv) true slx = picked xv slx := by
        cases slx with
        | none => rfl
        | some m => rw [picked_eq]; rfl
      rw [e] at h2 h3
      simp only [List.map_cons] at h1 h2 h3
      simp only [Option.isSome_some]
      rw [h1]
      simp only [bind, Except.bind, pure, Except.pure, h2, h3, List.length_append, List.length_map, lagBlocks_length,
        List.length_cons]
      simp
      omega

/-! ### Single-equation models -/

theorem kw_eq (xv : List (String × α)) (slx : Option (List Bool)) (h : Fits xv slx) (k : Nat) (hk : k = xv.length) :
    wkx slx k = (picked xv slx).length := by
  subst hk
  cases slx with
  | none => rfl
  | some m => exact count_picked xv m (h m rfl)

/-- C152: `ML_Lag`. -/
theorem C152_mlLag (W : α → α) (one y : α) (nameY : String) (xv : List (String × α)) (L : Nat) (slx : Option (List Bool))
    (h : Fits xv slx) :
    mlLagTable W one y nameY (xv.map (·.2)) (xv.map (·.1)) L slx =
      .ok (expected W (some one) xv L slx [] (some (nameY, y)) []) := by
  unfold mlLagTable
  rw [flexPart_eq W one xv L slx h]
  show mkTable _ (if L > 0 then ["o"] ++ List.replicate _ "x" ++ List.replicate
    (wkx slx (xv.map (·.1)).length * L) "wx" ++ ["rho"] else _) _ = _
  rw [kw_eq xv slx h _ (by simp)]
  refine mkTable_rows _ _ _ _ ?_ ?_ ?_
  · simp [expected, wxRows_names, varRows_names]
  · rcases Nat.eq_zero_or_pos L with rfl | hL
    · simp [expected, varRows_types, lagNames]
    · rw [if_pos hL]
      simp [expected, wxRows_types, varRows_types]
  · simp [expected, wxRows_cols, varRows_cols]

theorem lagTypes_eq (W : α → α) (one y : α) (nameY : String) (xv ev : List (String × α)) (L : Nat) (slx : Option (List Bool))
    (h : Fits xv slx) :
    lagTypes (xv.map (·.1)) (ev.map (·.1)) L slx ++ ["rho"] =
      (expected W (some one) xv L slx ev (some (nameY, y)) []).map (·.2.1) := by
  show (if L > 0 then ["o"] ++ List.replicate _ "x" ++ List.replicate
    (wkx slx (xv.map (·.1)).length * L) "wx" ++ _ else _) ++ ["rho"] = _
  rw [kw_eq xv slx h _ (by simp)]
  rcases Nat.eq_zero_or_pos L with rfl | hL
  · simp [expected, varRows_types, wxRows]
  · rw [if_pos hL]
    simp [expected, wxRows_types, varRows_types]

/-- The columns and names of `GM_Lag` with the other endogenous variables `ev` (`none`: no such argument, then no names) and
instruments `qv`. -/
theorem gmLag_rows (W : α → α) (one y : α) (nameY : String) (xv : List (String × α)) (L p : Nat) (slx : Option (List Bool))
    (ev qv : Option (List (String × α))) (lagQ : Bool) (h : Fits xv slx) (hs : ∀ m, slx = some m → L ≤ 1) (hp : 1 ≤ p)
    (hq : ev.isSome → qv.isSome) :
    ∃ o, gmLag W one y nameY (xv.map (·.2)) (xv.map (·.1)) (ev.map fun l => l.map (·.2)) (qv.map fun l => l.map (·.2))
        ((ev.getD []).map (·.1)) ((qv.getD []).map (·.1)) p lagQ L slx = .ok o ∧
      o.nameZ = (expected W (some one) xv L slx (ev.getD []) (some (nameY, y)) []).map (·.1) ∧
      o.z.map .on = (expected W (some one) xv L slx (ev.getD []) (some (nameY, y)) []).map (·.2.2) := by
  have hx : ∃ e, setEndog W y (xv.map (·.2)) (ev.map fun l => l.map (·.2)) (qv.map fun l => l.map (·.2)) p lagQ L
      (match slx with | none => .all | some m => .mask m) = .ok e ∧ e.yend = (ev.getD []).map (·.2) ++ [W y] ∧
      e.lagX.getD [] = lagBlocks W ((picked xv slx).map (·.2)) 1 L := by
    rcases Nat.eq_zero_or_pos L with rfl | hL
    · cases ev with
      | none => exact ⟨_, C04_setEndog_none W y _ _ p lagQ _, rfl, rfl⟩
      | some ye =>
        obtain ⟨qe, rfl⟩ := Option.isSome_iff_exists.mp (hq rfl)
        exact ⟨_, C04_setEndog_some W y _ _ _ p lagQ _, rfl, rfl⟩
    · have s1 : ∀ k, L < k → getLagsSplit W (xv.map (·.2)) k L = .ok (lagBlocks W (xv.map (·.2)) 1 L,
          lagBlocks W (xv.map (·.2)) (L + 1) (k - L)) := fun k hk => by
        rw [C01_getLagsSplit, if_pos ⟨hL, hk⟩]
      unfold setEndog
      cases slx with
      | none =>
        cases ev with
        | none =>
          simp only [if_pos hL, Option.map_none, s1 _ (by omega : L < L + p), if_neg (by omega : ¬ L = 0)]
          exact ⟨_, rfl, rfl, rfl⟩
        | some ye =>
          obtain ⟨qe, rfl⟩ := Option.isSome_iff_exists.mp (hq rfl)
          simp only [if_pos hL, Option.map_some, s1 _ (by omega : L < L + 1), if_neg (by omega : ¬ L = 0)]
          exact ⟨_, rfl, rfl, rfl⟩
      | some m =>
        have hm := h m rfl
        obtain rfl : L = 1 := by have := hs m rfl; omega
        have hmc : maskCols m (lagBlocks W (xv.map (·.2)) 1 1) = .ok (lagBlocks W ((picked xv (some m)).map (·.2)) 1 1) := by
          rw [maskCols_eq _ _ (by simp [lagBlocks, hm]), picked_eq]
          simp [lagBlocks, compress_map]
        cases ev with
        | none =>
          simp only [if_pos hL, Option.map_none, s1 _ (by omega : 1 < 1 + p), if_neg (by omega : ¬ 1 = 0)]
          simp only [bind, Except.bind, pure, Except.pure, List.length_map, hm, ne_eq, not_true, if_false, hmc]
          exact ⟨_, rfl, rfl, rfl⟩
        | some ye =>
          obtain ⟨qe, rfl⟩ := Option.isSome_iff_exists.mp (hq rfl)
          simp only [if_pos hL, Option.map_some, s1 _ (by omega : 1 < 1 + 1), if_neg (by omega : ¬ 1 = 0)]
          simp only [bind, Except.bind, pure, Except.pure, List.length_map, hm, ne_eq, not_true, if_false, hmc]
          exact ⟨_, rfl, rfl, rfl⟩
  obtain ⟨e, he, hy, hl⟩ := hx
  have hn : (if L > 0 then
      match (generalizing := false) slx with
      | some m => if m.length ≠ (xv.map (·.2)).length then .error .exception
                  else pure (("CONSTANT" :: xv.map (·.1)) ++ setNameSpatialLags (compress (xv.map (·.1)) m) L none)
      | none => pure (("CONSTANT" :: xv.map (·.1)) ++ setNameSpatialLags (xv.map (·.1)) L none)
    else pure ("CONSTANT" :: xv.map (·.1)) : Py (List String)) =
      .ok ("CONSTANT" :: xv.map (·.1) ++ lagNames ((picked xv slx).map (·.1)) 1 L) := by
    rcases Nat.eq_zero_or_pos L with rfl | hL
    · simp [lagNames]; rfl
    · have hmax : max L 1 = L := by omega
      rw [if_pos hL]
      cases slx with
      | none => simp only [C02_setNameSpatialLags, hmax, picked]; rfl
      | some m =>
        have hm := h m rfl
        simp only [List.length_map, hm, ne_eq, not_true, if_false, C02_setNameSpatialLags, hmax, compress_map, picked_eq]
        rfl
  unfold gmLag
  have hb : ∀ {β γ : Type} {a : Py β} {f : β → Py γ} {v : β}, a = .ok v → (a >>= f) = f v := by
    intro β γ a f v hv; rw [hv]; rfl
  refine ⟨_, (hb hn).trans (hb he), ?_, ?_⟩
  · simp [expected, wxRows_names, varRows_names]
  · simp [expected, wxRows_cols, varRows_cols, hy, hl]

/-- C152: `GM_Lag`, with or without other endogenous variables; with a flag list for at most one lag (more raise: C05). -/
theorem C152_gmLag (W : α → α) (one y : α) (nameY : String) (xv : List (String × α)) (L p : Nat) (slx : Option (List Bool))
    (ev qv : Option (List (String × α))) (lagQ : Bool) (h : Fits xv slx) (hs : ∀ m, slx = some m → L ≤ 1) (hp : 1 ≤ p)
    (hq : ev.isSome → qv.isSome) :
    gmLagTable W one y nameY (xv.map (·.2)) (xv.map (·.1)) (ev.map fun l => l.map (·.2)) (qv.map fun l => l.map (·.2))
        ((ev.getD []).map (·.1)) ((qv.getD []).map (·.1)) p lagQ L slx =
      .ok (expected W (some one) xv L slx (ev.getD []) (some (nameY, y)) []) := by
  obtain ⟨o, h1, h2, h3⟩ := gmLag_rows W one y nameY xv L p slx ev qv lagQ h hs hp hq
  unfold gmLagTable
  rw [h1]
  exact mkTable_rows _ _ _ _ h2 (lagTypes_eq W one y nameY xv _ L slx h) h3

/-- C152: `GM_Combo`, `GM_Combo_Het` and `GM_Combo_Hom`. -/
theorem C152_gmCombo (W : α → α) (one y : α) (nameY : String) (xv : List (String × α)) (L p : Nat) (slx : Option (List Bool))
    (ev qv : Option (List (String × α))) (lagQ : Bool) (h : Fits xv slx) (hs : ∀ m, slx = some m → L ≤ 1) (hp : 1 ≤ p)
    (hq : ev.isSome → qv.isSome) :
    gmComboTable W one y nameY (xv.map (·.2)) (xv.map (·.1)) (ev.map fun l => l.map (·.2)) (qv.map fun l => l.map (·.2))
        ((ev.getD []).map (·.1)) ((qv.getD []).map (·.1)) p lagQ L slx =
      .ok (expected W (some one) xv L slx (ev.getD []) (some (nameY, y)) ["lambda"]) := by
  obtain ⟨o, h1, h2, h3⟩ := gmLag_rows W one y nameY xv L p slx ev qv lagQ h hs hp hq
  have e : expected W (some one) xv L slx (ev.getD []) (some (nameY, y)) ["lambda"] =
      expected W (some one) xv L slx (ev.getD []) (some (nameY, y)) [] ++ [("lambda", "lambda", .par "lambda")] := by
    simp [expected]
  unfold gmComboTable
  rw [h1]
  refine mkTable_rows _ _ _ _ ?_ ?_ ?_
  · rw [e, List.map_append, h2]; rfl
  · rw [e, List.map_append, ← lagTypes_eq W one y nameY xv _ L slx h]; simp
  · rw [e, List.map_append, h3]; rfl

/-- C152: the other single-equation classes without lagged regressors. -/
theorem C152_plain (W : α → α) (one : α) (xv ev : List (String × α)) (slx : Option (List Bool)) :
    olsTable W one (xv.map (·.2)) (xv.map (·.1)) 0 slx = .ok (expected W (some one) xv 0 slx [] none []) ∧
    tslsTable W one (xv.map (·.2)) (xv.map (·.1)) (ev.map (·.2)) (ev.map (·.1)) 0 slx =
      .ok (expected W (some one) xv 0 slx ev none []) ∧
    gmErrorTable W one (xv.map (·.2)) (xv.map (·.1)) 0 slx = .ok (expected W (some one) xv 0 slx [] none ["lambda"]) ∧
    gmEndogTable W one (xv.map (·.2)) (xv.map (·.1)) (ev.map (·.2)) (ev.map (·.1)) 0 slx =
      .ok (expected W (some one) xv 0 slx ev none ["lambda"]) := by
  refine ⟨?_, ?_, ?_, ?_⟩
  all_goals
    refine mkTable_rows _ _ _ _ ?_ ?_ ?_
    · simp [expected, varRows_names]
    · simp [expected, varRows_types]
    · simp [expected, varRows_cols]

/-- The table of the classes that do not tell the lagged regressors from the others. -/
def asX (W : α → α) (one : α) (xv : List (String × α)) (L : Nat) (slx : Option (List Bool)) (ev : List (String × α))
    (pars : List String) : List (Row α) :=
  [("CONSTANT", "o", .on one)] ++ varRows "x" xv ++ wxRows W "x" (picked xv slx) L ++ varRows "yend" ev
    ++ pars.map fun p => (p, p, .par p)

/-- C152, with lagged regressors: every name and every coefficient stands in the row where it belongs. `_partial`: the lagged
regressors are typed as `x` (`C152_violated`). -/
theorem C152_slx_partial (W : α → α) (one : α) (xv ev : List (String × α)) (L : Nat) (slx : Option (List Bool))
    (h : Fits xv slx) :
    olsTable W one (xv.map (·.2)) (xv.map (·.1)) L slx = .ok (asX W one xv L slx [] []) ∧
    tslsTable W one (xv.map (·.2)) (xv.map (·.1)) (ev.map (·.2)) (ev.map (·.1)) L slx = .ok (asX W one xv L slx ev []) ∧
    gmErrorTable W one (xv.map (·.2)) (xv.map (·.1)) L slx = .ok (asX W one xv L slx [] ["lambda"]) ∧
    gmEndogTable W one (xv.map (·.2)) (xv.map (·.1)) (ev.map (·.2)) (ev.map (·.1)) L slx =
      .ok (asX W one xv L slx ev ["lambda"]) := by
  unfold olsTable tslsTable gmErrorTable gmEndogTable
  rw [flexPart_eq W one xv L slx h]
  refine ⟨?_, ?_, ?_, ?_⟩
  all_goals
    refine mkTable_rows _ _ _ _ ?_ ?_ ?_
    · simp [asX, varRows_names, wxRows_names]
    · simp [asX, varRows_types, wxRows_types, lagNames_length]
      try rw [List.replicate_add, List.append_assoc]
    · simp [asX, varRows_cols, wxRows_cols]

/-- The same two tables with names and coefficients only. -/
theorem C152_slx_names (W : α → α) (one : α) (xv ev : List (String × α)) (L : Nat) (slx : Option (List Bool))
    (pars : List String) :
    (asX W one xv L slx ev pars).map (fun r => (r.1, r.2.2)) =
      (expected W (some one) xv L slx ev none pars).map (fun r => (r.1, r.2.2)) := by
  simp [asX, expected, varRows, wxRows, List.map_flatMap, Function.comp_def]

/-- C152 is violated: with a lagged regressor `OLS`, `TSLS`, `GM_Error`, `GM_Endog_Error` and their relatives type it as an
ordinary regressor, unlike the lag models. -/
theorem C152_violated (W : α → α) (one : α) (xv ev : List (String × α)) (L : Nat) (slx : Option (List Bool)) (h : Fits xv slx)
    (hL : 1 ≤ L) (hne : picked xv slx ≠ []) :
    olsTable W one (xv.map (·.2)) (xv.map (·.1)) L slx ≠ .ok (expected W (some one) xv L slx [] none []) ∧
    tslsTable W one (xv.map (·.2)) (xv.map (·.1)) (ev.map (·.2)) (ev.map (·.1)) L slx ≠
      .ok (expected W (some one) xv L slx ev none []) ∧
    gmErrorTable W one (xv.map (·.2)) (xv.map (·.1)) L slx ≠ .ok (expected W (some one) xv L slx [] none ["lambda"]) ∧
    gmEndogTable W one (xv.map (·.2)) (xv.map (·.1)) (ev.map (·.2)) (ev.map (·.1)) L slx ≠
      .ok (expected W (some one) xv L slx ev none ["lambda"]) := by
  obtain ⟨h1, h2, h3, h4⟩ := C152_slx_partial W one xv ev L slx h
  have key : ∀ ev pars, asX W one xv L slx ev pars ≠ expected W (some one) xv L slx ev none pars := by
    intro ev pars e
    have e2 := congrArg (fun l => (l.map (·.2.1)).count "wx") e
    have hc : ∀ pars : List String, ((pars.map fun p => (p, p, Coef.par (α := α) p)).map (·.2.1)) = pars := by
      intro pars; simp [Function.comp_def]
    simp only [asX, expected, List.map_append, varRows_types, wxRows_types, hc, List.count_append, List.count_replicate,
      List.map_cons, List.map_nil] at e2
    have hpos : 0 < (picked xv slx).length := List.length_pos_iff.mpr hne
    have hpos2 : 0 < (picked xv slx).length * L := Nat.mul_pos hpos hL
    simp only [show ("x" == "wx") = false by decide, show ("yend" == "wx") = false by decide,
      show ("wx" == "wx") = true by decide, if_true, Bool.false_eq_true, if_false, List.count_nil] at e2
    omega
  rw [h1, h2, h3, h4]
  refine ⟨?_, ?_, ?_, ?_⟩ <;> exact fun e => key _ _ (Except.ok.inj e)

/-- C152 is violated by `GM_Error_Hom` and `GM_Endog_Error_Hom`: the constant is typed as a regressor, whatever the data. -/
theorem C152_hom_violated (W : α → α) (one : α) (xv ev : List (String × α)) (L : Nat) (slx : Option (List Bool))
    (h : Fits xv slx) :
    gmErrorHomTable W one (xv.map (·.2)) (xv.map (·.1)) L slx =
      .ok (("CONSTANT", "x", .on one) :: (asX W one xv L slx [] ["lambda"]).tail) ∧
    gmEndogHomTable W one (xv.map (·.2)) (xv.map (·.1)) (ev.map (·.2)) (ev.map (·.1)) L slx =
      .ok (("CONSTANT", "x", .on one) :: (asX W one xv L slx ev ["lambda"]).tail) := by
  unfold gmErrorHomTable gmEndogHomTable
  rw [flexPart_eq W one xv L slx h]
  have hr : ∀ k j : Nat, List.replicate (k + (j + 1)) "x" = "x" :: (List.replicate k "x" ++ List.replicate j "x") := by
    intro k j
    rw [List.replicate_append_replicate, ← List.replicate_succ]; rfl
  refine ⟨?_, ?_⟩
  all_goals
    refine mkTable_rows _ _ _ _ ?_ ?_ ?_
    · simp [asX, varRows_names, wxRows_names]
    · simp [asX, varRows_types, wxRows_types, lagNames_length]
      first
        | (rw [Nat.add_assoc, hr]; simp only [List.append_assoc, List.cons_append])
        | (rw [hr]; simp only [List.append_assoc, List.cons_append])
        | (rw [List.replicate_add, List.append_assoc])
    · simp [asX, varRows_cols, wxRows_cols]

/-! ### Panel models -/

/-- C152: `PooledOLS`, `PanelRE`, `GM_ErrorPooled`, `ML_ErrorPooled`, `ML_ErrorRE`, `GM_ErrorRE` (by their error parameters),
`PanelFE`, `ML_LagFE` and `ML_LagRE`, for any lags and flags. -/
theorem C152_panel (W : α → α) (one y : α) (nameY : String) (xv : List (String × α)) (L : Nat) (slx : Option (List Bool))
    (extra : List String) (h : Fits xv slx) :
    panelConstTable extra W one (xv.map (·.2)) (xv.map (·.1)) L slx =
      .ok (expected W (some one) xv L slx [] none extra) ∧
    panelFETable W (xv.map (·.2)) (xv.map (·.1)) L slx = .ok (expected W none xv L slx [] none []) ∧
    mlLagFETable W y nameY (xv.map (·.2)) (xv.map (·.1)) L slx = .ok (expected W none xv L slx [] (some (nameY, y)) []) ∧
    mlLagRETable W one y nameY (xv.map (·.2)) (xv.map (·.1)) L slx =
      .ok (expected W (some one) xv L slx [] (some (nameY, y)) ["phi"]) := by
  unfold panelConstTable panelFETable mlLagFETable mlLagRETable
  rw [preparePanel_eq W (some one) xv L slx h, preparePanel_eq W none xv L slx h]
  refine ⟨?_, ?_, ?_, ?_⟩
  all_goals
    refine mkTable_rows _ _ _ _ ?_ ?_ ?_
    · simp [expected, varRows_names, wxRows_names, Function.comp_def]
    · simp [expected, varRows_types, wxRows_types, Function.comp_def]
    · simp [expected, varRows_cols, wxRows_cols, Function.comp_def]

/-- C152 is violated by `ML_ErrorFE`: the first regressor is typed as the constant. -/
theorem C152_fe_violated (W : α → α) (v : String × α) (xv : List (String × α)) (L : Nat) (slx : Option (List Bool))
    (h : Fits (v :: xv) slx) :
    mlErrorFETable W ((v :: xv).map (·.2)) ((v :: xv).map (·.1)) L slx =
      .ok ((v.1, "o", .on v.2) :: (expected W none (v :: xv) L slx [] none ["lambda"]).tail) := by
  unfold mlErrorFETable
  rw [preparePanel_eq W none (v :: xv) L slx h]
  refine mkTable_rows _ _ _ _ ?_ ?_ ?_
  · simp [expected, varRows_names, wxRows_names]
  · simp [expected, varRows_types, wxRows_types]
  · simp [expected, varRows_cols, wxRows_cols]

/-! ### Non-vacuity -/

/-- Two variables, two lags of the second one, one other endogenous variable. -/
def exX : List (String × Nat) := [("inc", 3), ("hoval", 5)]

example : expected (2 * ·) (some 1) exX 2 (some [false, true]) [("crime", 7)] (some ("y", 11)) ["lambda"] =
    [("CONSTANT", "o", .on 1), ("inc", "x", .on 3), ("hoval", "x", .on 5), ("W_hoval", "wx", .on 10), ("W2_hoval", "wx", .on 20),
     ("crime", "yend", .on 7), ("W_y", "rho", .on 22), ("lambda", "lambda", .par "lambda")] := by decide +kernel

example : Fits exX (some [false, true]) ∧ picked exX (some [false, true]) ≠ [] := by
  refine ⟨?_, by decide +kernel⟩
  rintro m h
  obtain rfl := Option.some.inj h
  rfl

end Spreg.Tables
