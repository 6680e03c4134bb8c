import Verif.Model.PanelTable
/-
C185: the coefficient tables of the deprecated panel classes.
-/
namespace Spreg.PanelTable
open Spreg.Regimes Spreg.SURSummary

variable {β σ : Type}

theorem get_ok {α : Type} (l : List α) (i : ℕ) (h : i < l.length) : get l i = .ok l[i] := by
  simp [get, h]

theorem pySlice_nat {α : Type} (l : List α) (a b : ℕ) (hb : b ≤ l.length) (ha : a ≤ l.length) :
    pySlice l a b = (l.drop a).take (b - a) := by
  unfold pySlice
  simp only [Int.toNat_natCast]
  rw [if_neg (by omega), if_neg (by omega), min_eq_left ha, min_eq_left hb]

theorem mapM_ok {α γ : Type} (f : α → Py γ) (g : α → γ) (l : List α) (h : ∀ a ∈ l, f a = .ok (g a)) :
    l.mapM f = .ok (l.map g) := by
  induction l with
  | nil => rfl
  | cons a l ih =>
    rw [List.mapM_cons, h a (by simp), ih fun b hb => h b (by simp [hb])]
    rfl

theorem row_ok (names : List String) (betas : List β) (stats : List σ) (i : ℕ) (h1 : i < names.length) (h2 : i < betas.length)
    (h3 : i < stats.length) : row names betas stats i = .ok ⟨names[i], betas[i], some stats[i]⟩ := by
  unfold row
  rw [get_ok _ _ h1, get_ok _ _ h2, get_ok _ _ h3]
  rfl

/-- The rows for a list of valid positions. -/
theorem rows_ok (names : List String) (betas : List β) (stats : List σ) (idx : List ℕ)
    (h : ∀ i ∈ idx, i < names.length ∧ i < betas.length ∧ i < stats.length) :
    ∃ rows, idx.mapM (row names betas stats) = .ok rows ∧ rows.map (·.name) = idx.map (names.getD · "") ∧
      rows.map (fun r => some r.beta) = idx.map (betas[·]?) ∧ rows.map (·.inf) = idx.map (stats[·]?) := by
  induction idx with
  | nil => exact ⟨[], rfl, rfl, rfl, rfl⟩
  | cons i idx ih =>
    obtain ⟨rows, h1, h2, h3, h4⟩ := ih fun j hj => h j (by simp [hj])
    have hi := h i (by simp)
    refine ⟨⟨names[i], betas[i], some stats[i]⟩ :: rows, ?_, ?_, ?_, ?_⟩
    · rw [List.mapM_cons, row_ok _ _ _ _ hi.1 hi.2.1 hi.2.2, h1]; rfl
    · simp [h2, hi.1]
    · simp [h3, hi.2.1]
    · simp [h4, hi.2.2]

theorem range_getD {α : Type} (l : List α) (d : α) : (List.range l.length).map (l.getD · d) = l := by
  refine List.ext_getElem (by simp) fun i h1 h2 => ?_
  simp [h2]

theorem range_get? {α : Type} (l : List α) : (List.range l.length).map (l[·]?) = l.map some := by
  refine List.ext_getElem (by simp) fun i h1 h2 => ?_
  simp at h2
  simp [h2]

theorem map_some_inj {α γ : Type} (f : α → γ) (l : List α) (m : List γ) (h : l.map (fun r => some (f r)) = m.map some) : l.map f = m := by
  have : (l.map f).map some = m.map some := by rw [List.map_map]; exact h
  exact List.map_injective_iff.2 (Option.some_injective _) this

/-- The names of the coefficients (specification): those of the regressors as given, `var_1`, `var_2`, ... without names; a constant
in the random effects classes; the parameters last. -/
def specNames (c : MLPanel) (nameX : Option (List String)) (nameY : String) (nx : ℕ) : List String :=
  let xs := (nameX.getD ((List.range nx).map fun i => "var_" ++ toString (i + 1)))
  match c with
  | .feLag => xs ++ ["W_" ++ nameY]
  | .feError => xs ++ ["lambda"]
  | .reLag => "CONSTANT" :: xs ++ ["W_" ++ nameY, "phi"]
  | .reError => "CONSTANT" :: xs ++ ["lambda", "sig2_u"]

/-- Columns of the stacked regressors for `nx` regressors besides the constant. -/
def colsOf (c : MLPanel) (nx : ℕ) : ℕ := match c with
  | .feLag | .feError => nx
  | .reLag | .reError => nx + 1

theorem mlNames_eq (c : MLPanel) (nameX : Option (List String)) (nameY : String) (nx : ℕ) (h0 : 0 < nx)
    (hn : ∀ l, nameX = some l → l.length = nx) : mlNames c nameX nameY (colsOf c nx) = specNames c nameX nameY nx := by
  cases nameX with
  | none =>
    cases c <;> simp [mlNames, specNames, colsOf, Chk.setNameX]
    all_goals rw [Nat.sub_add_cancel h0]
  | some l =>
    have := hn l rfl
    match l, this with
    | [], h => simp at h; omega
    | s :: ss, _ => cases c <;> simp [mlNames, specNames, Chk.setNameX]

/-- `C185` (maximum likelihood panels). The table has one row for every coefficient, in order, with its own name, value and inference,
also when names coincide. -/
theorem C185_ml (c : MLPanel) (nameX : Option (List String)) (nameY : String) (nx : ℕ) (h0 : 0 < nx)
    (hn : ∀ l, nameX = some l → l.length = nx) (betas : List β) (stats : List σ)
    (hb : betas.length = (specNames c nameX nameY nx).length) (hs : stats.length = betas.length) :
    ∃ rows, mlTable c nameX nameY (colsOf c nx) betas stats = .ok rows ∧ rows.map (·.name) = specNames c nameX nameY nx ∧
      rows.map (·.beta) = betas ∧ rows.map (·.inf) = stats.map some := by
  unfold mlTable coefs
  rw [mlNames_eq c nameX nameY nx h0 hn]
  set names := specNames c nameX nameY nx with hnames
  have hpos : 1 ≤ names.length := by rw [hnames]; cases c <;> simp [specNames]
  have hidx : varIndices none names stats.length betas.length false = List.range betas.length := by
    unfold varIndices lastV
    simp only [Bool.false_eq_true, if_false, add_zero]
    have := pySlice_nat names 1 names.length le_rfl hpos
    rw [Nat.cast_one] at this
    rw [this]
    congr 1
    simp
    omega
  rw [hidx]
  obtain ⟨rows, h1, h2, h3, h4⟩ := rows_ok names betas stats (List.range betas.length) (by
    intro i hi; rw [List.mem_range] at hi; omega)
  refine ⟨rows, h1, ?_, map_some_inj _ _ _ (h3.trans (range_get? _)), ?_⟩
  · rw [h2, hb, range_getD]
  · rw [h4, ← hs, range_get?]

/-- The three rows of the parameters of `GM_KKP`. -/
theorem lambda_rows (names : List String) (betas : List β) (a b c : β) (stats : List σ) (hs : stats.length = betas.length) :
    coefsLambda (kkpNames names) (betas ++ [a, b, c]) stats =
      .ok [⟨"lambda", a, none⟩, ⟨" sigma2_v", b, none⟩, ⟨"sigma2_1", c, none⟩] := by
  unfold coefsLambda
  rw [if_neg (by simp; omega)]
  have h3 : (betas ++ [a, b, c]).length - stats.length = 3 := by simp [hs]
  rw [h3]
  have e : ∀ {α : Type} (l : List α) (x y z : α) (i : ℕ) (_ : i < 3), pyGet (l ++ [x, y, z]) ((i : ℤ) - (3 : ℕ)) =
      .ok ([x, y, z].getD i x) := by
    intro α l x y z i hi
    unfold pyGet
    rw [if_neg (by push_cast; omega), if_pos (by simp; omega)]
    have : (((l ++ [x, y, z]).length : ℤ) + ((i : ℤ) - (3 : ℕ))).toNat = l.length + i := by simp; omega
    rw [this, List.getElem?_append_right (by omega)]
    rw [show l.length + i - l.length = i by omega]
    obtain rfl | rfl | rfl : i = 0 ∨ i = 1 ∨ i = 2 := by omega
    all_goals rfl
  rw [mapM_ok _ (fun i => (⟨["lambda", " sigma2_v", "sigma2_1"].getD i "lambda", [a, b, c].getD i a, none⟩ : Row β σ))]
  · rfl
  · intro i hi
    rw [List.mem_range] at hi
    unfold kkpNames
    simp only [e names _ _ _ i hi, e betas a b c i hi]
    rfl

theorem flat_range {α : Type} (g : ℕ → α) (kr : ℕ) : ∀ nr : ℕ,
    ((List.range nr).map fun i => (List.range kr).map fun c => g (i * kr + c)).flatten = (List.range (nr * kr)).map g
  | 0 => by simp
  | nr + 1 => by
    rw [List.range_succ, List.map_append, List.flatten_append, flat_range g kr nr, Nat.succ_mul, List.range_add, List.map_append]
    simp [Function.comp_def]

theorem indexOf_mem (l : List String) (s : String) (h : s ∈ l) : indexOf l s = some (l.idxOf s) := by
  unfold indexOf
  rw [List.findIdx?_eq_some_iff_findIdx_eq]
  exact ⟨List.idxOf_lt_length_iff.2 h, rfl⟩

theorem mapM_some {α γ : Type} (f : α → Option γ) (g : α → γ) (l : List α) (h : ∀ a ∈ l, f a = some (g a)) :
    l.mapM f = some (l.map g) := by
  induction l with
  | nil => rfl
  | cons a l ih =>
    rw [List.mapM_cons, h a (by simp), ih fun b hb => h b (by simp [hb])]
    rfl

theorem getD_lt (l : List String) (i : ℕ) (h : i < l.length) : l.getD i "" = l[i] := by simp [h]

/-- The position whose coefficient the row `p` of `GM_KKP` with regimes shows. -/
def shown (names : List String) (kr p : ℕ) : ℕ := if p % kr = 0 then p else names.idxOf (names.getD p "")

theorem kkp_indices (names : List String) (kr nr : ℕ) (hk : 0 < kr) (hn : names.length = nr * kr) (nb : ℕ) (hb : nb = nr * kr + 3) :
    varIndices (some (kkpAttrs kr nr)) (kkpNames names) (nr * kr) nb true = (List.range (nr * kr)).map (shown names kr) := by
  have hlen : (kkpNames names).length = nr * kr + 3 := by simp [kkpNames, hn]
  have hlast : lastV (kkpNames names) (nr * kr) nb true = ((nr * kr : ℕ) : ℤ) := by
    unfold lastV; rw [hlen, hb, if_pos rfl]; push_cast; ring
  have hparts : (List.range nr).mapM (fun i => ((pySlice (kkpNames names) ((i * kr + 1 : ℕ) : ℤ) ((i * kr + kr : ℕ) : ℤ)).mapM
      (indexOf (kkpNames names))).map fun l => i * kr :: l) =
      some ((List.range nr).map fun i => (List.range kr).map fun c => shown names kr (i * kr + c)) := by
    apply mapM_some
    intro i hi
    rw [List.mem_range] at hi
    have hle : i * kr + kr ≤ nr * kr := by nlinarith
    rw [pySlice_nat _ _ _ (by omega) (by omega)]
    have hslice : ((kkpNames names).drop (i * kr + 1)).take (i * kr + kr - (i * kr + 1)) =
        (List.range (kr - 1)).map fun c => names.getD (i * kr + (c + 1)) "" := by
      refine List.ext_getElem (by simp [hlen]; omega) fun c h1 h2 => ?_
      simp only [List.length_map, List.length_range] at h2
      simp only [List.getElem_take, List.getElem_drop, List.getElem_map, List.getElem_range]
      have : i * kr + (c + 1) < names.length := by omega
      rw [getD_lt _ _ this]
      simp only [kkpNames]
      rw [List.getElem_append_left (by omega)]
      congr 1; omega
    rw [hslice, mapM_some _ (fun s => names.idxOf s)]
    · rw [Option.map_some]
      congr 1
      obtain ⟨k', rfl⟩ : ∃ k', kr = k' + 1 := ⟨kr - 1, by omega⟩
      rw [List.range_succ_eq_map, List.map_cons, List.map_map, List.map_map]
      simp only [Nat.add_sub_cancel]
      congr 1
      · simp [shown]
      · apply List.map_congr_left
        intro c hc
        rw [List.mem_range] at hc
        simp only [Function.comp, shown, Nat.succ_eq_add_one]
        rw [if_neg]
        rw [mul_comm, Nat.mul_add_mod, Nat.mod_eq_of_lt (by omega)]
        omega
    · intro s hs
      rw [List.mem_map] at hs
      obtain ⟨c, hc, rfl⟩ := hs
      rw [List.mem_range] at hc
      have : i * kr + (c + 1) < names.length := by omega
      rw [getD_lt _ _ this]
      have hm : names[i * kr + (c + 1)] ∈ names := List.getElem_mem _
      rw [indexOf_mem _ _ (by simp [kkpNames, hm])]
      rw [kkpNames, List.idxOf_append_of_mem hm]
  unfold varIndices
  simp only
  have hreg : regIndices (kkpAttrs kr nr) (kkpNames names) (nr * kr) nb true = some ((List.range (nr * kr)).map (shown names kr)) := by
    unfold regIndices kkpAttrs
    simp only [Nat.sub_zero, hlast]
    have hz : (3 : ℤ) + (if True then ((nr * kr : ℕ) : ℤ) - (nb : ℕ) else 0) = 0 := by rw [if_pos trivial, hb]; push_cast; ring
    have hempty : ∀ z : ℤ, pySlice (kkpNames names) z z = [] := by
      intro z; unfold pySlice; simp
    simp only [if_true, Nat.cast_zero, mul_zero, add_zero, hempty, List.append_nil]
    rw [hparts]
    simp only [Option.bind_eq_bind, Option.bind_some, reduceCtorEq, if_false, List.append_nil, flat_range, List.length_map, List.length_range,
      lt_self_iff_false, Option.pure_def]
  rw [hreg]; rfl

/-- The rows with inference of `GM_KKP`, given their positions. -/
theorem kkp_rows (attrs : Option RegAttrs) (names : List String) (betas : List β) (a b c : β) (stats : List σ)
    (hs : stats.length = betas.length) (hn : names.length = betas.length) (f : ℕ → ℕ)
    (hf : ∀ p < betas.length, f p < betas.length)
    (hidx : varIndices attrs (kkpNames names) stats.length (betas ++ [a, b, c]).length true = (List.range betas.length).map f) :
    ∃ rows, kkpTable attrs names (betas ++ [a, b, c]) stats =
        .ok (rows ++ [⟨"lambda", a, none⟩, ⟨" sigma2_v", b, none⟩, ⟨"sigma2_1", c, none⟩]) ∧
      rows.map (·.name) = (List.range betas.length).map (fun p => names.getD (f p) "") ∧
      rows.map (fun r => some r.beta) = (List.range betas.length).map (fun p => betas[f p]?) ∧
      rows.map (·.inf) = (List.range betas.length).map (fun p => stats[f p]?) := by
  obtain ⟨rows, h1, h2, h3, h4⟩ := rows_ok (kkpNames names) (betas ++ [a, b, c]) stats ((List.range betas.length).map f) (by
    intro i hi
    rw [List.mem_map] at hi
    obtain ⟨p, hp, rfl⟩ := hi
    have := hf p (List.mem_range.1 hp)
    refine ⟨by simp [kkpNames]; omega, by simp; omega, by omega⟩)
  refine ⟨rows, ?_, ?_, ?_, ?_⟩
  · unfold kkpTable coefs
    rw [hidx, h1, lambda_rows names betas a b c stats hs]
    rfl
  · rw [h2, List.map_map]
    apply List.map_congr_left
    intro p hp
    have := hf p (List.mem_range.1 hp)
    simp only [Function.comp, kkpNames]
    rw [getD_lt _ _ (by simp; omega), List.getElem_append_left (by omega), getD_lt _ _ (by omega)]
  · rw [h3, List.map_map]
    apply List.map_congr_left
    intro p hp
    have := hf p (List.mem_range.1 hp)
    simp only [Function.comp]
    rw [List.getElem?_append_left this]
  · rw [h4, List.map_map]; rfl

theorem kkp_id (attrs : Option RegAttrs) (names : List String) (betas : List β) (a b c : β) (stats : List σ)
    (hs : stats.length = betas.length) (hn : names.length = betas.length)
    (hidx : varIndices attrs (kkpNames names) stats.length (betas ++ [a, b, c]).length true = List.range betas.length) :
    ∃ rows, kkpTable attrs names (betas ++ [a, b, c]) stats =
        .ok (rows ++ [⟨"lambda", a, none⟩, ⟨" sigma2_v", b, none⟩, ⟨"sigma2_1", c, none⟩]) ∧
      rows.map (·.name) = names ∧ rows.map (·.beta) = betas ∧ rows.map (·.inf) = stats.map some := by
  obtain ⟨rows, h1, h2, h3, h4⟩ := kkp_rows attrs names betas a b c stats hs hn id (fun p hp => hp) (by rw [List.map_id]; exact hidx)
  refine ⟨rows, h1, ?_, map_some_inj _ _ _ (h3.trans (range_get? _)), ?_⟩
  · rw [h2, ← hn]; exact range_getD _ _
  · rw [h4, ← hs]; exact range_get? _

/-- `C185` (`GM_KKP` without regimes). One row for every coefficient, in order, with its own name, value and inference, then lambda and
the two variances without inference. -/
theorem C185_kkp (names : List String) (betas : List β) (a b c : β) (stats : List σ) (h0 : betas ≠ [])
    (hs : stats.length = betas.length) (hn : names.length = betas.length) :
    ∃ rows, kkpTable none names (betas ++ [a, b, c]) stats =
        .ok (rows ++ [⟨"lambda", a, none⟩, ⟨" sigma2_v", b, none⟩, ⟨"sigma2_1", c, none⟩]) ∧
      rows.map (·.name) = names ∧ rows.map (·.beta) = betas ∧ rows.map (·.inf) = stats.map some := by
  refine kkp_id none names betas a b c stats hs hn ?_
  have hpos : 0 < betas.length := List.length_pos_iff.2 h0
  unfold varIndices lastV
  simp only [if_true]
  have hl : ((kkpNames names).length : ℤ) + ((stats.length : ℤ) - ((betas ++ [a, b, c]).length : ℕ)) = (betas.length : ℕ) := by
    simp [kkpNames, hs, hn]
  rw [hl]
  have := pySlice_nat (kkpNames names) 1 betas.length (by simp [kkpNames, hn]) (by simp [kkpNames])
  rw [Nat.cast_one] at this
  rw [this]
  congr 1
  simp [kkpNames, hn]
  omega

theorem shown_lt (names : List String) (kr p : ℕ) (hp : p < names.length) : shown names kr p < names.length := by
  unfold shown
  split
  · exact hp
  · exact List.idxOf_lt_length_iff.2 (by rw [getD_lt _ _ hp]; exact List.getElem_mem _)

/-- `C185` (`GM_KKP` with regimes). When the names of the coefficients (label and variable) are distinct, the table has one row for every
coefficient, regime by regime, with its own name, value and inference, and then the three parameters. -/
theorem C185_kkp_regimes (kr nr : ℕ) (hk : 0 < kr) (names : List String) (hd : names.Nodup) (betas : List β) (a b c : β)
    (stats : List σ) (hb : betas.length = nr * kr) (hs : stats.length = betas.length) (hn : names.length = betas.length) :
    ∃ rows, kkpTable (some (kkpAttrs kr nr)) names (betas ++ [a, b, c]) stats =
        .ok (rows ++ [⟨"lambda", a, none⟩, ⟨" sigma2_v", b, none⟩, ⟨"sigma2_1", c, none⟩]) ∧
      rows.map (·.name) = names ∧ rows.map (·.beta) = betas ∧ rows.map (·.inf) = stats.map some := by
  refine kkp_id _ names betas a b c stats hs hn ?_
  rw [hs, hb, kkp_indices names kr nr hk (hn.trans hb) _ (by simp [hb])]
  conv_rhs => rw [← List.map_id (List.range (nr * kr))]
  apply List.map_congr_left
  intro p hp
  rw [List.mem_range] at hp
  have hp' : p < names.length := by omega
  unfold shown
  split
  · rfl
  · rw [getD_lt _ _ hp']
    exact hd.idxOf_getElem p hp'

/-- `C185` fails for variables of the same name: in the table of `GM_KKP` with regimes the row of a variable (not the constant) whose name
occurs before shows the coefficient and the inference of the first of them; its own coefficient is printed nowhere. -/
theorem C185_twins_violated (kr nr : ℕ) (hk : 0 < kr) (names : List String) (betas : List β) (a b c : β)
    (stats : List σ) (hb : betas.length = nr * kr) (hs : stats.length = betas.length) (hn : names.length = betas.length)
    (hd : (betas ++ [a, b, c]).Nodup) (q p : ℕ) (hqp : q < p) (hp : p < names.length) (hp' : p < betas.length) (hm : p % kr ≠ 0)
    (he : names[q] = names[p]) :
    ∃ rows, kkpTable (some (kkpAttrs kr nr)) names (betas ++ [a, b, c]) stats = .ok rows ∧ rows.map (·.name) = kkpNames names ∧
      betas[p] ∉ rows.map (·.beta) := by
  obtain ⟨rows, h1, h2, h3, -⟩ := kkp_rows (some (kkpAttrs kr nr)) names betas a b c stats hs hn (shown names kr)
    (fun p hp => by rw [← hn]; exact shown_lt _ _ _ (by omega))
    (by rw [hs, hb, kkp_indices names kr nr hk (hn.trans hb) _ (by simp [hb])])
  refine ⟨_, h1, ?_, ?_⟩
  · rw [List.map_append, h2]
    unfold kkpNames
    congr 1
    conv_rhs => rw [← range_getD names ""]
    rw [hn]
    apply List.map_congr_left
    intro i hi
    rw [List.mem_range] at hi
    unfold shown
    split
    · rfl
    · have hi' : i < names.length := by omega
      rw [getD_lt _ _ hi', getD_lt _ _ (List.idxOf_lt_length_iff.2 (List.getElem_mem _)), List.getElem_idxOf]
  · intro hmem
    rw [List.map_append, List.mem_append] at hmem
    rcases hmem with hmem | hmem
    · rw [List.mem_map] at hmem
      obtain ⟨r, hr, hr'⟩ := hmem
      have : some r.beta ∈ rows.map (fun r => some r.beta) := List.mem_map_of_mem hr
      rw [h3, List.mem_map] at this
      obtain ⟨i, hi, hi'⟩ := this
      rw [List.mem_range] at hi
      have hlt : shown names kr i < betas.length := by rw [← hn]; exact shown_lt _ _ _ (by omega)
      rw [List.getElem?_eq_getElem hlt, Option.some.injEq, hr'] at hi'
      have hdb : betas.Nodup := hd.of_append_left
      have e := (hdb.getElem_inj_iff).1 hi'
      unfold shown at e
      split at e
      · next h => exact hm (e ▸ h)
      · have hi2 : i < names.length := by omega
        rw [getD_lt _ _ hi2] at e
        have e2 : names[p] = names[i] := by
          have := List.getElem_idxOf (List.idxOf_lt_length_iff.2 (List.getElem_mem hi2))
          simp only [e] at this
          exact this
        have : names.idxOf names[i] ≤ q := by
          rw [← e2, ← he]
          by_contra hlt
          simpa using List.not_of_lt_findIdx (p := (· == names[q])) (not_le.1 hlt)
        omega
    · rw [List.nodup_append] at hd
      have hin : betas[p] ∈ [a, b, c] := by simpa using hmem
      exact hd.2.2 _ (List.getElem_mem hp') _ hin rfl

/-- `C185` fails for the variance matrix: with `vm=True` `GM_KKP` prints three more headings (lambda and the two variances) than
columns. -/
theorem C185_vm_violated {α : Type} (names : List String) (vm : List (List α)) (h : ∀ r ∈ vm, r.length = names.length) :
    (vmTable (kkpNames names) vm).1.length = names.length + 3 ∧ ∀ r ∈ (vmTable (kkpNames names) vm).2, r.length = names.length :=
  ⟨by simp [vmTable, kkpNames], h⟩

/-- Two regimes and two variables meet the hypotheses of `C185_kkp_regimes`; with a variable listed twice those of
`C185_twins_violated`. -/
example : (["0_CONSTANT", "0_x", "1_CONSTANT", "1_x"] : List String).Nodup ∧
    kkpTable (some (kkpAttrs 2 2)) ["0_CONSTANT", "0_x", "1_CONSTANT", "1_x"] [10, 11, 12, 13, 1, 2, 3] [0, 1, 2, 3] =
      .ok [⟨"0_CONSTANT", 10, some 0⟩, ⟨"0_x", 11, some 1⟩, ⟨"1_CONSTANT", 12, some 2⟩, ⟨"1_x", 13, some 3⟩,
        ⟨"lambda", 1, none⟩, ⟨" sigma2_v", 2, none⟩, ⟨"sigma2_1", 3, none⟩] ∧
    kkpTable (some (kkpAttrs 3 1)) ["0_CONSTANT", "0_x", "0_x"] [10, 11, 12, 1, 2, 3] [0, 1, 2] =
      .ok [⟨"0_CONSTANT", 10, some 0⟩, ⟨"0_x", 11, some 1⟩, ⟨"0_x", 11, some 1⟩,
        ⟨"lambda", 1, none⟩, ⟨" sigma2_v", 2, none⟩, ⟨"sigma2_1", 3, none⟩] := by
  refine ⟨by decide, rfl, rfl⟩

/-- The random effects error panel with two regressors. -/
example : mlTable .reError (some ["a", "b"]) "y" 3 [1, 2, 3, 4, 5] [6, 7, 8, 9, 10] =
    .ok [⟨"CONSTANT", 1, some 6⟩, ⟨"a", 2, some 7⟩, ⟨"b", 3, some 8⟩, ⟨"lambda", 4, some 9⟩, ⟨"sig2_u", 5, some 10⟩] := rfl

end Spreg.PanelTable
