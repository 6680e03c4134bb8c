import Verif.Props.Output
import Mathlib.Data.List.GetD
import Mathlib.Tactic.Linarith
/-
C131: the rows of the Chow table are named after the variables that they test. C132: `cols2regi` in GM_Lag_Regimes.
-/
namespace Spreg.Output
open Spreg Spreg.Regimes

/-! ### C131 -/

/-- The names of the variables that vary by regime, the constant first (specification). -/
def varying (many : Bool) (flags : List Bool) (names : List String) : List String :=
  (if many then ["CONSTANT"] else []) ++ ((List.range names.length).filter fun i => flags.getD i false).map fun i => names.getD i ""

/-- The flags that a user means by `cols2regi` (specification). -/
def flagsOf (k : ℕ) : Cols2Regi → List Bool
  | .all => List.replicate k true
  | .list l => l

theorem mapM_at (N : List String) (idx : List ℕ) (h : ∀ i ∈ idx, i < N.length) : idx.mapM (at? N) = .ok (idx.map fun i => N.getD i "") := by
  rw [mapM_ok]
  induction idx with
  | nil => exact .nil
  | cons i idx ih =>
    rw [List.map_cons]
    refine .cons ?_ (ih fun j hj => h j (List.mem_cons_of_mem _ hj))
    have hi := h i List.mem_cons_self
    unfold at?
    rw [List.getElem?_eq_getElem hi, List.getD_eq_getElem _ _ hi]

theorem filter_range_all (flags : List Bool) (names : List String) (hl : names.length ≤ flags.length) (h : ∀ b ∈ flags, b = true) :
    ((List.range names.length).filter fun i => flags.getD i false).map (fun i => names.getD i "") = names := by
  have : (List.range names.length).filter (fun i => flags.getD i false) = List.range names.length := by
    rw [List.filter_eq_self]
    intro i hi
    have hi' : i < flags.length := (List.mem_range.1 hi).trans_le hl
    rw [List.getD_eq_getElem _ _ hi']
    exact h _ (List.getElem_mem hi')
  rw [this]
  apply List.ext_getElem
  · simp
  · intro i h1 h2; simp [h2]

theorem whereTrue_short (l : List Bool) (n : ℕ) (h : l.length ≤ n) :
    (List.range n).filter (fun i => l.getD i false) = whereTrue l := by
  unfold whereTrue
  obtain ⟨d, rfl⟩ := Nat.exists_eq_add_of_le h
  rw [List.range_add, List.filter_append]
  have : ((List.range d).map (l.length + ·)).filter (fun i => l.getD i false) = [] := by
    rw [List.filter_eq_nil_iff]
    intro i hi
    obtain ⟨j, -, rfl⟩ := List.mem_map.1 hi
    rw [List.getD_eq_default _ _ (by omega)]
    simp
  rw [this, List.append_nil]

/-- The names given when the stored flags are those of the variables (possibly with a False for the spatial lag at the end). -/
theorem namesChow_eq (many : Bool) (c2r : Cols2Regi) (names : List String) (hl : (flagsOf names.length c2r).length = names.length)
    (nlambda : ℕ) :
    namesChow ("CONSTANT" :: names) c2r (if many then .many else .one) nlambda =
      .ok (varying many (flagsOf names.length c2r) names ++ if nlambda > 1 then ["lambda"] else []) := by
  have hbase : chowBase ("CONSTANT" :: names) c2r =
      .ok (((List.range names.length).filter fun i => (flagsOf names.length c2r).getD i false).map fun i => names.getD i "") := by
    unfold chowBase
    simp only [List.tail_cons]
    cases c2r with
    | all =>
      simp only [flagsOf]
      rw [filter_range_all _ _ (by simp) (by intro b hb; exact (List.mem_replicate.1 hb).2)]
    | list l =>
      simp only [flagsOf] at hl ⊢
      split_ifs with h
      · rw [filter_range_all _ _ hl.ge h.2]
      · rw [whereTrue_short l _ hl.le, mapM_at]
        intro i hi
        have := (List.mem_filter.1 hi).1
        rw [List.mem_range, hl] at this
        exact this
  unfold namesChow
  rw [hbase]
  unfold varying
  cases many
  · by_cases h : nlambda > 1 <;> simp [h, Except.map]
  · by_cases h : nlambda > 1 <;> simp [h, Except.map]

theorem chowTable_eq {C : Type} : ∀ (ns : List String) (cs : List C), ns.length = cs.length →
    chowTable ns cs = (ns.zip cs).map fun p => (some p.1, some p.2)
  | [], [], _ => rfl
  | n :: ns, [], h => by simp at h
  | [], c :: cs, h => by simp at h
  | n :: ns, c :: cs, h => by
    rw [chowTable, chowTable_eq ns cs (by simpa using h)]; rfl

theorem getElem?_blocks {L : Type} (str : L → String) (vs : List String) : ∀ (rs : List L) (g v : ℕ) (hg : g < rs.length) (hv : v < vs.length),
    (rs.flatMap fun r => vs.map fun i => str r ++ "_" ++ i)[g * vs.length + v]? = some (str rs[g] ++ "_" ++ vs[v]) := by
  intro rs
  induction rs with
  | nil => intro g v hg; simp at hg
  | cons r t ih =>
    intro g v hg hv
    rw [List.flatMap_cons]
    cases g with
    | zero =>
      rw [List.getElem?_append_left (by simp; omega)]
      simp [hv]
    | succ g =>
      rw [List.getElem?_append_right (by simp [Nat.add_mul]; omega)]
      rw [List.length_map, show (g + 1) * vs.length + v - vs.length = g * vs.length + v by rw [Nat.add_mul]; omega]
      rw [ih g v (by simpa using hg) hv]
      simp

theorem length_blocks {L : Type} (str : L → String) (vs : List String) (rs : List L) :
    (rs.flatMap fun r => vs.map fun i => str r ++ "_" ++ i).length = rs.length * vs.length := by
  induction rs with
  | nil => simp
  | cons r t ih => rw [List.flatMap_cons, List.length_append, ih, List.length_map, List.length_cons]; ring

theorem range_filter_succ (l : List Bool) (b : Bool) :
    (List.range (l.length + 1)).filter (fun i => (b :: l).getD i false) =
      (if b then [0] else []) ++ ((List.range l.length).filter fun i => l.getD i false).map (· + 1) := by
  rw [List.range_succ_eq_map, List.filter_cons, List.filter_map]
  have : ((fun i => (b :: l).getD i false) ∘ Nat.succ) = fun i => l.getD i false := by
    funext i; simp
  rw [this]
  cases b <;> simp

theorem varying_select (many : Bool) (flags : List Bool) (names : List String) (hl : flags.length = names.length) :
    varying many flags names = select (many :: flags) true ("CONSTANT" :: names) := by
  rw [select_eq true "" _ _ (by simp [hl])]
  have e : (List.range (many :: flags).length).filter (fun v => decide ((many :: flags)[v]? = some true)) =
      (List.range (flags.length + 1)).filter fun i => (many :: flags).getD i false := by
    rw [List.length_cons]
    refine List.filter_congr fun i hi => ?_
    rw [List.mem_range] at hi
    rw [List.getElem?_eq_getElem (by simpa using hi), List.getD_eq_getElem _ _ (by simpa using hi)]
    cases (many :: flags)[i]'(by simpa using hi) <;> simp
  rw [e, range_filter_succ, List.map_append, List.map_map]
  unfold varying
  rw [hl]
  cases many
  · simp only [Bool.false_eq_true, if_false, List.nil_append, List.map_nil]
    refine List.map_congr_left fun i _ => ?_
    simp
  · simp only [if_true]
    congr 1

/-- C131, models without endogenous variables (OLS_Regimes, GM_Error_Regimes and the like, single system): for every `cols2regi` and
`constant_regi`, the Chow table has one row per varying coefficient; row `v` holds statistic `v`, and its name is the name that the
coefficient table gives, after the regime, to the coefficients that statistic `v` compares (`C124_chow`: position `coefPos`). -/
theorem C131_ols {L V C : Type} [DecidableEq L] [Zero V] [One V] (str : L → String) (cols : List (List V)) (nobs : ℕ) (regimes : List L)
    (many : Bool) (c2r : Cols2Regi) (names : List String) (rs : List L) (hne : names ≠ []) (hc : names.length = cols.length)
    (hl : (flagsOf names.length c2r).length = names.length) (f : Frame V VType)
    (hf : regimesFrame str cols nobs regimes (if many then .many else .one) c2r names rs = .ok f)
    (regi : List C) (hr : regi.length = f.kr) :
    chowOutput ("CONSTANT" :: names) c2r (if many then .many else .one) 0 regi =
      some (((varying many (flagsOf names.length c2r) names).zip regi).map fun p => (some p.1, some p.2)) ∧
    (varying many (flagsOf names.length c2r) names).length = f.kr ∧
    ∀ v g (hv : v < (varying many (flagsOf names.length c2r) names).length) (hg : g < rs.length),
      f.names[coefPos f.kr 0 rs.length v g]? = some (str rs[g] ++ "_" ++ (varying many (flagsOf names.length c2r) names)[v]) := by
  have hfr : f.names = (setNameXRegimes str ("CONSTANT" :: names) (many :: flagsOf names.length c2r) rs
      (VType.o :: List.replicate cols.length VType.x)).1 ∧
      f.kr = ((many :: flagsOf names.length c2r).filter (· = true)).length := by
    cases c2r with
    | all =>
      simp only [flagsOf, hc]
      unfold regimesFrame at hf
      cases many <;> simp only [Bool.false_eq_true, if_false, if_true, Except.bind, hne] at hf <;> obtain rfl := Except.ok.inj hf <;>
        exact ⟨rfl, rfl⟩
    | list l =>
      simp only [flagsOf] at hl ⊢
      have ht : l.take cols.length = l := by rw [← hc, ← hl, List.take_length]
      unfold regimesFrame at hf
      simp only [ht] at hf
      cases many <;> simp only [Bool.false_eq_true, if_false, if_true, Except.bind, hne] at hf <;> obtain rfl := Except.ok.inj hf <;>
        exact ⟨rfl, rfl⟩
  have hsel := varying_select many (flagsOf names.length c2r) names hl
  have hlen : (varying many (flagsOf names.length c2r) names).length = f.kr := by
    rw [hsel, hfr.2, length_select true _ _ (by simp [hl])]
  refine ⟨?_, hlen, ?_⟩
  · unfold chowOutput
    rw [namesChow_eq many c2r names hl 0]
    simp only [gt_iff_lt, not_lt_zero, if_false, List.append_nil]
    rw [chowTable_eq _ _ (by rw [hlen, hr])]
  · intro v g hv hg
    rw [hfr.1]
    simp only [setNameXRegimes]
    rw [← hsel]
    have h1 := getElem?_blocks str (varying many (flagsOf names.length c2r) names) rs g v hg hv
    rw [← hlen]
    have hp : coefPos (varying many (flagsOf names.length c2r) names).length 0 rs.length v g =
        g * (varying many (flagsOf names.length c2r) names).length + v := by
      unfold coefPos
      rw [if_pos (by simpa using hv)]; simp
    rw [hp, List.getElem?_append_left, h1]
    rw [length_blocks]
    have := coefPos_lt (kr := (varying many (flagsOf names.length c2r) names).length) (kryd := 0) (nr := rs.length) (Nat.zero_le _) hv hg
    rw [hp] at this
    linarith [mul_comm rs.length (varying many (flagsOf names.length c2r) names).length]

/-- The hypotheses of `C131_ols` are met: constant fixed, first variable varying, second fixed; the table has one row, named `a`. -/
example : ∃ f : Frame ℤ VType, regimesFrame id [[1, 2, 3, 4], [5, 6, 7, 8]] 4 ["r", "r", "s", "s"] .one (.list [true, false]) ["a", "b"]
      ["r", "s"] = .ok f ∧ f.kr = 1 ∧
    chowOutput ["CONSTANT", "a", "b"] (.list [true, false]) .one 0 [(7 : ℕ)] = some [(some "a", some 7)] :=
  ⟨_, rfl, rfl, by decide +kernel⟩

theorem select_append {α : Type} (b : Bool) (m1 m2 : List Bool) (l1 l2 : List α) (h : m1.length = l1.length) :
    select (m1 ++ m2) b (l1 ++ l2) = select m1 b l1 ++ select m2 b l2 := by
  unfold select
  rw [List.zip_append h, List.filter_append, List.map_append]

/-- C131, partial, two stage models and spatial lag models with regimes, single system (TSLS_Regimes; GM_Lag_Regimes and ML_Lag_Regimes,
where the last endogenous variable is the spatial lag, with flag False): as `C131_ols`, when all exogenous variables and the constant
vary or no endogenous variable does. Missing: the other cases, where the tests themselves compare the wrong coefficients
(`C61_violated`). -/
theorem C131_tsls_partial {L V C : Type} [DecidableEq L] [Zero V] [One V] (str : L → String) (xcols ycols : List (List V)) (nobs : ℕ)
    (regimes : List L) (many : Bool) (mx my : List Bool) (xn yn : List String) (rs : List L) (hx : mx.length = xn.length)
    (hy : my.length = yn.length) (hxc : xn.length = xcols.length) (hyc : yn.length = ycols.length)
    (hgood : (many = true ∧ ∀ b ∈ mx, b = true) ∨ (∀ b ∈ my, b = false)) (regi : List C)
    (hr : regi.length = (tslsDesign xcols ycols nobs regimes many (mx ++ my) rs).2.1) :
    let d := tslsDesign xcols ycols nobs regimes many (mx ++ my) rs
    let vs := varying many (mx ++ my) (xn ++ yn)
    chowOutput ("CONSTANT" :: (xn ++ yn)) (.list (mx ++ my)) (if many then .many else .one) 0 regi =
      some ((vs.zip regi).map fun p => (some p.1, some p.2)) ∧ vs.length = d.2.1 ∧
    ∀ v g (hv : v < vs.length) (hg : g < rs.length),
      (tslsNames str xn yn many (mx ++ my) rs)[coefPos d.2.1 d.2.2.2 rs.length v g]? = some (str rs[g] ++ "_" ++ vs[v]) := by
  intro d vs
  have hl : (flagsOf (xn ++ yn).length (.list (mx ++ my))).length = (xn ++ yn).length := by simp [flagsOf, hx, hy]
  have hvs : vs = select (many :: mx) true ("CONSTANT" :: xn) ++ select my true yn := by
    have := varying_select many (mx ++ my) (xn ++ yn) (by simp [hx, hy])
    rw [← List.cons_append, ← List.cons_append, select_append _ _ _ _ _ (by simp [hx])] at this
    exact this
  have htake : (mx ++ my).take xcols.length = mx := by rw [← hxc, ← hx, List.take_left']; rfl
  have hdrop : (mx ++ my).drop ((mx ++ my).length - ycols.length) = my := by
    rw [List.length_append, ← hyc, ← hy, Nat.add_sub_cancel, List.drop_left']; rfl
  have hkx : (select (many :: mx) true ("CONSTANT" :: xn)).length = ((many :: mx).filter (· = true)).length :=
    length_select true _ _ (by simp [hx])
  have hky : (select my true yn).length = (my.filter (· = true)).length := length_select true _ _ hy
  have hkr : d.2.1 = (select (many :: mx) true ("CONSTANT" :: xn)).length + (select my true yn).length := by
    simp only [d, tslsDesign, yendFrame, htake, hdrop]
    rw [hkx, hky]
  have hkryd : d.2.2.2 = (select my true yn).length := by
    simp only [d, tslsDesign, yendFrame, hdrop]
    rw [hky]
  have hlen : vs.length = d.2.1 := by rw [hvs, List.length_append, hkr]
  refine ⟨?_, hlen, ?_⟩
  · unfold chowOutput
    rw [namesChow_eq many (.list (mx ++ my)) (xn ++ yn) hl 0]
    simp only [gt_iff_lt, not_lt_zero, if_false, List.append_nil]
    change some (chowTable vs regi) = _
    rw [chowTable_eq _ _ (by rw [hlen, hr])]
  · intro v g hv hg
    have htake' : (mx ++ my).take xn.length = mx := by rw [hxc]; exact htake
    have hdrop' : (mx ++ my).drop ((mx ++ my).length - yn.length) = my := by rw [hyc]; exact hdrop
    unfold tslsNames
    rw [htake', hdrop', hkr, hkryd]
    simp only [setNameXRegimes]
    have hglob : select (many :: mx) false ("CONSTANT" :: xn) = [] ∨ select my true yn = [] := by
      rcases hgood with ⟨h1, h2⟩ | h1
      · left
        rw [← List.length_eq_zero_iff, length_select false _ _ (by simp [hx]), List.length_eq_zero_iff, List.filter_eq_nil_iff]
        intro b hb
        rcases List.mem_cons.1 hb with rfl | hb
        · simp [h1]
        · simp [h2 b hb]
      · right
        rw [← List.length_eq_zero_iff, length_select true _ _ hy, List.length_eq_zero_iff, List.filter_eq_nil_iff]
        intro b hb
        simp [h1 b hb]
    simp only [hvs] at hv ⊢
    generalize select (many :: mx) true ("CONSTANT" :: xn) = A at *
    generalize select my true yn = B at *
    generalize select (many :: mx) false ("CONSTANT" :: xn) = GA at *
    generalize select my false yn = GB at *
    have hAB : A.length + B.length - B.length = A.length := by omega
    unfold coefPos
    rw [hAB]
    by_cases hvA : v < A.length
    · rw [if_pos hvA]
      have h1 := getElem?_blocks str A rs g v hg hvA
      have hlt := (List.getElem?_eq_some_iff.1 h1).1
      rw [List.getElem?_append_left (by rw [List.length_append]; omega), List.getElem?_append_left hlt, h1,
        List.getElem_append_left hvA]
    · rw [if_neg hvA]
      have hvB : v - A.length < B.length := by rw [List.length_append] at hv; omega
      rcases hglob with rfl | rfl
      · have h1 := getElem?_blocks str B rs g (v - A.length) hg hvB
        have hlt := (List.getElem?_eq_some_iff.1 h1).1
        rw [List.map_nil, List.append_nil, List.getElem?_append_right (by rw [length_blocks]; omega), length_blocks,
          show rs.length * A.length + g * B.length + (v - A.length) - rs.length * A.length = g * B.length + (v - A.length) by omega,
          List.getElem?_append_left hlt, h1, List.getElem_append_right (by omega)]
      · simp at hvB

/-- The hypotheses of `C131_tsls_partial` are met: GM_Lag_Regimes with one exogenous variable, everything varying but the spatial lag. -/
example : tslsNames id ["x"] ["W_y"] true [true, false] ["a", "b"] = ["a_CONSTANT", "a_x", "b_CONSTANT", "b_x", "_Global_W_y"] ∧
    (tslsDesign [[2, 3, 5, 7]] [[11, 13, 17, (19 : ℤ)]] 4 ["a", "a", "b", "b"] true [true, false] ["a", "b"]).2.1 = 2 ∧
    chowOutput ["CONSTANT", "x", "W_y"] (.list [true, false]) .many 0 [(5 : ℕ), 6] = some [(some "CONSTANT", some 5), (some "x", some 6)] := by
  decide +kernel

/-! #### ML_Error_Regimes -/

theorem mapM_at_ok (N : List String) (idx : List ℕ) (r : List String) (h : idx.mapM (at? N) = .ok r) :
    r = idx.map (fun i => N.getD i "") ∧ ∀ i ∈ idx, i < N.length := by
  rw [mapM_ok] at h
  induction h with
  | nil => exact ⟨rfl, by simp⟩
  | @cons i a idx r hi _ ih =>
    have hlt : i < N.length := by
      by_contra hn
      unfold at? at hi
      rw [List.getElem?_eq_none (by omega)] at hi
      cases hi
    refine ⟨?_, ?_⟩
    · unfold at? at hi
      rw [List.getElem?_eq_getElem hlt] at hi
      rw [List.map_cons, ← ih.1, List.getD_eq_getElem _ _ hlt]
      congr 1
      exact (Except.ok.inj hi).symm
    · intro j hj
      rcases List.mem_cons.1 hj with rfl | hj
      · exact hlt
      · exact ih.2 j hj

/-- C131 fails for ML_Error_Regimes (single system): the flags are stored with that of the constant in front, so the names are the
right ones only if everything varies or nothing does. -/
theorem C131_ml_error_violated (many : Bool) (c2r : Cols2Regi) (names : List String) (hnd : names.Nodup)
    (hl : (flagsOf names.length c2r).length = names.length) :
    ∃ c, mlErrorCols2regi (if many then .many else .one) c2r names.length = .ok c ∧
      (namesChow ("CONSTANT" :: names) c (if many then .many else .one) 0 = .ok (varying many (flagsOf names.length c2r) names) ↔
        (many = true ∧ ∀ b ∈ flagsOf names.length c2r, b = true) ∨ (many = false ∧ ∀ b ∈ flagsOf names.length c2r, b = false)) := by
  refine ⟨.list (many :: flagsOf names.length c2r), ?_, ?_⟩
  · unfold mlErrorCols2regi
    have := C62_check_cols2regi many c2r names.length true
    have e : (match c2r with | .all => List.replicate names.length true | .list l => l) = flagsOf names.length c2r := by
      cases c2r <;> rfl
    cases c2r with
    | all =>
      simp only [flagsOf, List.length_replicate, if_true] at this ⊢
      rw [this]; rfl
    | list l =>
      simp only [flagsOf] at hl this ⊢
      rw [if_pos hl] at this
      rw [this]; rfl
  · generalize flagsOf names.length c2r = fl at hl ⊢
    have hw : whereTrue (many :: fl) = (if many then [0] else []) ++ (whereTrue fl).map (· + 1) := by
      unfold whereTrue
      rw [List.length_cons, range_filter_succ]
    have hwl : ∀ i, i ∈ whereTrue fl ↔ fl[i]? = some true := by
      intro i
      unfold whereTrue
      rw [List.mem_filter, List.mem_range]
      constructor
      · rintro ⟨h1, h2⟩
        rw [List.getD_eq_getElem _ _ h1] at h2
        rw [List.getElem?_eq_getElem h1]; simpa using h2
      · intro h
        obtain ⟨h1, h2⟩ := List.getElem?_eq_some_iff.1 h
        exact ⟨h1, by rw [List.getD_eq_getElem _ _ h1]; exact h2⟩
    have hvar : varying many fl names = (if many then ["CONSTANT"] else []) ++ (whereTrue fl).map fun i => names.getD i "" := by
      unfold varying
      rw [whereTrue_short fl _ hl.le]
    have hb1 : (∀ b ∈ many :: fl, b = true) → chowBase ("CONSTANT" :: names) (.list (many :: fl)) = .ok names := by
      intro h
      unfold chowBase
      simp only
      rw [if_pos ⟨by simp, h⟩]; rfl
    have hb2 : (¬ ∀ b ∈ many :: fl, b = true) →
        chowBase ("CONSTANT" :: names) (.list (many :: fl)) = (whereTrue (many :: fl)).mapM fun i => at? names i := by
      intro h
      unfold chowBase
      simp only
      rw [if_neg (by rintro ⟨-, h'⟩; exact h h')]; rfl
    unfold namesChow
    simp only [gt_iff_lt, not_lt_zero, if_false]
    by_cases hall : ∀ b ∈ many :: fl, b = true
    · have hm : many = true := hall many List.mem_cons_self
      have hf : ∀ b ∈ fl, b = true := fun b hb => hall b (List.mem_cons_of_mem _ hb)
      rw [hb1 hall]
      refine iff_of_true ?_ (Or.inl ⟨hm, hf⟩)
      unfold varying
      rw [filter_range_all _ _ hl.ge hf]
      simp [hm, Except.map]
    · rw [hb2 hall, hw]
      cases many with
      | true =>
        refine iff_of_false ?_ ?_
        · intro h
          cases hb : (((if true = true then [0] else []) ++ (whereTrue fl).map (· + 1)).mapM fun i => at? names i) with
          | error e => rw [hb] at h; cases h
          | ok r =>
            rw [hb] at h
            have h1 := (mapM_at_ok names _ r hb).1
            have h2 := congrArg List.length (Except.ok.inj h)
            rw [hvar] at h2
            simp [h1] at h2
        · rintro (⟨-, h⟩ | ⟨h, -⟩)
          · apply hall
            intro b hb
            rcases List.mem_cons.1 hb with rfl | hb
            · rfl
            · exact h b hb
          · cases h
      | false =>
        simp only [Bool.false_eq_true, if_false, List.nil_append, false_and, false_or, true_and] at hvar ⊢
        constructor
        · intro h b hb
          by_contra hbt
          rw [Bool.not_eq_false] at hbt
          subst hbt
          obtain ⟨i, hi⟩ := List.mem_iff_getElem?.1 hb
          have hiw := (hwl i).2 hi
          cases hbm : (((whereTrue fl).map (· + 1)).mapM fun i => at? names i) with
          | error e => rw [hbm] at h; cases h
          | ok r =>
            rw [hbm] at h
            obtain ⟨h1, h2⟩ := mapM_at_ok names _ r hbm
            have h3 : r = varying false fl names := by simpa [Except.map] using h
            rw [h1, hvar, List.map_map] at h3
            have h4 := List.map_inj_left.1 h3 i hiw
            have h5 := h2 (i + 1) (List.mem_map.2 ⟨i, hiw, rfl⟩)
            simp only [Function.comp] at h4
            rw [List.getD_eq_getElem _ _ h5, List.getD_eq_getElem _ _ (by omega)] at h4
            have := (hnd.getElem_inj_iff).1 h4
            omega
        · intro h
          have h0 : whereTrue fl = [] := by
            rw [List.eq_nil_iff_forall_not_mem]
            intro i hi
            have := h true (List.mem_of_getElem? ((hwl i).1 hi))
            cases this
          rw [hvar, h0]
          rfl

/-- In particular with `constant_regi='one'` and `cols2regi='all'` an index error occurs, is swallowed, and there is no Chow table. -/
theorem C131_ml_error_lost_violated {C : Type} (names : List String) (hne : names ≠ []) (regi : List C) :
    ∃ c, mlErrorCols2regi .one .all names.length = .ok c ∧ chowOutput ("CONSTANT" :: names) c .one 0 regi = none := by
  refine ⟨.list (false :: List.replicate names.length true), ?_, ?_⟩
  · unfold mlErrorCols2regi
    have := C62_check_cols2regi false .all names.length true
    simp only [List.length_replicate, if_true, Bool.false_eq_true, if_false] at this
    rw [this]; rfl
  · unfold chowOutput
    cases hc : namesChow ("CONSTANT" :: names) (.list (false :: List.replicate names.length true)) .one 0 with
    | error e => rfl
    | ok r =>
      exfalso
      unfold namesChow chowBase at hc
      simp only [List.tail_cons] at hc
      rw [if_neg (by rintro ⟨-, h⟩; exact absurd (h false List.mem_cons_self) (by simp))] at hc
      cases hb : ((whereTrue (false :: List.replicate names.length true)).mapM fun i => at? names i) with
      | error e => rw [hb] at hc; cases hc
      | ok r' =>
        have h1 := (mapM_at_ok names _ r' hb).2 names.length (by
          unfold whereTrue
          rw [List.mem_filter, List.mem_range]
          refine ⟨by simp, ?_⟩
          obtain ⟨m, hm⟩ := Nat.exists_eq_succ_of_ne_zero (by rw [ne_eq, List.length_eq_zero_iff]; exact hne : names.length ≠ 0)
          rw [hm]
          simp)
        omega

/-- C131, models with one error equation per regime whose variance matrix covers `lambda` (GM_Error_Het/Hom_Regimes,
ML_Error_Regimes): the last row is `lambda`. -/
theorem C131_lambda {C : Type} (names : List String) (nr : ℕ) (hnr : 2 ≤ nr) (regi : List C) (hr : regi.length = names.length + 2) :
    chowOutput ("CONSTANT" :: names) .all .many nr regi =
      some ((("CONSTANT" :: names ++ ["lambda"]).zip regi).map fun p => (some p.1, some p.2)) := by
  unfold chowOutput
  have : namesChow ("CONSTANT" :: names) .all .many nr = .ok ("CONSTANT" :: names ++ ["lambda"]) := by
    unfold namesChow chowBase
    simp only [List.tail_cons, Except.map, if_true]
    rw [if_pos (by omega)]
  rw [this]
  simp only
  rw [chowTable_eq _ _ (by simp [hr])]

/-- C131 fails for GM_Error_Regimes and GM_Endog_Error_Regimes with `regime_err_sep=True`: there is no test of `lambda` (no variance),
and yet the table has a row for it, without values. -/
theorem C131_lambda_violated {C : Type} (names : List String) (nr : ℕ) (hnr : 2 ≤ nr) (regi : List C) (hr : regi.length = names.length + 1) :
    chowOutput ("CONSTANT" :: names) .all .many nr regi =
      some (((("CONSTANT" :: names).zip regi).map fun p => (some p.1, some p.2)) ++ [(some "lambda", none)]) := by
  unfold chowOutput
  have : namesChow ("CONSTANT" :: names) .all .many nr = .ok ("CONSTANT" :: names ++ ["lambda"]) := by
    unfold namesChow chowBase
    simp only [List.tail_cons, Except.map, if_true]
    rw [if_pos (by omega)]
  rw [this]
  simp only
  have h : ∀ (ns : List String) (cs : List C), ns.length = cs.length →
      chowTable (ns ++ ["lambda"]) cs = ((ns.zip cs).map fun p => (some p.1, some p.2)) ++ [(some "lambda", none)] := by
    intro ns
    induction ns with
    | nil => intro cs h; cases cs with
      | nil => rfl
      | cons c cs => simp at h
    | cons n ns ih => intro cs h; cases cs with
      | nil => simp at h
      | cons c cs =>
        rw [List.cons_append, chowTable, ih cs (by simpa using h)]; rfl
  rw [h _ _ (by simp [hr])]

/-! ### C132 -/

/-- C132, partial: GM_Lag_Regimes accepts 'all' (with and without spatial lags of x) and, without spatial lags of x, every list with
one flag per exogenous and endogenous variable, and appends False for the spatial lag of y. Missing: lists together with spatial lags
of x, `C132_list_violated`. -/
theorem C132_gm_partial (many : Bool) (slx kx kwx kye : ℕ) :
    gmLagCols2regi (if many then .many else .one) .all slx kx kwx kye =
      .ok (List.replicate (kx + (if slx > 0 then kwx else 0) + kye) true ++ [false]) ∧
    ∀ l : List Bool, gmLagCols2regi (if many then .many else .one) (.list l) 0 kx kwx kye =
      if l.length = kx + kye then .ok (l ++ [false]) else .error .exception := by
  constructor
  · unfold gmLagCols2regi
    by_cases h : slx > 0
    · simp only [h, if_true, checkCols2regi, Except.bind, Except.map, bind]
      simp only [Bool.false_eq_true, if_false, List.nil_append, List.length_replicate, Nat.sub_zero, ne_eq, not_true_eq_false]
      rw [show kx + kwx + (kye + 1) = (kx + kwx + kye) + 1 by omega, List.replicate_succ', List.dropLast_concat]
      simp
    · simp only [h, if_false, checkCols2regi, Except.bind, Except.map, bind]
      simp only [Bool.false_eq_true, if_false, List.nil_append, List.length_replicate, Nat.sub_zero, ne_eq, not_true_eq_false]
      simp [Nat.add_assoc]
  · intro l
    unfold gmLagCols2regi
    simp only [gt_iff_lt, lt_irrefl, if_false, checkCols2regi, Except.bind, bind, Bool.false_eq_true, List.nil_append, Nat.sub_zero, ne_eq]
    by_cases h : l.length = kx + kye
    · simp [h, Nat.add_assoc]
    · simp [h]

/-- C132: ML_Lag_Regimes accepts a list with one flag per regressor (spatial lags of x included), and 'all'. -/
theorem C132_ml (many : Bool) (kx : ℕ) :
    mlLagCols2regi (if many then .many else .one) .all kx = .ok (List.replicate kx true ++ [false]) ∧
    ∀ l : List Bool, mlLagCols2regi (if many then .many else .one) (.list l) kx =
      if l.length = kx then .ok (l ++ [false]) else .error .exception := by
  constructor
  · unfold mlLagCols2regi
    simp [checkCols2regi, Except.bind, Except.map]
  · intro l
    unfold mlLagCols2regi
    simp only [checkCols2regi, Except.bind, Bool.false_eq_true, if_false, List.nil_append, Nat.sub_zero, ne_eq]
    by_cases h : l.length = kx <;> simp [h, Except.map]

/-- C132 fails: with spatial lags of x, GM_Lag_Regimes raises for every list. -/
theorem C132_list_violated (many : Bool) (l : List Bool) (slx kx kwx kye : ℕ) (h : 0 < slx) :
    gmLagCols2regi (if many then .many else .one) (.list l) slx kx kwx kye = .error .exception := by
  unfold gmLagCols2regi
  simp only [gt_iff_lt, h, if_true, checkCols2regi, Except.bind, bind, Bool.false_eq_true, if_false, List.nil_append, Nat.sub_zero, ne_eq]
  by_cases hl : l.length = kx + kwx + (kye + 1) <;> simp [hl]

end Spreg.Output
