import Verif.Model.VmPrint
import Verif.Props.RegimesMulti
/-
C180: the variance matrix printed with `vm=True` is labelled with the coefficients it belongs to.
-/
namespace Spreg.VmPrint
open Spreg Spreg.Multi Spreg.Regimes

/-- The heading above column `c`. -/
def under (t : VmText) (c : ℕ) : Option String := t.headings[c]?

/-- The number in row `i` and column `j`. -/
def cell (t : VmText) (i j : ℕ) : Option ℝ := t.rows[i]?.bind fun l => l[j]?

theorem cell_eq (nz : Option (List String)) (nx : List String) (nr nc : ℕ) (vm : ℕ → ℕ → ℝ) (i j : ℕ) (hi : i < nr) (hj : j < nc) :
    cell (summaryVm nz nx nr nc vm) i j = some (vm i j) := by
  simp [cell, summaryVm, hi, hj]

/-- C180, a single equation: the variance matrix has a row and a column for each of the first `nv` coefficients (all of them, or all but the last one,
lambda). Every column stands under the name of its coefficient. -/
theorem C180_plain (names : List String) (nv : ℕ) (h : nv ≤ names.length) (vm : ℕ → ℕ → ℝ) (z : Bool) :
    let t := summaryVm (if z then some names else none) names nv nv vm
    ∀ i < nv, ∀ j < nv, cell t i j = some (vm i j) ∧ under t j = names[j]? ∧ (under t j).isSome := by
  intro t i hi j hj
  have hu : under t j = names[j]? := by cases z <;> rfl
  refine ⟨cell_eq _ _ _ _ _ i j hi hj, hu, ?_⟩
  rw [hu, List.getElem?_eq_getElem (by omega)]; rfl

theorem names_aux {L : Type} (own : L → List String) : ∀ (rs : List L) (acc : List String),
    rs.foldl (fun acc r => acc ++ own r) acc = acc ++ rs.flatMap own := by
  intro rs
  induction rs with
  | nil => simp
  | cons r t ih => intro acc; rw [List.foldl_cons, ih, List.flatMap_cons, List.append_assoc]

theorem names_get {L : Type} (own : L → List String) (kb : ℕ) : ∀ (rs : List L), (∀ r ∈ rs, (own r).length = kb) →
    ∀ c (hc : c < rs.length), ∀ j < kb, (multiNames rs own)[c * kb + j]? = (own rs[c])[j]? := by
  intro rs hl c hc j hj
  unfold multiNames
  rw [names_aux, List.nil_append]
  induction rs generalizing c with
  | nil => simp at hc
  | cons r t ih =>
    rw [List.flatMap_cons]
    have hr := hl r (by simp)
    cases c with
    | zero => rw [List.getElem?_append_left (by omega)]; simp
    | succ c =>
      rw [List.getElem?_append_right (by rw [hr]; nlinarith), hr, show (c + 1) * kb + j - kb = c * kb + j by rw [Nat.succ_mul]; omega]
      rw [ih (fun r hr => hl r (by simp [hr])) c (by simpa using hc)]
      simp

variable {L C : Type} [DecidableEq L]

/-- C180, one model per regime, classes whose variance matrix covers all coefficients (OLS, 2SLS, spatial lag, GM-Het, GM-Hom and ML error models).
Block `c` of the matrix is the variance matrix of regime `c` and its columns stand under the names of that regime's coefficients; the rest is zero. -/
theorem C180_multi_partial (cls : Cls) (hcls : cls ≠ .gmError ∧ ∀ b, cls ≠ .gmEndogError b) (ky : ℕ) (isConst : List ℕ → C → Bool) (rs regimes : List L)
    (hrs : rs.Nodup) (names : List String) (cols : List C) (est : L → List C → Py (RegRes ℝ)) (nm : List String) (a : Asm ℝ)
    (hsz : ∀ r ∈ rs, ∀ m, est r (kept isConst rs regimes cols) = .ok m → Sized cls ky (kept isConst rs regimes cols).length m ∧
      m.u.length = (regiIds regimes r).length ∧ m.predy.length = (regiIds regimes r).length)
    (own : L → List String) (hown : ∀ r ∈ rs, (own r).length = cls.ownB ky (kept isConst rs regimes cols).length)
    (hok : multi cls ky isConst rs regimes names cols est = .ok (nm, a))
    (hfit : cls = .ols ∨ cls = .tsls ∨ ∀ c ∈ cols, ∀ r ∈ rs, isConst (regiIds regimes r) c = false) :
    let t := multiVm cls cols.length ky (kept isConst rs regimes cols).length rs own a
    ∃ ms : List (RegRes ℝ), ms.length = rs.length ∧ ∀ c (hc : c < rs.length) (hm : c < ms.length),
      est rs[c] (kept isConst rs regimes cols) = .ok ms[c] ∧ ms[c].kv = (own rs[c]).length ∧
      ∀ i < ms[c].kv, ∀ j < ms[c].kv, cell t (c * ms[c].kv + i) (c * ms[c].kv + j) = some (ms[c].vm i j) ∧
        under t (c * ms[c].kv + j) = (own rs[c])[j]? ∧
        ∀ c' < rs.length, c' ≠ c → cell t (c * ms[c].kv + i) (c' * ms[c].kv + j) = some 0 := by
  intro t
  obtain ⟨ms, hl, h⟩ := C135_assembly cls ky isConst rs regimes hrs names cols est nm a hsz hok hfit
  refine ⟨ms, hl, fun c hc hm => ?_⟩
  obtain ⟨h1, -, h3, h4, -, -⟩ := h c hc hm
  obtain ⟨⟨hb, hv⟩, -⟩ := hsz _ (List.getElem_mem hc) _ h1
  have hkr : cls.kr cols.length ky (kept isConst rs regimes cols).length = ms[c].kv := by
    rw [hv]
    refine (sizes cls cols.length ky _).1.2 ?_
    rcases hfit with h | h | h
    · exact .inl h
    · exact .inr (.inl h)
    · exact .inr (.inr ((kept_length_iff isConst rs regimes cols).2 h))
  have hBV : cls.ownB ky (kept isConst rs regimes cols).length = cls.ownV ky (kept isConst rs regimes cols).length := by
    cases cls with
    | gmError => exact absurd rfl hcls.1
    | gmEndogError b => exact absurd rfl (hcls.2 b)
    | _ => rfl
  have hlt : ∀ c' < rs.length, ∀ j < ms[c].kv, c' * ms[c].kv + j < rs.length * cls.kr cols.length ky (kept isConst rs regimes cols).length := by
    intro c' hc' j hj; rw [hkr]; nlinarith
  refine ⟨h1, by rw [hown _ (List.getElem_mem hc), hBV, hv], fun i hi j hj => ⟨?_, ?_, fun c' hc' hne => ?_⟩⟩
  · rw [← h3 i hi j hj]
    exact cell_eq _ _ _ _ _ _ _ (hlt c hc i hi) (hlt c hc j hj)
  · exact names_get own _ rs (fun r hr => by rw [hown r hr, hBV, hv]) c hc j hj
  · rw [← h4 c' hne i hi j hj]
    exact cell_eq _ _ _ _ _ _ _ (hlt c hc i hi) (hlt c' hc' j hj)

/-- C180 is violated by `GM_Error_Regimes`, `GM_Endog_Error_Regimes` and `GM_Combo_Regimes` with one model per regime: the names contain the lambdas, the
matrix does not. The columns of the first regime stand under their names; every column of every other regime stands under the name of another
coefficient (names distinct). -/
theorem C180_gm_violated (cls : Cls) (hcls : cls = .gmError ∨ ∃ b, cls = .gmEndogError b) (ky : ℕ) (isConst : List ℕ → C → Bool) (rs regimes : List L)
    (hrs : rs.Nodup) (names : List String) (cols : List C) (est : L → List C → Py (RegRes ℝ)) (nm : List String) (a : Asm ℝ)
    (hsz : ∀ r ∈ rs, ∀ m, est r (kept isConst rs regimes cols) = .ok m → Sized cls ky (kept isConst rs regimes cols).length m ∧
      m.u.length = (regiIds regimes r).length ∧ m.predy.length = (regiIds regimes r).length)
    (own : L → List String) (hown : ∀ r ∈ rs, (own r).length = cls.ownB ky (kept isConst rs regimes cols).length)
    (hnd : (multiNames rs own).Nodup)
    (hok : multi cls ky isConst rs regimes names cols est = .ok (nm, a))
    (hfit : ∀ c ∈ cols, ∀ r ∈ rs, isConst (regiIds regimes r) c = false) :
    let t := multiVm cls cols.length ky (kept isConst rs regimes cols).length rs own a
    ∃ ms : List (RegRes ℝ), ms.length = rs.length ∧ ∀ c (hc : c < rs.length) (hm : c < ms.length),
      est rs[c] (kept isConst rs regimes cols) = .ok ms[c] ∧ ms[c].kv + 1 = (own rs[c]).length ∧
      ∀ j < ms[c].kv, (∀ i < ms[c].kv, cell t (c * ms[c].kv + i) (c * ms[c].kv + j) = some (ms[c].vm i j)) ∧
        (under t (c * ms[c].kv + j) = (own rs[c])[j]? ↔ c = 0) := by
  intro t
  obtain ⟨ms, hl, h⟩ := C135_assembly cls ky isConst rs regimes hrs names cols est nm a hsz hok (.inr (.inr hfit))
  refine ⟨ms, hl, fun c hc hm => ?_⟩
  obtain ⟨h1, -, h3, -, -, -⟩ := h c hc hm
  obtain ⟨⟨hb, hv⟩, -⟩ := hsz _ (List.getElem_mem hc) _ h1
  have hkr : cls.kr cols.length ky (kept isConst rs regimes cols).length = ms[c].kv := by
    rw [hv]
    exact (sizes cls cols.length ky _).1.2 (.inr (.inr ((kept_length_iff isConst rs regimes cols).2 hfit)))
  have hBV : cls.ownB ky (kept isConst rs regimes cols).length = ms[c].kv + 1 := by
    rw [hv]
    rcases hcls with rfl | ⟨b, rfl⟩ <;> rfl
  have hlt : ∀ j < ms[c].kv, c * ms[c].kv + j < rs.length * cls.kr cols.length ky (kept isConst rs regimes cols).length := by
    intro j hj; rw [hkr]; nlinarith
  refine ⟨h1, by rw [hown _ (List.getElem_mem hc), hBV], fun j hj => ⟨fun i hi => ?_, ?_⟩⟩
  · rw [← h3 i hi j hj]
    exact cell_eq _ _ _ _ _ _ _ (hlt i hi) (hlt j hj)
  · have hown' : ∀ r ∈ rs, (own r).length = ms[c].kv + 1 := fun r hr => by rw [hown r hr, hBV]
    have hg := names_get own (ms[c].kv + 1) rs hown' c hc j (by omega)
    have hu : under t (c * ms[c].kv + j) = (multiNames rs own)[c * ms[c].kv + j]? := rfl
    rw [hu, ← hg]
    constructor
    · intro he
      have hlen : c * (ms[c].kv + 1) + j < (multiNames rs own).length := by
        by_contra hcon
        rw [List.getElem?_eq_none (by omega), List.getElem?_eq_getElem (by rw [hown' _ (List.getElem_mem hc)]; omega)] at hg
        cases hg
      have hle : c * ms[c].kv + j < (multiNames rs own).length := by nlinarith
      rw [List.getElem?_eq_getElem hlen, List.getElem?_eq_getElem hle, Option.some.injEq] at he
      have := (List.Nodup.getElem_inj_iff hnd).1 he
      nlinarith
    · rintro rfl
      simp

theorem pad_length (a : List Char) : (pad a).length = max 12 a.length := by
  simp only [pad, List.length_append, List.length_replicate]; omega

/-- C180, the printed line: names of at most twelve characters each get a field of twelve characters above their numbers. -/
theorem C180_text_partial (names : List (List Char)) (h : ∀ a ∈ names, a.length ≤ 12) :
    ∀ j (hj : j < names.length), ((headLine names).drop (12 * j)).take 12 = List.replicate (12 - names[j].length) ' ' ++ names[j] := by
  induction names with
  | nil => intro j hj; simp at hj
  | cons a t ih =>
    intro j hj
    have ha : (pad a).length = 12 := by rw [pad_length]; have := h a (by simp); omega
    have e : headLine (a :: t) = pad a ++ headLine t := List.flatMap_cons
    rw [e]
    cases j with
    | zero => rw [Nat.mul_zero, List.drop_zero, List.take_append_of_le_length (by omega), List.take_of_length_le (by omega)]; rfl
    | succ j =>
      rw [show 12 * (j + 1) = (pad a).length + 12 * j by omega, List.drop_length_add_append]
      exact ih (fun b hb => h b (by simp [hb])) j (by simpa using hj)

/-- C180 is violated by longer names: the field grows, all later headings move to the right of their columns, and the line does not show where a
name ends. Two different lists of names give the same line. -/
theorem C180_text_violated (a b : List Char) (c : Char) (ha : 12 ≤ a.length) (hb : 12 ≤ b.length) :
    [a ++ [c], b] ≠ [a, c :: b] ∧ headLine [a ++ [c], b] = headLine [a, c :: b] ∧
    ∀ s : List Char, s.length ≤ 12 → ((headLine [a ++ [c], s]).drop (max 12 (a.length + 1))).take 12 = List.replicate (12 - s.length) ' ' ++ s := by
  refine ⟨fun h => ?_, ?_, fun s hs => ?_⟩
  · have := congrArg List.length (List.cons.inj h).1
    simp at this
  · have z : ∀ l : List Char, 12 ≤ l.length → pad l = l := fun l hl => by simp [pad, Nat.sub_eq_zero_of_le hl]
    simp only [headLine, List.flatMap_cons, List.flatMap_nil, List.append_nil]
    rw [z _ (by simp; omega), z _ hb, z _ ha, z _ (by simp; omega)]
    simp
  · have e : headLine [a ++ [c], s] = pad (a ++ [c]) ++ pad s := by simp [headLine]
    have l : (pad (a ++ [c])).length = max 12 (a.length + 1) := by rw [pad_length]; simp
    rw [e, ← l, List.drop_left, List.take_of_length_le (by rw [pad_length]; omega)]
    rfl

/-- Estimates of a made-up regime model of `GM_Error_Regimes`: constant, slope and lambda, a variance matrix of the first two. -/
def exGM (r : ℕ) (_ : List (List ℤ)) : Py (RegRes ℝ) :=
  .ok { kb := 3, kv := 2, betas := fun j => (r : ℝ) + j, vm := fun i j => if i = j then 1 else 0, u := [0, 0], predy := [0, 0] }

def exOwn (r : ℕ) : List String := if r = 10 then ["10_CONSTANT", "10_x", "10_lambda"] else ["20_CONSTANT", "20_x", "20_lambda"]

theorem exKept : (kept exConst [10, 20] [20, 10, 10, 20] [[1, 2, 3, 4]]).length = 1 := by decide

/-- A case of `C180_gm_violated`: the variance of the constant of regime 20 stands under the lambda of regime 10. -/
theorem C180_gm_example : ∃ (nm : List String) (a : Asm ℝ),
    multi .gmError 0 exConst [10, 20] [20, 10, 10, 20] ["x"] [[1, 2, 3, 4]] exGM = .ok (nm, a) ∧
    let t := multiVm .gmError 1 0 1 [10, 20] exOwn a
    cell t 2 2 = some 1 ∧ under t 2 = some "10_lambda" ∧ ¬ under t 2 = (exOwn 20)[0]? := by
  have hsz : ∀ r ∈ [10, 20], ∀ m, exGM r (kept exConst [10, 20] [20, 10, 10, 20] [[1, 2, 3, 4]]) = .ok m →
      Sized .gmError 0 (kept exConst [10, 20] [20, 10, 10, 20] [[1, 2, 3, 4]]).length m ∧
      m.u.length = (regiIds [20, 10, 10, 20] r).length ∧ m.predy.length = (regiIds [20, 10, 10, 20] r).length := by
    intro r hr m h
    rw [← Except.ok.inj h, exKept]
    rcases List.mem_cons.1 hr with rfl | hr
    · exact ⟨⟨rfl, rfl⟩, rfl, rfl⟩
    · obtain rfl := List.mem_singleton.1 hr
      exact ⟨⟨rfl, rfl⟩, rfl, rfl⟩
  have hfit : ∀ c ∈ [[1, 2, 3, (4 : ℤ)]], ∀ r ∈ [10, 20], exConst (regiIds [20, 10, 10, 20] r) c = false := by decide
  obtain ⟨nm, a, hok⟩ : ∃ nm a, multi .gmError 0 exConst [10, 20] [20, 10, 10, 20] ["x"] [[1, 2, 3, 4]] exGM = .ok (nm, a) := ⟨_, _, rfl⟩
  refine ⟨nm, a, hok, ?_⟩
  obtain ⟨ms, hl, H⟩ := C180_gm_violated .gmError (.inl rfl) 0 exConst [10, 20] [20, 10, 10, 20] (by simp) ["x"] [[1, 2, 3, 4]] exGM nm a hsz exOwn
    (by rw [exKept]; decide) (by decide) hok hfit
  obtain ⟨e, -, h⟩ := H 1 (by simp) (by rw [hl]; simp)
  rw [← Except.ok.inj e] at h
  obtain ⟨h0, hu⟩ := h 0 (by norm_num)
  have h0 := h0 0 (by norm_num)
  have k : (kept exConst [10, 20] [20, 10, 10, 20] [[1, 2, 3, 4]]).length = 1 := exKept
  rw [k] at h0 hu
  refine ⟨by simpa using h0, by rfl, fun hh => absurd (hu.1 (by simpa using hh)) (by norm_num)⟩

/-- A case of `C180_multi_partial`: the hypotheses hold for `OLS_Regimes` with two regimes. -/
example : ∃ (nm : List String) (a : Asm ℝ), multi .ols 0 exConst [10, 20] [20, 10, 10, 20] ["x"] [[1, 2, 3, 4]] exEst2 = .ok (nm, a) ∧
    ∀ r ∈ [10, 20], ((fun r : ℕ => if r = 10 then ["10_CONSTANT", "10_x"] else ["20_CONSTANT", "20_x"]) r).length =
      Cls.ols.ownB 0 (kept exConst [10, 20] [20, 10, 10, 20] [[1, 2, 3, 4]]).length :=
  ⟨_, _, rfl, by rw [exKept]; decide⟩

end Spreg.VmPrint
