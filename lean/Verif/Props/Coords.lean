import Verif.Model.Coords
import Mathlib.Tactic
/-
C191: the coordinates of NSLX.
-/
namespace Spreg.Coords
open Spreg

theorem okb {α β : Type} (a : α) (f : α → Py β) : ((Except.ok a : Py α) >>= f) = f a := rfl

theorem len_pad (s : String) (k : ℕ) : (s ++ String.ofList (List.replicate k ' ')).length = s.length + k := by
  rw [String.length_append, String.length_ofList, List.length_replicate]

theorem len_pad12 (s : String) : (pad12 s).length = max 12 s.length := by
  unfold pad12
  rw [String.length_append, String.length_ofList, List.length_replicate]
  omega

theorem inter2 (a b : String) : ", ".intercalate [a, b] = a ++ ", " ++ b := by
  rw [← String.toList_inj]; simp

theorem join2 (a b : String) : (String.join [a, b]).length = a.length + b.length := by
  simp [String.join, String.length_append]

theorem strs2 (a b : String) : strs [.str a, .str b] = .ok [a, b] := rfl

theorem long_len (s : String) (h : 12 ≤ s.length) : (nameCell.long s).length = 28 := by
  unfold nameCell.long
  dsimp only
  rw [len_pad, String.length_append, len_pad12]
  have : (" " : String).length = 1 := rfl
  rw [this]
  split_ifs with h1
  · rw [String.length_append, String.length_ofList, List.length_take, String.length_toList]
    have : ("..." : String).length = 3 := rfl
    rw [this]; omega
  · omega

/-- Specification: the rows of the points of a GeoSeries. -/
def pointRows (l : List (ℤ × ℝ × ℝ)) : List (List ℝ) := l.map fun p => [p.2.1, p.2.2]

def toGeo (l : List (ℤ × ℝ × ℝ)) : List (ℤ × Geom) := l.map fun p => (p.1, .point p.2.1 p.2.2)

theorem geo_rows (l : List (ℤ × ℝ × ℝ)) : (toGeo l).flatMap (fun p => vertices p.2) = pointRows l := by
  induction l with
  | nil => rfl
  | cons a l ih => 
    show [[a.2.1, a.2.2]] ++ (toGeo l).flatMap (fun p => vertices p.2) = _
    rw [ih]; rfl

theorem atZero_point (l : List (ℤ × ℝ × ℝ)) (h : ∃ p ∈ l, p.1 = 0) : ∃ a b, atZero (toGeo l) = some (.point a b) := by
  induction l with
  | nil => simp at h
  | cons p l ih =>
    unfold atZero toGeo
    rw [List.map_cons, List.find?_cons]
    by_cases hp : p.1 = 0
    · simp [hp]
    · simp only [hp, decide_false]
      obtain ⟨q, hq, hq0⟩ := h
      have := ih ⟨q, by
        rcases List.mem_cons.1 hq with h | h
        · subst h; exact absurd hq0 hp
        · exact h, hq0⟩
      exact this

theorem atZero_none (l : List (ℤ × Geom)) (h : ∀ p ∈ l, p.1 ≠ 0) : atZero l = none := by
  unfold atZero
  rw [List.find?_eq_none.2 (by simpa using h)]
  rfl

/-- C191: arrays and data frames with two columns, and GeoSeries of points among whose labels is 0, are used as they are, in their order;
names given by the caller are kept, otherwise those of the columns, the name of the series, or "unknown". -/
theorem C191_points_partial (nm : Names) :
    (∀ rows, checkCoords (.array2 2 rows) nm = .ok (rows, if nm.falsy then .one "unknown" else nm)) ∧
    (∀ c d rows, checkCoords (.frame [c, d] rows) nm = .ok (rows, if nm.falsy then .list [c, d] else nm)) ∧
    (∀ (name : String) (l : List (ℤ × ℝ × ℝ)), (∃ p ∈ l, p.1 = 0) → checkCoords (.geo (some name) (l.map fun p => (p.1, .point p.2.1 p.2.2))) nm =
      .ok (l.map (fun p => [p.2.1, p.2.2]), if nm.falsy then .one name else nm)) := by
  refine ⟨fun rows => rfl, fun c d rows => rfl, fun name l h => ?_⟩
  obtain ⟨a, b, e⟩ := atZero_point l h
  show checkCoords (.geo (some name) (toGeo l)) nm = _
  unfold checkCoords
  dsimp only
  rw [e]
  show Except.ok ((toGeo l).flatMap (fun p => vertices p.2), _) = _
  rw [geo_rows]; rfl

/-- C191: everything else is rejected: another number of columns, a first unit (label 0) that is not a point, another type. -/
theorem C191_rejected (nm : Names) :
    (∀ c rows, c ≠ 2 → checkCoords (.array2 c rows) nm = .error .exception) ∧
    (∀ cols rows, cols.length ≠ 2 → checkCoords (.frame cols rows) nm = .error .exception) ∧
    (∀ name v l, checkCoords (.geo name ((0, .other v) :: l)) nm = .error .exception) ∧
    checkCoords .other nm = .error .exception := by
  refine ⟨fun c rows h => ?_, fun cols rows h => ?_, fun name v l => rfl, rfl⟩
  · unfold checkCoords; dsimp only; rw [if_pos h]
  · unfold checkCoords; dsimp only; rw [if_pos h]

/-- C191: with two names (given or those of the columns) the report succeeds whenever the estimation does, and if the names have more than
twelve characters together the cell has its 28 characters: ", " between the names, cut to 23 and "..." beyond 27. -/
theorem C191_report_partial {β : Type} (a b : String) (rows : List (List ℝ)) (estimate : List (List ℝ) → Py β) (r : β) (h : estimate rows = .ok r) :
    (∃ s, nslxCoords (.frame [.str a, .str b] rows) .none estimate = .ok (r, s) ∧
      nslxCoords (.array2 2 rows) (.list [.str a, .str b]) estimate = .ok (r, s) ∧
      (12 < a.length + b.length → s.length = 28) ∧
      (12 < a.length + b.length → a.length + b.length ≤ 25 → ∃ k, s = " " ++ (a ++ ", " ++ b) ++ String.ofList (List.replicate k ' '))) := by
  have key : ∃ s, nameCell (.list [.str a, .str b]) = .ok s ∧ (12 < a.length + b.length → s.length = 28) ∧
      (12 < a.length + b.length → a.length + b.length ≤ 25 → ∃ k, s = " " ++ (a ++ ", " ++ b) ++ String.ofList (List.replicate k ' ')) := by
    unfold nameCell
    dsimp only
    rw [strs2, okb, join2]
    have hl : (a ++ ", " ++ b).length = a.length + b.length + 2 := by
      rw [String.length_append, String.length_append]
      have : (", " : String).length = 2 := rfl
      omega
    split_ifs with h1
    · exact ⟨_, rfl, fun h => absurd h1 (by omega), fun h => absurd h1 (by omega)⟩
    · refine ⟨_, rfl, fun _ => long_len _ ?_, fun _ h2 => ?_⟩
      · rw [inter2, hl]; omega
      · refine ⟨27 - (a ++ ", " ++ b).length, ?_⟩
        rw [inter2]
        unfold nameCell.long
        dsimp only
        rw [if_neg (by omega)]
        have : pad12 (a ++ ", " ++ b) = a ++ ", " ++ b := by
          unfold pad12
          have : 12 - (a ++ ", " ++ b).length = 0 := by omega
          rw [this]
          rfl
        rw [this]
  obtain ⟨s, h1, h2, h3⟩ := key
  refine ⟨s, ?_, ?_, h2, h3⟩
  · unfold nslxCoords
    rw [show checkCoords (.frame [.str a, .str b] rows) .none = .ok (rows, .list [.str a, .str b]) from rfl, okb, h, okb, h1, okb]; rfl
  · unfold nslxCoords
    rw [show checkCoords (.array2 2 rows) (.list [.str a, .str b]) = .ok (rows, .list [.str a, .str b]) from rfl, okb, h, okb, h1, okb]; rfl

/-- C191 fails: a data frame whose first column label is not a string (as for `pd.DataFrame(array)`) ends in a TypeError after the model has been estimated. -/
theorem C191_labels_violated {β : Type} (k : ℤ) (c : Label) (rows : List (List ℝ)) (estimate : List (List ℝ) → Py β) (r : β) (h : estimate rows = .ok r) :
    nslxCoords (.frame [.num k, c] rows) .none estimate = .error .typeError := by
  unfold nslxCoords
  rw [show checkCoords (.frame [.num k, c] rows) .none = .ok (rows, .list [.num k, c]) from rfl, okb, h, okb]
  rfl

/-- C191 fails: so does a GeoSeries of points without a name. -/
theorem C191_unnamed_violated {β : Type} (l : List (ℤ × ℝ × ℝ)) (h0 : ∃ p ∈ l, p.1 = 0) (estimate : List (List ℝ) → Py β) (r : β)
    (h : estimate (l.map fun p => [p.2.1, p.2.2]) = .ok r) :
    nslxCoords (.geo none (l.map fun p => (p.1, .point p.2.1 p.2.2))) .none estimate = .error .typeError := by
  obtain ⟨a, b, e⟩ := atZero_point l h0
  have : checkCoords (.geo none (toGeo l)) .none = .ok (pointRows l, .none) := by
    unfold checkCoords
    dsimp only
    rw [e]
    show Except.ok ((toGeo l).flatMap (fun p => vertices p.2), _) = _
    rw [geo_rows]; rfl
  unfold nslxCoords
  show (checkCoords (.geo none (toGeo l)) .none >>= _) = _
  rw [this, okb]
  show (estimate (l.map fun p => [p.2.1, p.2.2]) >>= _) = _
  rw [h]; rfl

/-- C191 fails: a GeoSeries none of whose labels is 0 (a selection of rows) is a KeyError, whatever its geometries. -/
theorem C191_selection_violated (name : Option String) (l : List (ℤ × Geom)) (h : ∀ p ∈ l, p.1 ≠ 0) (nm : Names) :
    checkCoords (.geo name l) nm = .error .keyError := by
  unfold checkCoords
  dsimp only
  rw [atZero_none l h]

/-- C191 fails: only one geometry is looked at. A polygon after a point is accepted, and each of its vertices becomes a unit. -/
theorem C191_mixed_violated (name : String) (a b : ℝ) (v : List (ℝ × ℝ)) (nm : Names) :
    ∃ c, checkCoords (.geo (some name) [(0, .point a b), (1, .other v)]) nm = .ok c ∧ c.1.length = 1 + v.length := by
  refine ⟨([[a, b]] ++ (v.map fun p => [p.1, p.2]), if nm.falsy then .one name else nm), ?_, ?_⟩
  · unfold checkCoords
    show Except.ok _ = Except.ok _
    simp [vertices]
  · simp [Nat.add_comm]

/-- C191 fails: two names that have five to twelve characters together are printed as a Python list, and the cell is wider than the 28 characters of its column. -/
theorem C191_width_violated (a b : String) (h1 : 5 ≤ a.length + b.length) (h2 : a.length + b.length ≤ 12) :
    ∃ s, nameCell (.list [.str a, .str b]) = .ok s ∧ 28 < s.length := by
  unfold nameCell
  dsimp only
  rw [strs2, okb, join2, if_pos h2]
  refine ⟨_, rfl, ?_⟩
  rw [len_pad, len_pad12]
  have : (reprList [a, b]).length = a.length + b.length + 8 := by
    unfold reprList
    rw [List.map_cons, List.map_cons, List.map_nil, inter2]
    simp only [String.length_append]
    have e1 : ("'" : String).length = 1 := rfl
    have e2 : (", " : String).length = 2 := rfl
    have e3 : ("[" : String).length = 1 := rfl
    have e4 : ("]" : String).length = 1 := rfl
    omega
  rw [this]; omega

/-- Coordinates "longitude", "latitude" of two units are shown in full; "lon", "lat" are too wide. -/
example : ∃ s, nslxCoords (.frame [.str "longitude", .str "latitude"] [[1, 2], [3, 4]]) .none (fun r => .ok r.length) = .ok (2, s) ∧ s.length = 28 := by
  obtain ⟨s, h1, -, h2, -⟩ := C191_report_partial "longitude" "latitude" [[1, 2], [3, 4]] (fun r => (.ok r.length : Py ℕ)) 2 rfl
  exact ⟨s, h1, h2 (by decide)⟩

example : 5 ≤ ("lon" : String).length + ("lat" : String).length ∧ ("lon" : String).length + ("lat" : String).length ≤ 12 := by decide

/-- A GeoSeries of two points with labels 0 and 1, and the selection of the second. -/
example : ∃ p ∈ ([(0, 1, 2), (1, 3, 4)] : List (ℤ × ℝ × ℝ)), p.1 = 0 := ⟨(0, 1, 2), by simp, rfl⟩
example : ∀ p ∈ ([(1, .point 3 4)] : List (ℤ × Geom)), p.1 ≠ 0 := by simp

end Spreg.Coords
