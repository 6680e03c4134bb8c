import Verif.Model.Basic
import Mathlib.Data.Real.Basic
/-
Model of the coordinates argument of NSLX: `check_coords` (user_output.py:1018-1060), its call (nslx.py:323, 385) and the line of
the summary that shows the names (output.py:712-724).

* A table of coordinates is its list of rows. The entries are numbers.
* A GeoSeries is its list of (index label, geometry); a geometry is a point or something else with its list of vertices
  (`get_coordinates` of geopandas: one row per vertex).
* No column of a data frame is called "name" (then `data.name` raises AttributeError).
* Text: `'%12s'` fills with blanks on the left; the names contain no quotes or backslashes, so that `repr` puts them in
  single quotes.
-/
namespace Spreg.Coords

/-- A label of a column or of a GeoSeries: a string or something else (for example the numbers 0, 1 of a data frame made from
an array). -/
inductive Label where
  | str (s : String)
  | num (k : ℤ)

/-- `', '`-free form of the value `name_coords`. -/
inductive Names where
  | one (s : String)
  | list (l : List Label)
  | none

inductive Geom where
  | point (a b : ℝ)
  | other (vertices : List (ℝ × ℝ))

/-- What is passed as `coords`. -/
inductive Arg where
  | array1 (v : List ℝ)
  | array2 (cols : ℕ) (rows : List (List ℝ))
  | frame (cols : List Label) (rows : List (List ℝ))
  | geo (name : Option String) (items : List (ℤ × Geom))
  | other

/-- Rows of `get_coordinates()`. -/
def vertices : Geom → List (List ℝ)
  | .point a b => [[a, b]]
  | .other l => l.map fun p => [p.1, p.2]

/-- `not name_coords`. -/
def Names.falsy : Names → Bool
  | .one s => s = ""
  | .list l => l.isEmpty
  | .none => true

/-- `data[0]`: the element with the label 0 (the first one, if several). -/
def atZero (items : List (ℤ × Geom)) : Option Geom := (items.find? fun p => p.1 = 0).map (·.2)

/-- `check_coords`, user_output.py:1033-1060. -/
def checkCoords (a : Arg) (nm : Names) : Py (List (List ℝ) × Names) :=
  match a with
  | .array1 _ => .error .indexError
  | .array2 c rows =>
    let nm' := if nm.falsy then .one "unknown" else nm
    if c ≠ 2 then .error .exception else .ok (rows, nm')
  | .frame cols rows =>
    let nm' := if nm.falsy then .list cols else nm
    if cols.length ≠ 2 then .error .exception else .ok (rows, nm')
  | .geo name items =>
    match atZero items with
    | Option.none => .error .keyError
    | some (.point _ _) =>
      .ok (items.flatMap fun p => vertices p.2, if nm.falsy then (match name with | some s => .one s | Option.none => .none) else nm)
    | some (.other _) => .error .exception
  | .other => .error .exception

/-- The strings of a list of labels; `str.join` raises TypeError for another type. -/
def strs (l : List Label) : Py (List String) :=
  l.mapM fun x => match x with
    | .str s => .ok s
    | .num _ => .error .typeError

/-- `'%12s' % s`. -/
def pad12 (s : String) : String := String.ofList (List.replicate (12 - s.length) ' ') ++ s

/-- `repr` of a list of strings. -/
def reprList (l : List String) : String := "[" ++ ", ".intercalate (l.map fun s => "'" ++ s ++ "'") ++ "]"

/-- What is printed between "Coordinates         :" and the label of the distance metric, output.py:712-724. -/
def nameCell (nm : Names) : Py String :=
  match nm with
  | .none => .error .typeError
  | .one s =>
    if s.length ≤ 12 then .ok (pad12 s ++ String.ofList (List.replicate 16 ' '))
    else .ok (long s)
  | .list l => do
    let t ← strs l
    if (String.join t).length ≤ 12 then .ok (pad12 (reprList t) ++ String.ofList (List.replicate 16 ' '))
    else .ok (long (", ".intercalate t))
where
  /-- output.py:716-724 -/
  long (s : String) : String :=
    let s' := if 27 < s.length then String.ofList (s.toList.take 23) ++ "..." else s
    " " ++ pad12 s' ++ String.ofList (List.replicate (27 - s'.length) ' ')

/-- NSLX as far as the coordinates are concerned, nslx.py:323, 385-396: `estimate` is everything in between. -/
def nslxCoords {β : Type} (a : Arg) (nm : Names) (estimate : List (List ℝ) → Py β) : Py (β × String) := do
  let c ← checkCoords a nm
  let b ← estimate c.1
  let s ← nameCell c.2
  pure (b, s)

end Spreg.Coords
