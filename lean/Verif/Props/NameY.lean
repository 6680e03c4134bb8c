import Verif.Model.NameY
import Mathlib.Data.List.Basic
/-
C126: names of the dependent variables of a model estimated regime by regime.
-/
namespace Spreg.NameY

theorem collectY_aux (nameY : String) : ∀ (rs : List String) (acc : List String),
    rs.foldl (fun acc r => extendStr acc (regimeName r nameY)) acc =
      acc ++ rs.flatMap fun r => (regimeName r nameY).toList.map fun c => String.ofList [c]
  | [], acc => by simp
  | r :: t, acc => by
    rw [List.foldl_cons, collectY_aux nameY t, extendStr, List.flatMap_cons, List.append_assoc]

theorem collectX_aux (nameX : List String) : ∀ (rs : List String) (acc : List String),
    rs.foldl (fun acc r => acc ++ nameX.map (regimeName r)) acc = acc ++ rs.flatMap fun r => nameX.map (regimeName r)
  | [], acc => by simp
  | r :: t, acc => by
    rw [List.foldl_cons, collectX_aux nameX t, List.flatMap_cons, List.append_assoc]

/-- C126: the names of the coefficients are, regime by regime, `regime_variable`. -/
theorem C126_names_x_partial (nameX rs : List String) :
    collectX nameX rs = rs.flatMap (fun r => nameX.map fun x => r ++ "_" ++ x) := by
  unfold collectX
  rw [collectX_aux, List.nil_append]
  rfl

/-- C126, defect: `name_y` does not list one name per regime: whatever the names, every entry is a single character, and there are
more entries than regimes. -/
theorem C126_names_y_violated (nameY : String) (hy : nameY ≠ "") (rs : List String) (hr : rs ≠ []) :
    (∀ s ∈ collectY nameY rs, s.length = 1) ∧ rs.length < (collectY nameY rs).length ∧
    collectY nameY rs ≠ rs.map fun r => r ++ "_" ++ nameY := by
  have e : collectY nameY rs = rs.flatMap fun r => (regimeName r nameY).toList.map fun c => String.ofList [c] := by
    unfold collectY; rw [collectY_aux, List.nil_append]
  have hlen : 0 < nameY.length := by
    rw [Nat.pos_iff_ne_zero]
    intro h
    exact hy (by simpa using h)
  have h2 : rs.length < (collectY nameY rs).length := by
    rw [e, List.length_flatMap]
    have : ∀ (l : List String), 2 * l.length ≤ (l.map fun r => ((regimeName r nameY).toList.map fun c => String.ofList [c]).length).sum := by
      intro l
      induction l with
      | nil => simp
      | cons a t ih =>
        rw [List.map_cons, List.sum_cons, List.length_cons]
        have : 2 ≤ ((regimeName a nameY).toList.map fun c => String.ofList [c]).length := by
          simp only [List.length_map, regimeName, String.toList_append, List.length_append]
          have h1 : "_".toList.length = 1 := rfl
          have h2 : nameY.toList.length = nameY.length := String.length_toList
          omega
        omega
    have := this rs
    have hp : 0 < rs.length := List.length_pos_iff.2 hr
    omega
  refine ⟨?_, h2, ?_⟩
  · intro s hs
    rw [e, List.mem_flatMap] at hs
    obtain ⟨r, -, hs⟩ := hs
    obtain ⟨c, -, rfl⟩ := List.mem_map.1 hs
    simp
  · intro h
    rw [h, List.length_map] at h2
    omega

/-- Non-vacuity: two regimes of `y`. -/
example : collectY "y" ["0", "1"] = ["0", "_", "y", "1", "_", "y"] := by decide
example : collectX ["CONSTANT", "x"] ["0", "1"] = ["0_CONSTANT", "0_x", "1_CONSTANT", "1_x"] := by decide

end Spreg.NameY
