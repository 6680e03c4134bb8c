import Verif.Props.Lags
/-
C05: instruments of Durbin lag models with `lag_q=True`.
-/
namespace Spreg.Lags
open Spreg Spreg.Spec
variable {α : Type}

/-- C05 with other endogenous variables and `lag_q=True` (the default): the instruments of the spatial lag are the powers from `s + 2` on of the
exogenous variables and the powers from one on of the user's instruments. -/
theorem C05_setEndog_lagq (W : α → α) (y : α) (x ye q : List α) (p s : Nat)
    (hs : 1 ≤ s) (hp : 1 ≤ p) :
    setEndog W y x (some ye) (some q) p true s .all
      = .ok ⟨ye ++ [lagPow W 1 y], q ++ (List.range' 1 p).flatMap (fun i => x.map (lagPow W (s + 1 + i)) ++ q.map (lagPow W i)),
          some (lagBlocks W x 1 s)⟩ := by
  unfold setEndog
  have : getLagsSplit W x (s + 1) s = .ok (lagBlocks W x 1 s, lagBlocks W x (s + 1) 1) := by
    rw [C01_getLagsSplit, if_pos (by omega)]; simp
  have h3 : getLags W (lagBlocks W x (s + 1) 1 ++ q) p =
      (List.range' 1 p).flatMap (fun i => x.map (lagPow W (s + 1 + i)) ++ q.map (lagPow W i)) := by
    have e : lagBlocks W x (s + 1) 1 = x.map (lagPow W (s + 1)) := by simp [lagBlocks]
    rw [C01_getLags, e]
    simp only [lagBlocks, List.map_append, List.map_map, Nat.max_eq_left hp]
    congr 1
    funext i
    congr 2
    funext v
    simp only [Function.comp]
    rw [show s + 1 + i = i + (s + 1) by omega]
    induction i with
    | zero => simp [lagPow]
    | succ i ih => rw [Nat.succ_add]; exact congrArg W ih
  simp only [this, if_pos (by omega : s > 0), if_neg (by omega : ¬ s = 0), bind, Except.bind,
    pure, Except.pure, if_true, h3]
  rfl
end Spreg.Lags
