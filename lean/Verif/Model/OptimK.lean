import Verif.Model.Basic
import Mathlib.Analysis.SpecialFunctions.Pow.Real
/-
Model of `optim_k`, utils.py:817-868.
-/
namespace Spreg.OptK

/-- Python slice `t[a:b]` for `0 ≤ a`, `0 ≤ b`. -/
def slice (t : List ℝ) (a b : ℕ) : List ℝ := (t.take b).drop a

noncomputable def mean (l : List ℝ) : ℝ := l.sum / l.length
/-- `np.std`. -/
noncomputable def std (l : List ℝ) : ℝ := Real.sqrt (mean (l.map fun x => (x - mean l) ^ 2))

/-- The coefficient `b` at step `i`, utils.py:862-864. -/
noncomputable def coefB (t : List ℝ) (w i : ℕ) : ℝ :=
  (6 / ((w : ℝ) * (w * w - 1))) *
    (2 * (List.zipWith (fun (j : ℕ) x => (j : ℝ) * x) ((List.range (i + 1)).map (· + 1)) (slice t (w - 1) (i + w))).sum
      - (w + 1) * (slice t (w - 1) (i + w)).sum)

/-- The condition appended to `treshold` at step `i`, utils.py:862-866. `ma[i]` is the mean of the window
`t[i:i+w]` (np.convolve with equal weights, mode valid). -/
noncomputable def cond (t : List ℝ) (w i : ℕ) : Prop :=
  t.getD (i + w) 0 < (slice t i (i + w)).sum / w - coefB t w i - ((w : ℝ) - 1) * coefB t w i / 2
    - 2.75 * std (slice t i (i + w))

open Classical in
/-- The loop utils.py:861-867: `fuel` steps remain, `i` is the step counter. -/
noncomputable def go (t : List ℝ) (w : ℕ) : ℕ → ℕ → ℕ
  | 0, i => i
  | fuel + 1, i => if cond t w i then go t w fuel (i + 1) else i + 1

/-- The window: the argument, or N//4, or N when that is below 2 (utils.py:853-856). `not window_size` also
covers 0. Negative windows are not modelled. -/
def window (N : ℕ) (win : Option ℕ) : ℕ :=
  match win with
  | some (w + 1) => w + 1
  | _ => if N / 4 < 2 then N else N / 4

/-- `optim_k`, utils.py:817-868. `np.convolve` raises on an empty trace; a window of 1 divides by the integer
`1 * (1 * 1 - 1)` in the first step of the loop. -/
noncomputable def optimK (t : List ℝ) (win : Option ℕ) : Py ℕ :=
  let w := window t.length win
  if t.length = 0 then .error .valueError
  else if w = 1 ∧ 1 < t.length then .error .zeroDivision
  else .ok (go t w (t.length - w) 0 + w)

end Spreg.OptK
