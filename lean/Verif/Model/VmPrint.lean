import Verif.Model.RegimesMulti
/-
Model of the variance matrix printed with `vm=True`.
-/
namespace Spreg.VmPrint
open Spreg

/-- The printed block: the headings of the columns, in order, and the numbers of each line. -/
structure VmText where
  headings : List String
  rows : List (List ℝ)

/-- `_summary_vm(reg)`, output.py:538-554: the headings are `reg.name_z` if there is one (`none`: no attribute, the `except` branch) and
`reg.name_x` otherwise; then `vm` row by row. Numbers are not rounded here. -/
def summaryVm (nameZ : Option (List String)) (nameX : List String) (nrow ncol : ℕ) (vm : ℕ → ℕ → ℝ) : VmText :=
  { headings := match nameZ with
      | some z => z
      | none => nameX
    rows := (List.range nrow).map fun i => (List.range ncol).map fun j => vm i j }

/-- `"%12s" % name`. -/
def pad (name : List Char) : List Char := List.replicate (12 - name.length) ' ' ++ name

/-- The line of headings, output.py:542-548. -/
def headLine (names : List (List Char)) : List Char := names.flatMap pad

/-- `self.name_x += results[r].name_x` or `self.name_z += results[r].name_z` over the regimes: ols_regimes.py:659, twosls_regimes.py:601-604,
twosls_sp_regimes.py:839-842, ml_lag_regimes.py:604, error_sp_regimes.py:490, 1105-1108, error_sp_hom_regimes.py:586, 1284-1287,
error_sp_het_regimes.py:575, 1291-1294, ml_error_regimes.py:510; `own r` are the names of the model of regime `r`. -/
def multiNames {L : Type} (rs : List L) (own : L → List String) : List String := rs.foldl (fun acc r => acc ++ own r) []

/-- `output(reg=self, vm=True, ...)` of a class with one model per regime (e.g. error_sp_regimes.py:498): `out_part_end` prints the assembled matrix of
`nr * kr` rows under the collected names. -/
def multiVm {L : Type} (cls : Multi.Cls) (kx ky kept : ℕ) (rs : List L) (own : L → List String) (a : Multi.Asm ℝ) : VmText :=
  summaryVm (some (multiNames rs own)) [] (rs.length * cls.kr kx ky kept) (rs.length * cls.kr kx ky kept) a.vm

end Spreg.VmPrint
