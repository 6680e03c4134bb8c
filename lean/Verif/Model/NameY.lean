import Verif.Model.Basic
/-
Model of the names collected by the regime classes that estimate each regime separately.
-/
namespace Spreg.NameY

/-- `model.name_y = "%s_%s" % (str(r), name_y)`, ols_regimes.py:709 (and the `_work` of every other `*_regimes.py`). -/
def regimeName (r nameY : String) : String := r ++ "_" ++ nameY

/-- `list += string`: Python extends the list by the characters of the string. -/
def extendStr (acc : List String) (s : String) : List String := acc ++ s.toList.map fun c => String.ofList [c]

/-- `self.name_y = []` and the loop `self.name_y += results[r].name_y`, ols_regimes.py:630, 658 (error_sp_regimes.py:489, 1104,
error_sp_het_regimes.py:573, 1290, error_sp_hom_regimes.py:585, 1283, ml_error_regimes.py:509, ml_lag_regimes.py:603,
twosls_regimes.py:600, twosls_sp_regimes.py:838). -/
def collectY (nameY : String) (rs : List String) : List String := rs.foldl (fun acc r => extendStr acc (regimeName r nameY)) []

/-- `model.name_x = ["%s_%s" % (str(r), i) for i in name_x]` and `self.name_x += results[r].name_x`, ols_regimes.py:659, 710. -/
def collectX (nameX : List String) (rs : List String) : List String := rs.foldl (fun acc r => acc ++ nameX.map (regimeName r)) []

end Spreg.NameY
