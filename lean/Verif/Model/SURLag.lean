import Verif.Model.Lags
import Verif.Model.SUR
/-
Model of the data stage of the SUR classes: `sur_dictxy` and `sur_dictZ` (sur_utils.py:27-247), the list arguments of `SUR` and
`ThreeSLS` (sur.py:418-428, 816-830) and the constructor of `SURlagIV` without regimes (sur_lag.py:230-440, 482-500).
A matrix is the list of its columns as in `Verif.Model.Lags`; a dictionary with the keys `0, ..., n_eq - 1` is a function on
`Fin ne`. Dictionaries are objects of the caller: `after` is what they contain when the constructor returns.
-/
namespace Spreg.SURLag
open Spreg

variable {α : Type} {ne : ℕ}

/-! ### SURlagIV -/

/-- The arguments of `SURlagIV` given as dictionaries, sur_lag.py:208-229 (`None` is `none`; an empty dictionary of names counts as
`None` for `name_bigy`). -/
@[ext] structure Args (ne : ℕ) (α : Type) where
  y : Fin ne → α
  X : Fin ne → List α
  yend : Option (Fin ne → List α)
  q : Option (Fin ne → List α)
  nameY : Option (Fin ne → String)
  nameX : Option (Fin ne → List String)
  nameYend : Option (Fin ne → List String)
  nameQ : Option (Fin ne → List String)

/-- What `BaseThreeSLS` receives, the names reported, and the caller's dictionaries afterwards. -/
structure Out (ne : ℕ) (α : Type) where
  X : Fin ne → List α
  yend : Fin ne → List α
  q : Fin ne → List α
  nameY : Fin ne → String
  nameX : Fin ne → List String
  nameYend : Fin ne → List String
  nameQ : Fin ne → List String
  after : Args ne α

/-- `["var_" + str(i + 1) + "_" + str(r + 1) for i in range(k)]` and its variants, sur_lag.py:273, 283, 291. -/
def genNames (pre : String) (k r : ℕ) : List String :=
  (List.range k).map fun i => pre ++ toString (i + 1) ++ "_" ++ toString (r + 1)

/-- Names of the exogenous variables, sur_lag.py:269-276. -/
def namesX (a : Args ne α) (r : Fin ne) : List String :=
  match a.nameX with
  | some f => f r
  | none => ("Constant_" ++ toString (r.val + 1)) :: genNames "var_" ((a.X r).length - 1) r

/-- Names of the dependent variables, sur_lag.py:261-267. -/
def namesY (a : Args ne α) (r : Fin ne) : String :=
  match a.nameY with
  | some f => f r
  | none => "dep_var_" ++ toString (r.val + 1)

/-- The loop over orders of lags, sur_lag.py:389-393, 404-408: `work` is the last block, `acc` all blocks. With `w_lags = 1` there is
no pass, which is the branch of lines 359-382. -/
def lagLoop (W : α → α) : ℕ → List α → List α → List α
  | 0, _, acc => acc
  | i + 1, work, acc => lagLoop W i (work.map W) (acc ++ work.map W)

/-- The names of the loop, sur_lag.py:392-393, 407-408: `["W" + i for i in nameswork]`. -/
def nameLoop : ℕ → List String → List String → List String
  | 0, _, acc => acc
  | i + 1, work, acc => nameLoop i (work.map ("W" ++ ·)) (acc ++ work.map ("W" ++ ·))

/-- All lags of the columns `x` up to order `m`, sur_lag.py:386-393. -/
def lags (W : α → α) (x : List α) (m : ℕ) : List α := lagLoop W (m - 1) (x.map W) (x.map W)

/-- Their names. -/
def lagNames (nm : List String) (m : ℕ) : List String := nameLoop (m - 1) (nm.map ("W_" ++ ·)) (nm.map ("W_" ++ ·))

/-- Endogenous variables: `_get_spatial_lag`, sur_lag.py:482-500. -/
def endog (W : α → α) (a : Args ne α) (r : Fin ne) : List α :=
  match a.yend with
  | some f => f r ++ [W (a.y r)]
  | none => [W (a.y r)]

/-- Names of the endogenous variables, sur_lag.py:277-284, 489-499: with `bigyend` the generic names are stored in the dictionary given,
whatever it contains. -/
def namesYend (a : Args ne α) (r : Fin ne) : List String :=
  match a.yend with
  | some f => genNames "end_" (f r).length r ++ ["W_" ++ namesY a r]
  | none => ["W_" ++ namesY a r]

/-- Instruments, sur_lag.py:355-421. -/
def instr (W : α → α) (a : Args ne α) (m : ℕ) (lagQ : Bool) (r : Fin ne) : List α :=
  match a.q with
  | some f => if lagQ then f r ++ lags W (a.X r).tail m ++ lags W (f r) m else f r ++ lags W (a.X r).tail m
  | none => lags W (a.X r).tail m

/-- Names of the instruments, sur_lag.py:285-292, 355-421: generic names as for the endogenous variables. -/
def namesQ (a : Args ne α) (m : ℕ) (lagQ : Bool) (r : Fin ne) : List String :=
  match a.q with
  | some f =>
    let nq := genNames "inst_" (f r).length r
    if lagQ then nq ++ lagNames (namesX a r).tail m ++ lagNames nq m else nq ++ lagNames (namesX a r).tail m
  | none => lagNames (namesX a r).tail m

/-- `SURlagIV.__init__` without regimes up to the call of `BaseThreeSLS`, sur_lag.py:248-425, for dictionaries with at least one
equation. `bigyend[r] = np.hstack(...)`, `bigq[r] = np.hstack(...)`, `name_bigyend[r] = ...` and `self.name_bigq[r] = ...` store
into the dictionaries that the caller passed. -/
def surLag (W : α → α) (a : Args ne α) (wLags : ℕ) (lagQ : Bool) : Py (Out ne α) :=
  if a.yend.isSome && a.q.isNone then .error .exception
  else if wLags = 0 then .error .exception
  else .ok {
    X := a.X, yend := endog W a, q := instr W a wLags lagQ
    nameY := namesY a, nameX := namesX a, nameYend := namesYend a, nameQ := namesQ a wLags lagQ
    after := { a with
      yend := a.yend.map fun _ => endog W a
      q := a.q.map fun _ => instr W a wLags lagQ
      nameYend := a.nameYend.map fun _ => namesYend a
      nameQ := a.nameQ.map fun _ => namesQ a wLags lagQ } }

/-- The matrix with the given columns. -/
def cols {n : Type} (l : List (n → ℝ)) : Matrix n (Fin l.length) ℝ := Matrix.of fun i j => l[j] i

/-- `BaseThreeSLS.__init__(self, bigy, bigX, bigyend, bigq)`, sur_lag.py:423-425. -/
noncomputable def fit {n : Type} [Fintype n] (y : Fin ne → n → ℝ) (o : Out ne (n → ℝ)) :
    Option (SUR.Fit3 n (Fin ne) fun r => Fin (o.X r).length ⊕ Fin (o.yend r).length) :=
  SUR.baseThreeSLS (fun r => cols (o.X r)) (fun r => cols (o.yend r)) (fun r => cols (o.q r)) y

/-! ### Data given as names of columns -/

/-- `np.array([db[name] for name in names]).T`, sur_utils.py:58-61 and elsewhere: a missing name raises `KeyError`, and `db.by_col` in the
handler raises `AttributeError` for a data frame. -/
def lookup (df : String → Option α) (names : List String) : Py (List α) :=
  names.mapM fun s => match df s with | some c => .ok c | none => .error .attributeError

/-- One equation of `sur_dictxy`, sur_utils.py:70-82: without names `np.array([]).T` cannot be stacked beside the constant. -/
def dictX (df : String → Option α) (one : α) (r : ℕ) (xv : List String) : Py (List α × List String) := do
  let x ← lookup df xv
  if xv = [] then .error .valueError else pure (one :: x, ("Constant_" ++ toString (r + 1)) :: xv)

/-- Result of `sur_dictxy`: per equation the dependent variable, its name, the regressors and their names. -/
structure XY (α : Type) where
  y : List α
  X : List (List α)
  nameY : List String
  nameX : List (List String)

/-- The loop over equations, sur_utils.py:70-82. -/
def dictXs (df : String → Option α) (one : α) (xv : List (List String)) : Py (List (List α × List String)) :=
  (xv.zipIdx).mapM fun p => dictX df one p.2 p.1

/-- `sur_dictxy(db, y_vars, x_vars, space_id, time_id)`, sur_utils.py:27-144. The layout with one row per unit and period
(lines 84-142) looks the columns up and then calls `has_key` of a dictionary for the first row (line 124), which Python 3 does not have;
without rows `bign / n_eq` (line 105) divides by zero. `rows` is the number of rows of the table. -/
def surDictXY (df : String → Option α) (rows : ℕ) (one : α) (yv : List String) (xv : List (List String))
    (spaceId timeId : Option (List String)) : Py (XY α) :=
  if 1 < yv.length then do
    let y ← lookup df yv
    if xv.length ≠ yv.length then .error .exception
    else
      let xs ← dictXs df one xv
      pure ⟨y, xs.map (·.1), yv, xs.map (·.2)⟩
  else if yv.length = 1 then
    match timeId with
    | none => .error .exception
    | some tid => do
      let _ ← lookup df yv
      let _ ← (match spaceId with | none => .error .typeError | some s => lookup df s)
      let _ ← lookup df tid
      if rows = 0 then .error .zeroDivision
      else
        let _ ← (match xv with | [] => .error .indexError | x :: _ => lookup df x)
        .error .attributeError
  else .error .exception

/-- One equation of `sur_dictZ` with `form="spreg"` and `const=False`, sur_utils.py:182-193. -/
def surDictZ (df : String → Option α) (zv : List (List String)) : Py (List (List α)) := zv.mapM (lookup df)

/-- An argument is a list of names or a dictionary. -/
inductive Inp (β γ : Type) where
  | names (l : β)
  | dict (d : γ)

/-- What the constructor of `SUR` goes on with: the dictionaries and their names. -/
structure SurData (α : Type) where
  y : List α
  X : List (List α)
  nameY : Option (List String)
  nameX : Option (List (List String))

/-- The first lines of `SUR.__init__`, sur.py:418-428 (the same in sur_error.py). `df` is `none` when the argument is missing. -/
def surInput (df : Option (String → Option α)) (rows : ℕ) (one : α) (y : Inp (List String) (List α))
    (X : Inp (List (List String)) (List (List α))) (nameY : Option (List String)) (nameX : Option (List (List String))) :
    Py (SurData α) :=
  match y, X with
  | .dict y, .dict X => .ok ⟨y, X, nameY, nameX⟩
  | .names yv, .names xv =>
    if yv.length = xv.length then
      match df with
      | some d => do
        let r ← surDictXY d rows one yv xv none none
        pure ⟨r.y, r.X, some r.nameY, some r.nameX⟩
      | none => .error .exception
    else .error .exception
  | _, _ => .error .exception

end Spreg.SURLag
