import Verif.Model.LM
import Mathlib.Analysis.Real.Sqrt
/-
Model of the lazily computed attributes: `RegressionPropsY`, `RegressionPropsVM` (utils.py:23-186) and
`spDcache` (diagnostics_sp.py:443-544), as state machines.
-/
namespace Spreg.Cache
open Matrix Spreg.Lin

/-! ### RegressionPropsY / RegressionPropsVM -/

/-- The lazily computed attributes. -/
inductive Key
  | mean_y | std_y | utu | sig2n | sig2n_k | vm
  deriving DecidableEq

variable (n k : Type)

/-- Type of the value of each attribute. -/
@[reducible] def Val : Key → Type
  | .vm => Matrix k k ℝ
  | _ => ℝ

/-- Ordinary attributes the computations read: `self.y, self.u, self.n, self.k, self.sig2, self.xtxi`. -/
structure Base where
  y : n → ℝ
  u : n → ℝ
  nobs : ℝ
  nvar : ℝ
  sig2 : ℝ
  xtxi : Matrix k k ℝ

/-- `self._cache`. -/
abbrev Dict := (key : Key) → Option (Val k key)

/-- The object: ordinary attributes, and `_cache`, which may not exist yet (`none`; reading it then is the
`AttributeError` the getters catch). -/
structure Obj where
  base : Base n k
  cache : Option (Dict k)

variable {n k}

/-- `self._cache["key"] = val`, creating the dictionary when it does not exist
(setters, utils.py:53-61, 74-82, 119-127, 140-148, 161-169, 182-186). -/
def Obj.put (o : Obj n k) (key : Key) (v : Val k key) : Obj n k :=
  { o with cache := some (Function.update (o.cache.getD fun _ => none) key (some v)) }

/-- `return self._cache["key"]` inside `try`: `none` for AttributeError and for KeyError. -/
def Obj.lookup (o : Obj n k) (key : Key) : Option (Val k key) := o.cache.bind fun c => c key

/-- `except AttributeError: self._cache = {}`; nothing to do on KeyError. -/
def Obj.ensure (o : Obj n k) : Obj n k := { o with cache := some (o.cache.getD fun _ => none) }

variable [Fintype n]

/-- `np.mean(self.y)` utils.py:48 -/
noncomputable def meanY (b : Base n k) : ℝ := (∑ i, b.y i) / Fintype.card n

/-- `np.std(self.y, ddof=1)` utils.py:69 -/
noncomputable def stdY (b : Base n k) : ℝ :=
  Real.sqrt ((∑ i, (b.y i - meanY b) ^ 2) / ((Fintype.card n : ℝ) - 1))

/-- `np.sum(self.u ** 2)` utils.py:114 -/
def utuOf (b : Base n k) : ℝ := ∑ i, b.u i ^ 2

/-- getter of `mean_y`, utils.py:42-51 -/
noncomputable def getMeanY (o : Obj n k) : ℝ × Obj n k :=
  match o.lookup .mean_y with
  | some v => (v, o)
  | none => (meanY o.base, (o.ensure).put .mean_y (meanY o.base))

/-- getter of `std_y`, utils.py:63-72 -/
noncomputable def getStdY (o : Obj n k) : ℝ × Obj n k :=
  match o.lookup .std_y with
  | some v => (v, o)
  | none => (stdY o.base, (o.ensure).put .std_y (stdY o.base))

/-- getter of `utu`, utils.py:108-117 -/
def getUtu (o : Obj n k) : ℝ × Obj n k :=
  match o.lookup .utu with
  | some v => (v, o)
  | none => (utuOf o.base, (o.ensure).put .utu (utuOf o.base))

/-- getter of `sig2n`, utils.py:129-138; it reads `self.utu` -/
noncomputable def getSig2n (o : Obj n k) : ℝ × Obj n k :=
  match o.lookup .sig2n with
  | some v => (v, o)
  | none =>
    let (t, o1) := getUtu o.ensure
    let v := t / o1.base.nobs
    (v, o1.put .sig2n v)

/-- getter of `sig2n_k`, utils.py:150-159; it reads `self.utu` -/
noncomputable def getSig2nk (o : Obj n k) : ℝ × Obj n k :=
  match o.lookup .sig2n_k with
  | some v => (v, o)
  | none =>
    let (t, o1) := getUtu o.ensure
    let v := t / (o1.base.nobs - o1.base.nvar)
    (v, o1.put .sig2n_k v)

/-- getter of `vm`, utils.py:171-180 -/
def getVm (o : Obj n k) : Matrix k k ℝ × Obj n k :=
  match o.lookup .vm with
  | some v => (v, o)
  | none =>
    let o1 := o.ensure
    let v := o1.base.sig2 • o1.base.xtxi
    (v, o1.put .vm v)

/-- Reading an attribute. -/
noncomputable def get (o : Obj n k) : (key : Key) → Val k key × Obj n k
  | .mean_y => getMeanY o
  | .std_y => getStdY o
  | .utu => getUtu o
  | .sig2n => getSig2n o
  | .sig2n_k => getSig2nk o
  | .vm => getVm o

/-- What a client can do with the object: read a lazy attribute, assign one, or replace ordinary
attributes. -/
inductive Op (n k : Type)
  | read (key : Key)
  | assign (key : Key) (v : Val k key)
  | setBase (b : Base n k)

/-- One operation. -/
noncomputable def step (o : Obj n k) : Op n k → Obj n k
  | .read key => (get o key).2
  | .assign key v => o.put key v
  | .setBase b => { o with base := b }

/-- A history of operations. -/
noncomputable def run (o : Obj n k) (h : List (Op n k)) : Obj n k := h.foldl step o

/-- A freshly constructed object: no `_cache` yet. -/
def fresh (b : Base n k) : Obj n k := { base := b, cache := none }

/-! ### spDcache -/

open Spreg.LM in
/-- The cached quantities of the spatial diagnostics. -/
inductive DKey
  | j | wu | utwuDs | utwyDs | t | trA | AB
  deriving DecidableEq

/-- Types of the cached quantities. -/
@[reducible] def DVal (n k : Type) : DKey → Type
  | .wu => n → ℝ
  | .AB => Matrix k k ℝ × Matrix k k ℝ
  | _ => ℝ

/-- `spDcache`: dictionary plus, as a ghost, the list of quantities computed so far. -/
structure DCache (n k : Type) where
  dict : (key : DKey) → Option (DVal n k key)
  log : List DKey

/-- `spDcache.__init__`, diagnostics_sp.py:478-481 -/
def DCache.empty (n k : Type) : DCache n k := { dict := fun _ => none, log := [] }

/-- `if key not in self._cache: self._cache[key] = <compute>; return self._cache[key]`; the computation may
itself read the cache. -/
def DCache.memo {n k : Type} (c : DCache n k) (key : DKey)
    (compute : DCache n k → DVal n k key × DCache n k) : DVal n k key × DCache n k :=
  match c.dict key with
  | some v => (v, c)
  | none =>
    let (v, c1) := compute c
    (v, { dict := Function.update c1.dict key (some v), log := c1.log ++ [key] })

variable [Fintype k]
open Spreg.LM

/-- `spDcache.t` diagnostics_sp.py:515-520 -/
def dT (W : Matrix n n ℝ) (c : DCache n k) : ℝ × DCache n k :=
  c.memo .t fun c => (∑ i, ((Wᵀ + W) * W) i i, c)

/-- `spDcache.wu` diagnostics_sp.py:495-499 -/
def dWu (r : Reg n k) (W : Matrix n n ℝ) (c : DCache n k) : (n → ℝ) × DCache n k :=
  c.memo .wu fun c => (W *ᵥ r.fit.u, c)

/-- `spDcache.j` diagnostics_sp.py:483-493, reading `self.t` -/
noncomputable def dJ (r : Reg n k) (W : Matrix n n ℝ) (c : DCache n k) : ℝ × DCache n k :=
  c.memo .j fun c =>
    let wxb := W *ᵥ r.fit.predy
    let wxb2 := wxb ⬝ᵥ wxb
    let xwxb := r.xᵀ *ᵥ wxb
    let num1 := wxb2 - xwxb ⬝ᵥ (r.fit.xtxi *ᵥ xwxb)
    let (t, c1) := dT W c
    let num := num1 + t * r.s2
    let den := r.nn * r.s2
    (num / den, c1)

/-- `spDcache.utwuDs` diagnostics_sp.py:501-506, reading `self.wu` -/
noncomputable def dUtwuDs (r : Reg n k) (W : Matrix n n ℝ) (c : DCache n k) : ℝ × DCache n k :=
  c.memo .utwuDs fun c =>
    let (v, c1) := dWu r W c
    ((r.fit.u ⬝ᵥ v) / r.s2, c1)

/-- `spDcache.utwyDs` diagnostics_sp.py:508-513 -/
noncomputable def dUtwyDs (r : Reg n k) (W : Matrix n n ℝ) (c : DCache n k) : ℝ × DCache n k :=
  c.memo .utwyDs fun c => ((r.fit.u ⬝ᵥ (W *ᵥ r.y)) / r.s2, c)

/-- `spDcache.trA` diagnostics_sp.py:522-528 -/
def dTrA (r : Reg n k) (W : Matrix n n ℝ) (c : DCache n k) : ℝ × DCache n k :=
  c.memo .trA fun c => (∑ i, (r.fit.xtxi * (r.xᵀ * (W * r.x))) i i, c)

/-- `spDcache.AB` diagnostics_sp.py:530-544 -/
noncomputable def dAB (r : Reg n k) (W : Matrix n n ℝ) (c : DCache n k) :
    (Matrix k k ℝ × Matrix k k ℝ) × DCache n k :=
  c.memo .AB fun c => (LM.AB r W, c)

/-- reading one of the quantities -/
noncomputable def dget (r : Reg n k) (W : Matrix n n ℝ) (c : DCache n k) :
    (key : DKey) → DVal n k key × DCache n k
  | .j => dJ r W c
  | .wu => dWu r W c
  | .utwuDs => dUtwuDs r W c
  | .utwyDs => dUtwyDs r W c
  | .t => dT W c
  | .trA => dTrA r W c
  | .AB => dAB r W c

/-- a sequence of reads -/
noncomputable def drun (r : Reg n k) (W : Matrix n n ℝ) (c : DCache n k) (h : List DKey) : DCache n k :=
  h.foldl (fun c key => (dget r W c key).2) c

end Spreg.Cache
