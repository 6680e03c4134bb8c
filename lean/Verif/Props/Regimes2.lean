import Verif.Props.Regimes
import Mathlib.Data.List.Sort
import Mathlib.Data.List.NodupEquivFin
import Mathlib.Tactic.Ring
import Mathlib.Tactic.NormNum
/-
C25 (regime labels and membership), C26 (restriction matrices of the Chow tests), C29 (multi-process runs
give the sequential result).
-/
namespace Spreg.Regimes
open Spreg

variable {L V : Type} [DecidableEq L]

/-! ### C25 -/

/-- C25: for labels with a total order (strings, ints) the regime list is strictly increasing and has
exactly the labels of the observations. -/
theorem C25_set {L : Type} [LinearOrder L] (regimes : List L) (h : regimes ≠ []) :
    ∃ rs, regimesSet (· ≤ ·) regimes = .ok rs ∧ rs.Pairwise (· < ·) ∧
      ∀ r, r ∈ rs ↔ r ∈ regimes := by
  refine ⟨(regimes.dedup).insertionSort (· ≤ ·), by simp [regimesSet, h], ?_, ?_⟩
  · have h1 : ((regimes.dedup).insertionSort (· ≤ ·)).Pairwise (· ≤ ·) := List.pairwise_insertionSort _ _
    have h2 : ((regimes.dedup).insertionSort (· ≤ ·)).Nodup :=
      (List.perm_insertionSort _ _).nodup_iff.2 (List.nodup_dedup _)
    refine (h1.and h2).imp ?_
    rintro a b ⟨hab, hne⟩
    exact lt_of_le_of_ne hab hne
  · intro r; simp

theorem mem_whereEq (r : L) (l : List L) : ∀ off i, i ∈ whereEq r l off ↔
    off ≤ i ∧ l[i - off]? = some r := by
  induction l with
  | nil => intro off i; simp [whereEq]
  | cons a t ih =>
    intro off i
    have key : i ∈ whereEq r t (off + 1) ↔ off < i ∧ t[i - off - 1]? = some r := by
      rw [ih]; rw [show i - (off + 1) = i - off - 1 by omega]; rfl
    by_cases hi : i = off
    · subst hi
      by_cases ha : a = r <;> simp [whereEq, ha, key]
    · by_cases hlt : off < i
      · have h2 : (a :: t)[i - off]? = t[i - off - 1]? := by
          rw [show i - off = (i - off - 1) + 1 by omega]; simp
        rw [h2]
        by_cases ha : a = r <;> simp [whereEq, ha, key, hi, hlt, hlt.le]
      · have : ¬ off ≤ i := by omega
        by_cases ha : a = r <;> simp [whereEq, ha, key, hi, hlt, this]

theorem whereEq_sorted (r : L) (l : List L) : ∀ off, (whereEq r l off).Pairwise (· < ·) := by
  induction l with
  | nil => intro off; exact .nil
  | cons a t ih =>
    intro off
    by_cases ha : a = r
    · simp only [whereEq, ha, if_true]
      refine List.pairwise_cons.2 ⟨?_, ih _⟩
      intro b hb
      have := ((mem_whereEq r t _ _).1 hb).1
      omega
    · simp only [whereEq, ha, if_false]; exact ih _

/-- C25: `regi_ids` assigns every observation to the regime of its label and to no other, in increasing
order of position. -/
theorem C25_partition (regimes rs : List L) (hrs : ∀ r, r ∈ rs ↔ r ∈ regimes) :
    (∀ r i, i ∈ regiIds regimes r ↔ regimes[i]? = some r) ∧
    (∀ r, (regiIds regimes r).Pairwise (· < ·)) ∧
    (∀ i < regimes.length, ∃! r, r ∈ rs ∧ i ∈ regiIds regimes r) := by
  have hm : ∀ r i, i ∈ regiIds regimes r ↔ regimes[i]? = some r := by
    intro r i; simp [regiIds, mem_whereEq]
  refine ⟨hm, fun r => whereEq_sorted r regimes 0, ?_⟩
  intro i hi
  refine ⟨regimes[i], ⟨(hrs _).2 (List.getElem_mem hi), (hm _ _).2 (List.getElem?_eq_getElem hi)⟩, ?_⟩
  rintro r ⟨_, h⟩
  rw [hm, List.getElem?_eq_getElem hi] at h
  exact (Option.some.inj h).symm

/-- C25, float labels: `_get_regimes_set` keeps the labels of the observations exactly when the labels are
whole numbers or truncation merges two of them. -/
theorem C25_float_iff (regimes : List ℚ) (h : regimes ≠ []) :
    ∃ rs, regimesSetFloat regimes = .ok rs ∧
      ((∀ r, r ∈ rs ↔ r ∈ regimes) ↔
        ((∀ q ∈ regimes, pyInt q = q) ∨ ∃ a ∈ regimes, ∃ b ∈ regimes, a ≠ b ∧ pyInt a = pyInt b)) := by
  have hidem : ∀ q, pyInt (pyInt q) = pyInt q := by
    intro q
    have hz : ∀ z : ℤ, pyInt (z : ℚ) = z := by intro z; unfold pyInt; split <;> simp
    have : ∃ z : ℤ, pyInt q = z := by unfold pyInt; split <;> exact ⟨_, rfl⟩
    obtain ⟨z, hz'⟩ := this
    rw [hz', hz]
  simp only [regimesSetFloat, h, if_false]
  refine ⟨_, rfl, ?_⟩
  by_cases hl : ((regimes.dedup.map pyInt).dedup).length = regimes.dedup.length
  · have hnd : (regimes.dedup.map pyInt).Nodup := by
      have h1 : (regimes.dedup.map pyInt).dedup = regimes.dedup.map pyInt :=
        (List.dedup_sublist _).eq_of_length (by rw [hl, List.length_map])
      rw [← h1]; exact List.nodup_dedup _
    have hinj : ∀ a ∈ regimes, ∀ b ∈ regimes, pyInt a = pyInt b → a = b := by
      intro a ha b hb hab
      exact List.inj_on_of_nodup_map hnd (List.mem_dedup.2 ha) (List.mem_dedup.2 hb) hab
    simp only [hl, if_true, List.mem_insertionSort, List.mem_dedup, List.mem_map]
    constructor
    · intro hm
      refine Or.inl fun q hq => ?_
      obtain ⟨a, _, rfl⟩ := (hm q).2 hq
      exact hidem a
    · rintro (hw | ⟨a, ha, b, hb, hne, hab⟩)
      · intro r
        constructor
        · rintro ⟨a, ha, rfl⟩; rwa [hw a ha]
        · intro hr; exact ⟨r, hr, hw r hr⟩
      · exact absurd (hinj a ha b hb hab) hne
  · simp only [hl, if_false, List.mem_insertionSort, List.mem_dedup, true_iff, implies_true]
    refine Or.inr ?_
    by_contra hcon
    apply hl
    have hnd : (regimes.dedup.map pyInt).Nodup := by
      refine List.Nodup.map_on ?_ (List.nodup_dedup _)
      intro a ha b hb hab
      by_contra hne
      exact hcon ⟨a, List.mem_dedup.1 ha, b, List.mem_dedup.1 hb, hne, hab⟩
    rw [hnd.dedup, List.length_map]

/-- C25, defect: float labels 0.5 and 1.5 become the regimes 0 and 1, which no observation has, and building
the design raises KeyError. -/
theorem C25_violated (x : List (List V)) (k : Nat) :
    ∃ rs, regimesSetFloat [1/2, 3/2] = .ok rs ∧ (1/2 : ℚ) ∉ rs ∧
      x2xsp x k [1/2, 3/2] rs = .error .keyError := by
  refine ⟨[0, 1], by decide +kernel, by decide +kernel, ?_⟩
  refine C23_unknown_label x k _ _ (1/2) ?_ ?_ <;> decide +kernel

/-- Non-vacuity for C25. -/
example : regimesSet (· ≤ ·) [3, 1, 3, 2] = .ok [1, 2, 3] := by decide +kernel
example : regiIds ["b", "a", "b"] "b" = [0, 2] := by decide

/-! ### C26 -/

/-- The layout of a coefficient vector: for each regime in turn the `kr - kryd` varying exogenous
coefficients, then for each regime in turn the `kryd` varying endogenous ones. Position of variable `v`
(exogenous first) in regime `g`. -/
def coefPos (kr kryd nr v g : Nat) : Nat :=
  if v < kr - kryd then g * (kr - kryd) + v else nr * (kr - kryd) + g * kryd + (v - (kr - kryd))

theorem coefPos_lt {kr kryd nr v g : Nat} (hk : kryd ≤ kr) (hv : v < kr) (hg : g < nr) :
    coefPos kr kryd nr v g < kr * nr := by
  obtain ⟨a, rfl⟩ : ∃ a, kr = a + kryd := ⟨kr - kryd, by omega⟩
  obtain ⟨m, rfl⟩ : ∃ m, nr = g + 1 + m := ⟨nr - g - 1, by omega⟩
  unfold coefPos
  simp only [Nat.add_sub_cancel]
  split
  · have : 0 ≤ m * a := Nat.zero_le _
    nlinarith
  · have h1 : v - a < kryd := by omega
    have : 0 ≤ m * kryd := Nat.zero_le _
    nlinarith

theorem coefPos_inj {kr kryd nr v g v' g' : Nat} (hv : v < kr) (hv' : v' < kr)
    (hg : g < nr) (hg' : g' < nr) (h : coefPos kr kryd nr v g = coefPos kr kryd nr v' g') :
    v = v' ∧ g = g' := by
  have key : ∀ {a x y p q : Nat}, x < a → y < a → p * a + x = q * a + y → x = y ∧ p = q := by
    intro a x y p q hx hy h
    have h1 : (p * a + x) % a = x := by rw [Nat.mul_comm, Nat.mul_add_mod]; exact Nat.mod_eq_of_lt hx
    have h2 : (q * a + y) % a = y := by rw [Nat.mul_comm, Nat.mul_add_mod]; exact Nat.mod_eq_of_lt hy
    have hxy : x = y := by rw [← h1, ← h2, h]
    refine ⟨hxy, ?_⟩
    subst hxy
    have : p * a = q * a := by omega
    exact Nat.eq_of_mul_eq_mul_right (by omega) this
  have cross : ∀ {a p x rest : Nat}, x < a → p < nr → p * a + x = nr * a + rest → False := by
    intro a p x rest hx hp h
    have : (p + 1) * a ≤ nr * a := Nat.mul_le_mul_right _ hp
    rw [Nat.add_mul] at this
    omega
  unfold coefPos at h
  split at h <;> split at h
  · obtain ⟨h1, h2⟩ := key (by assumption) (by assumption) h
    exact ⟨h1, h2⟩
  · rename_i h1 h2
    exact absurd (by rw [h, Nat.add_assoc] : g * (kr - kryd) + v = nr * (kr - kryd) + _) (fun h => cross h1 hg h)
  · rename_i h1 h2
    exact absurd (by rw [← h, Nat.add_assoc] : g' * (kr - kryd) + v' = nr * (kr - kryd) + _) (fun h => cross h2 hg' h)
  · rename_i h1 h2
    have h3 : g * kryd + (v - (kr - kryd)) = g' * kryd + (v' - (kr - kryd)) := by omega
    obtain ⟨h4, h5⟩ := key (by omega) (by omega) h3
    exact ⟨by omega, h5⟩

theorem sum_map_two {β : Type} [Ring β] (n p q : Nat) (b : Nat → β) (hp : p < n) (hq : q < n)
    (hpq : p ≠ q) :
    ((List.range n).map fun c => (((if c = q then -1 else if c = p then 1 else 0 : ℤ)) : β) * b c).sum
      = b p - b q := by
  have h : ∀ c, (((if c = q then -1 else if c = p then 1 else 0 : ℤ)) : β) * b c
      = (if c = p then b c else 0) + (if c = q then - b c else 0) := by
    intro c
    by_cases h1 : c = q
    · subst h1; simp [Ne.symm hpq]
    · by_cases h2 : c = p <;> simp [h1, h2]
      subst h2; simp [h1]
  simp only [h]
  rw [List.sum_map_add]
  have e1 := sum_map_single n p b hp
  have e2 := sum_map_single n q (fun c => - b c) hq
  rw [sub_eq_add_neg]
  convert congrArg₂ (· + ·) e1 e2 using 2

theorem buildR1var_eq {kr kryd nr v row : Nat} (hk : kryd ≤ kr) (hv : v < kr) (hr : row < nr - 1)
    (c : Nat) : buildR1var v kr kryd nr row c =
      if c = coefPos kr kryd nr v (row + 1) then -1 else if c = coefPos kr kryd nr v 0 then 1 else 0 := by
  have h0 := coefPos_lt (g := 0) hk hv (by omega : 0 < nr)
  have h1 := coefPos_lt (g := row + 1) hk hv (by omega : row + 1 < nr)
  have e0 : (if v < kr - kryd then v else (kr - kryd) * (nr - 1) + v) = coefPos kr kryd nr v 0 := by
    unfold coefPos
    split
    · simp
    · obtain ⟨m, rfl⟩ : ∃ m, nr = m + 1 := ⟨nr - 1, by omega⟩
      simp only [Nat.add_sub_cancel, Nat.zero_mul, Nat.add_zero, Nat.add_mul, Nat.one_mul]
      rw [Nat.mul_comm]; omega
  have e1 : (if v < kr - kryd then kr - kryd else kryd)
      + (if v < kr - kryd then v else (kr - kryd) * (nr - 1) + v)
      + row * (if v < kr - kryd then kr - kryd else kryd) = coefPos kr kryd nr v (row + 1) := by
    rw [e0]
    unfold coefPos
    split <;> rw [Nat.add_mul] <;> omega
  unfold buildR1var
  by_cases hlt : v < kr - kryd
  · simp only [hlt, if_true] at e0 e1 ⊢
    rw [e1]
    split
    · rw [← e0]
    · rename_i hc
      rw [if_neg (by omega), if_neg (by omega)]
  · simp only [hlt, if_false] at e0 e1 ⊢
    rw [e1]
    split
    · rw [e0]
    · rename_i hc
      rw [if_neg (by omega), if_neg (by omega)]

/-- C26: row `row` of the restriction matrix for variable `v` takes the difference between the coefficient
of `v` in the first regime and in regime `row + 1`, for the layout `coefPos`; both positions are inside
the matrix, and the assignments never leave the array. -/
theorem C26_difference [Ring V] (kr kf kryd nr v row : Nat) (hk : kryd ≤ kr) (hv : v < kr)
    (hr : row < nr - 1) (b : Nat → V) :
    applyR1var v kr kf kryd nr b row = b (coefPos kr kryd nr v 0) - b (coefPos kr kryd nr v (row + 1)) ∧
    coefPos kr kryd nr v 0 < kr * nr ∧ coefPos kr kryd nr v (row + 1) < kr * nr := by
  have h0 := coefPos_lt (g := 0) hk hv (by omega : 0 < nr)
  have h1 := coefPos_lt (g := row + 1) hk hv (by omega : row + 1 < nr)
  refine ⟨?_, h0, h1⟩
  unfold applyR1var
  simp only [buildR1var_eq hk hv hr]
  refine sum_map_two _ _ _ b (by omega) (by omega) ?_
  intro h
  have := (coefPos_inj hv hv (by omega) (by omega) h).2
  omega

/-- C26: the joint Chow restriction holds exactly when every varying coefficient is the same in all regimes;
global coefficients are not restricted. -/
theorem C26_joint [Ring V] (kr kf kryd nr : Nat) (hk : kryd ≤ kr) (b : Nat → V) :
    (∀ v < kr, ∀ row < nr - 1, applyR1var v kr kf kryd nr b row = 0) ↔
    (∀ v < kr, ∀ g < nr, ∀ g' < nr, b (coefPos kr kryd nr v g) = b (coefPos kr kryd nr v g')) := by
  constructor
  · intro h v hv
    have hb : ∀ g < nr, b (coefPos kr kryd nr v g) = b (coefPos kr kryd nr v 0) := by
      intro g hg
      cases g with
      | zero => rfl
      | succ g =>
        have := h v hv g (by omega)
        rw [(C26_difference kr kf kryd nr v g hk hv (by omega) b).1, sub_eq_zero] at this
        exact this.symm
    intro g hg g' hg'
    rw [hb g hg, hb g' hg']
  · intro h v hv row hr
    rw [(C26_difference kr kf kryd nr v row hk hv hr b).1, sub_eq_zero]
    exact h v hv 0 (by omega) (row + 1) (by omega)

/-- Non-vacuity for C26: two varying exogenous, one varying endogenous, two regimes, one global. -/
example : (List.range 7).map (buildR1var 2 3 1 2 0) = [0, 0, 0, 0, 1, -1, 0] := by decide
example : (List.range 7).map (buildR1var 1 3 1 2 0) = [0, 1, 0, -1, 0, 0, 0] := by decide

/-! ### C61: the Chow layout against the coefficients of a two stage model -/

/-- The varying variables of a two stage regime model, exogenous (constant first) then endogenous. -/
def varyingVars [One V] (xcols ycols : List (List V)) (nobs : Nat) (constMany : Bool)
    (mx my : List Bool) : List (List V) :=
  select (constMany :: mx) true (List.replicate nobs 1 :: xcols) ++ select my true ycols

theorem getElem?_x2xspCols [Zero V] (cols : List (List V)) (regimes : List L) : ∀ (rs : List L) (g v : Nat)
    (hg : g < rs.length) (hv : v < cols.length),
    (x2xspCols cols regimes rs)[g * cols.length + v]? = some (maskCol regimes rs[g] cols[v]) := by
  intro rs
  induction rs with
  | nil => intro g v hg; simp at hg
  | cons r t ih =>
    intro g v hg hv
    unfold x2xspCols at ih ⊢
    rw [List.flatMap_cons]
    cases g with
    | zero =>
      rw [List.getElem?_append_left (by simp; omega)]
      simp [hv]
    | succ g =>
      rw [List.getElem?_append_right (by simp [Nat.add_mul]; omega)]
      rw [List.length_map, show (g + 1) * cols.length + v - cols.length = g * cols.length + v by
        rw [Nat.add_mul]; omega]
      rw [ih g v (by simpa using hg) hv]
      rfl

theorem length_x2xspCols [Zero V] (cols : List (List V)) (regimes rs : List L) :
    (x2xspCols cols regimes rs).length = rs.length * cols.length := by
  unfold x2xspCols
  rw [List.length_flatMap]
  simp

theorem length_select {α : Type} (b : Bool) : ∀ (mask : List Bool) (l : List α), mask.length = l.length →
    (select mask b l).length = (mask.filter (· = b)).length := by
  intro mask
  induction mask with
  | nil => intro l _; simp [select]
  | cons m t ih =>
    intro l h
    cases l with
    | nil => simp at h
    | cons a l =>
      have := ih l (by simpa using h)
      unfold select at this ⊢
      by_cases hm : m = b
      · simp only [List.zip_cons_cons, List.filter_cons, hm, beq_self_eq_true, if_true, List.map_cons,
          List.length_cons, this, decide_true]
      · have h1 : (m == b) = false := by simpa using hm
        simp only [List.zip_cons_cons, List.filter_cons, h1, Bool.false_eq_true, if_false, this, hm,
          decide_false]

/-- C61: in a pooled OLS regime model the Chow layout is the layout of the coefficients: the design column
at the position tested for variable `v` and regime `g` is varying variable `v` restricted to regime `g`.
Global variables come after all of them. -/
theorem C61_ols [Zero V] (cols : List (List V)) (regimes : List L) (mask : List Bool) (rs : List L)
    (h : mask.length = cols.length) (v g : Nat) (hv : v < (select mask true cols).length)
    (hg : g < rs.length) :
    (regimeXsetup cols regimes mask rs)[coefPos (select mask true cols).length 0 rs.length v g]?
      = some (maskCol regimes rs[g] (select mask true cols)[v]) := by
  rw [regimeXsetup_eq _ _ _ _ h]
  have hlt := coefPos_lt (kr := (select mask true cols).length) (kryd := 0) (Nat.zero_le _) hv hg
  rw [List.getElem?_append_left (by rw [length_x2xspCols, Nat.mul_comm]; exact hlt)]
  unfold coefPos
  rw [if_pos (by simpa using hv)]
  simpa using getElem?_x2xspCols (select mask true cols) regimes rs g v hg hv

/-- C61: in a pooled two stage regime model (constant, exogenous, endogenous variables) the Chow layout is
the layout of the coefficients when every exogenous variable and the constant vary, or no endogenous
variable does. -/
theorem C61_tsls_partial [Zero V] [One V] (xcols ycols : List (List V)) (nobs : Nat) (regimes : List L)
    (constMany : Bool) (mx my : List Bool) (rs : List L) (hx : mx.length = xcols.length)
    (hy : my.length = ycols.length)
    (hgood : (constMany = true ∧ ∀ b ∈ mx, b = true) ∨ (∀ b ∈ my, b = false)) :
    let d := tslsDesign xcols ycols nobs regimes constMany (mx ++ my) rs
    d.2.1 = (varyingVars xcols ycols nobs constMany mx my).length ∧
    ∀ v g, ∀ hv : v < (varyingVars xcols ycols nobs constMany mx my).length, ∀ hg : g < rs.length,
      d.1[coefPos d.2.1 d.2.2.2 rs.length v g]?
        = some (maskCol regimes rs[g] (varyingVars xcols ycols nobs constMany mx my)[v]) := by
  intro d
  have htake : (mx ++ my).take xcols.length = mx := by rw [← hx, List.take_left']; rfl
  have hdrop : (mx ++ my).drop ((mx ++ my).length - ycols.length) = my := by
    rw [List.length_append, ← hy, Nat.add_sub_cancel, List.drop_left']; rfl
  have hmx : (constMany :: mx).length = (List.replicate nobs (1 : V) :: xcols).length := by simp [hx]
  have hd : d = (regimeXsetup (List.replicate nobs 1 :: xcols) regimes (constMany :: mx) rs
        ++ regimeXsetup ycols regimes my rs,
      ((constMany :: mx).filter (· = true)).length + (my.filter (· = true)).length,
      ((constMany :: mx).length - ((constMany :: mx).filter (· = true)).length)
        + (ycols.length - (my.filter (· = true)).length),
      (my.filter (· = true)).length) := by
    simp only [d, tslsDesign, yendFrame, htake, hdrop]
  rw [hd, regimeXsetup_eq _ _ _ _ hmx, regimeXsetup_eq _ _ _ _ hy, ← length_select true _ _ hmx,
    ← length_select true _ _ hy]
  simp only []
  unfold varyingVars
  generalize hA : select (constMany :: mx) true (List.replicate nobs (1 : V) :: xcols) = A
  generalize hB : select my true ycols = B
  refine ⟨by simp, ?_⟩
  intro v g hv hg
  have hvl : v < A.length + B.length := by simpa using hv
  have hcp : A.length + B.length - B.length = A.length := by omega
  by_cases hlt : v < A.length
  · have hpos : g * A.length + v < (x2xspCols A regimes rs).length := by
      rw [length_x2xspCols]
      have : (g + 1) * A.length ≤ rs.length * A.length := Nat.mul_le_mul_right _ hg
      rw [Nat.add_mul] at this; omega
    unfold coefPos
    rw [hcp, if_pos hlt, List.append_assoc, List.getElem?_append_left hpos,
      getElem?_x2xspCols A regimes rs g v hg hlt, List.getElem_append_left hlt]
  · have hB0 : 0 < B.length := by omega
    have hall : constMany = true ∧ ∀ b ∈ mx, b = true := by
      rcases hgood with h | h
      · exact h
      · exfalso
        have := (select_all false my ycols hy h).2
        simp only [Bool.not_false] at this
        rw [this] at hB
        rw [← hB] at hB0
        simp at hB0
    have hglob : select (constMany :: mx) false (List.replicate nobs (1 : V) :: xcols) = [] := by
      have := (select_all true (constMany :: mx) (List.replicate nobs (1 : V) :: xcols) hmx
        (by simpa [hall.1] using hall.2)).2
      simpa using this
    rw [hglob, List.append_nil]
    have hv' : v - A.length < B.length := by omega
    have hpos : g * B.length + (v - A.length) < (x2xspCols B regimes rs).length := by
      rw [length_x2xspCols]
      have : (g + 1) * B.length ≤ rs.length * B.length := Nat.mul_le_mul_right _ hg
      rw [Nat.add_mul] at this; omega
    unfold coefPos
    rw [hcp, if_neg hlt, List.getElem?_append_right (by rw [length_x2xspCols]; omega),
      length_x2xspCols,
      show rs.length * A.length + g * B.length + (v - A.length) - rs.length * A.length
        = g * B.length + (v - A.length) by omega,
      List.getElem?_append_left hpos, getElem?_x2xspCols B regimes rs g _ hg hv',
      List.getElem_append_right (by omega)]

/-- C61, defect: with `constant_regi='one'`, one varying exogenous variable `x` and one varying endogenous
variable `yend`, the Chow test of `yend` compares the coefficient of the global constant with that of
`yend` in the first regime; the coefficient of `yend` in the second regime is not used at all. -/
theorem C61_violated :
    let xs : List ℤ := [2, 3, 5, 7]
    let ys : List ℤ := [11, 13, 17, 19]
    let reg := ["a", "a", "b", "b"]
    let d := tslsDesign [xs] [ys] 4 reg false [true, true] ["a", "b"]
    d.2.1 = 2 ∧ d.2.2.2 = 1 ∧ d.1.length = 5 ∧
    d.1[coefPos 2 1 2 1 0]? = some [1, 1, 1, 1] ∧
    d.1[coefPos 2 1 2 1 1]? = some [11, 13, 0, 0] ∧
    (∀ (b : Nat → ℚ), applyR1var 1 2 1 1 2 b 0 = b 2 - b 3) := by
  refine ⟨by decide, by decide, by decide, by decide, by decide, ?_⟩
  intro b
  exact (C26_difference 2 1 1 2 1 0 (by decide) (by decide) (by decide) b).1

/-- Non-vacuity for `C61_tsls_partial`: all vary, two regimes. -/
example : (tslsDesign [[2, 3, 5, 7]] [[11, 13, 17, (19 : ℤ)]] 4 ["a", "a", "b", "b"] true [true, true]
    ["a", "b"]).1 = [[1, 1, 0, 0], [2, 3, 0, 0], [0, 0, 1, 1], [0, 0, 5, 7], [11, 13, 0, 0], [0, 0, 17, 19]] := by
  decide

/-! ### C62: `check_cols2regi` -/

/-- C62: with `constant_regi` "one" or "many", `check_cols2regi` returns exactly one flag per variable,
preceded by the flag of the constant when `add_cons` is set; it raises exactly when a list of the wrong
length is given. -/
theorem C62_check_cols2regi (many : Bool) (c2r : Cols2Regi) (totK : Nat) (addCons : Bool) :
    let flags := match c2r with
      | .all => List.replicate totK true
      | .list l => l
    checkCols2regi (if many then .many else .one) c2r totK addCons =
      if flags.length = totK then .ok ((if addCons then [many] else []) ++ flags)
      else .error .exception := by
  cases c2r <;> cases addCons <;> cases many <;>
    simp [checkCols2regi, Except.bind]

/-- C62: `constant_regi` false with `add_cons` fails before the length is looked at (the name `regi_cons`
is unbound). -/
theorem C62_no_constant (c2r : Cols2Regi) (totK : Nat) :
    checkCols2regi .none' c2r totK true = .error .unboundLocal := rfl

/-! ### C63: `check_const_regi` -/

/-- C63: the columns kept by `check_const_regi` are, in order, exactly those that vary in every regime. -/
theorem C63_columns {C : Type} (isConst : List Nat → C → Bool) : ∀ (ids : List (List Nat))
    (names : List String) (cols : List C),
    (checkConstRegi isConst ids names cols).2 = cols.filter fun c => ids.all fun i => !isConst i c := by
  intro ids
  induction ids with
  | nil => intro names cols; simp [checkConstRegi]
  | cons i t ih =>
    intro names cols
    simp only [checkConstRegi, constStep]
    rw [ih, List.filter_filter]
    congr 1
    funext c
    simp [Bool.and_comm]

theorem filter_zip_names {C : Type} (p : C → Bool) : ∀ (names : List String) (cols : List C),
    names.Nodup → names.length = cols.length →
    names.filter (· ∉ ((names.zip cols).filter fun q => p q.2).map (·.1))
      = ((names.zip cols).filter fun q => !p q.2).map (·.1) := by
  intro names
  induction names with
  | nil => intro cols _ _; simp
  | cons a t ih =>
    intro cols hnd hl
    cases cols with
    | nil => simp at hl
    | cons c cs =>
      rw [List.nodup_cons] at hnd
      have ih' := ih cs hnd.2 (by simpa using hl)
      have hna : a ∉ ((t.zip cs).filter fun q => p q.2).map (·.1) := by
        intro h
        obtain ⟨⟨x, y⟩, hm, rfl⟩ := List.mem_map.1 h
        exact hnd.1 (List.of_mem_zip (List.mem_filter.1 hm).1).1
      have hcongr : t.filter (· ∉ ((((a, c) :: t.zip cs)).filter fun q => p q.2).map (·.1))
          = t.filter (· ∉ ((t.zip cs).filter fun q => p q.2).map (·.1)) := by
        apply List.filter_congr
        intro x hx
        have hxa : x ≠ a := fun h => hnd.1 (h ▸ hx)
        by_cases hp : p c = true
        · simp [List.filter_cons, hp, hxa]
        · simp [List.filter_cons, hp]
      change (a :: t).filter (· ∉ ((((a, c) :: t.zip cs)).filter fun q => p q.2).map (·.1)) =
        ((((a, c) :: t.zip cs)).filter fun q => !p q.2).map (·.1)
      have hc2 := hcongr.trans ih'
      rw [List.filter_cons]
      by_cases hp : p c = true
      · rw [if_neg (by simp [List.filter_cons, hp])]
        rw [List.filter_cons (p := fun q : String × C => !p q.2), if_neg (by simp [hp])]
        exact hc2
      · have : a ∉ ((((a, c) :: t.zip cs)).filter fun q => p q.2).map (·.1) := by
          rw [List.filter_cons, if_neg hp]; exact hna
        rw [if_pos (decide_eq_true this)]
        rw [List.filter_cons (p := fun q : String × C => !p q.2), if_pos (by simp [hp]), List.map_cons]
        refine congrArg (a :: ·) ?_
        exact hc2

/-- C63: with distinct names the kept names stay attached to their columns: names and columns together are
the pairs whose column varies in every regime. -/
theorem C63_names {C : Type} (isConst : List Nat → C → Bool) : ∀ (ids : List (List Nat))
    (names : List String) (cols : List C), names.Nodup → names.length = cols.length →
    let r := checkConstRegi isConst ids names cols
    r.1.zip r.2 = (names.zip cols).filter (fun q => ids.all fun i => !isConst i q.2) ∧
    r.1.length = r.2.length := by
  intro ids
  induction ids with
  | nil => intro names cols _ hl; simp [checkConstRegi, hl]
  | cons i t ih =>
    intro names cols hnd hl
    have h1 : (constStep isConst i names cols).1 = ((names.zip cols).filter fun q => !isConst i q.2).map (·.1) :=
      filter_zip_names (isConst i) names cols hnd hl
    have h2 : (constStep isConst i names cols).2 = ((names.zip cols).filter fun q => !isConst i q.2).map (·.2) := by
      simp only [constStep]
      conv_lhs => rw [← List.map_snd_zip (l₁ := names) (l₂ := cols) hl.ge]
      rw [List.filter_map]
      rfl
    have hnd' : (constStep isConst i names cols).1.Nodup := by
      simp only [constStep]; exact hnd.filter _
    have hl' : (constStep isConst i names cols).1.length = (constStep isConst i names cols).2.length := by
      rw [h1, h2]; simp
    have := ih _ _ hnd' hl'
    simp only [checkConstRegi]
    refine ⟨?_, this.2⟩
    rw [this.1, h1, h2, ← List.unzip_fst, ← List.unzip_snd, List.zip_unzip, List.filter_filter]
    congr 1
    funext q
    simp [Bool.and_comm]

/-- C63, defect: with a repeated name the names lose their columns: the name is dropped for both variables
although one of the columns is kept. -/
theorem C63_duplicate_names_violated :
    checkConstRegi (fun ids (c : List ℤ) => (ids.map fun i => c.getD i 0).dedup.length ≤ 1) [[0, 1], [2, 3]]
      ["a", "a", "b"] [[1, 2, 3, 4], [5, 5, 6, 7], [8, 9, 10, 11]]
      = (["b"], [[1, 2, 3, 4], [8, 9, 10, 11]]) := by decide

/-- Non-vacuity for C63. -/
example : checkConstRegi (fun ids (c : List ℤ) => (ids.map fun i => c.getD i 0).dedup.length ≤ 1) [[0, 1], [2, 3]]
      ["a", "c", "b"] [[1, 2, 3, 4], [5, 5, 6, 7], [8, 9, 10, 11]]
      = (["a", "b"], [[1, 2, 3, 4], [8, 9, 10, 11]]) := by decide

/-! ### C29 -/

theorem complete_get {R : Type} (work : L → Py R) (order : List L) (r : L) :
    complete work order r = if r ∈ order then some (work r) else none := by
  unfold complete
  have key : ∀ (order : List L) (s : Store L R),
      (order.foldl (fun s r => Function.update s r (some (work r))) s) r =
        if r ∈ order then some (work r) else s r := by
    intro order
    induction order with
    | nil => intro s; simp
    | cons a t ih =>
      intro s
      rw [List.foldl_cons, ih]
      by_cases h : r ∈ t
      · simp [h]
      · by_cases ha : r = a
        · subst ha; simp [h]
        · simp [h, ha]
  exact key order _

theorem mapM_congr {α β : Type} (f g : α → Py β) : ∀ (l : List α), (∀ a ∈ l, f a = g a) →
    l.mapM f = l.mapM g := by
  intro l
  induction l with
  | nil => intro _; rfl
  | cons a t ih =>
    intro h
    rw [List.mapM_cons, List.mapM_cons, h a (by simp), ih fun r hr => h r (by simp [hr])]

/-- C29: whatever order the worker processes finish in (every regime's job finishes), assembling the results
gives what the sequential run gives: the same results in the same order, or the same exception. -/
theorem C29_parallel {R : Type} (work : L → Py R) (rs order : List L) (h : ∀ r ∈ rs, r ∈ order) :
    assemblePar (complete work order) rs = assembleSeq work rs := by
  unfold assemblePar assembleSeq
  apply mapM_congr
  intro r hr
  rw [complete_get, if_pos (h r hr)]

/-- C29: two runs that differ only in the completion order give the same result. -/
theorem C29_schedule_independent {R : Type} (work : L → Py R) (rs o₁ o₂ : List L)
    (h₁ : o₁.Perm rs) (h₂ : o₂.Perm rs) :
    assemblePar (complete work o₁) rs = assemblePar (complete work o₂) rs := by
  rw [C29_parallel work rs o₁ fun r hr => h₁.mem_iff.2 hr, C29_parallel work rs o₂ fun r hr => h₂.mem_iff.2 hr]

theorem foldl_set_length {α : Type} : ∀ (l : List (Nat × α)) (acc : List α),
    (l.foldl (fun a p => a.set p.1 p.2) acc).length = acc.length := by
  intro l
  induction l with
  | nil => intro acc; rfl
  | cons p t ih => intro acc; rw [List.foldl_cons, ih, List.length_set]

theorem foldl_set_other {α : Type} : ∀ (l : List (Nat × α)) (acc : List α) (i : Nat),
    i ∉ l.map (·.1) → (l.foldl (fun a p => a.set p.1 p.2) acc)[i]? = acc[i]? := by
  intro l
  induction l with
  | nil => intro acc i _; rfl
  | cons p t ih =>
    intro acc i hi
    simp only [List.map_cons, List.mem_cons, not_or] at hi
    rw [List.foldl_cons, ih _ _ hi.2, List.getElem?_set_ne (Ne.symm hi.1)]

theorem foldl_set_get {α : Type} : ∀ (ids : List Nat) (u acc : List α), ids.Nodup →
    ids.length = u.length → (∀ i ∈ ids, i < acc.length) →
    ids.map (fun i => ((ids.zip u).foldl (fun a p => a.set p.1 p.2) acc)[i]?) = u.map some := by
  intro ids
  induction ids with
  | nil => intro u acc _ h _; cases u <;> simp_all
  | cons a t ih =>
    intro u acc hnd hl hlt
    cases u with
    | nil => simp at hl
    | cons v u =>
      rw [List.nodup_cons] at hnd
      simp only [List.length_cons, Nat.add_right_cancel_iff] at hl
      rw [List.zip_cons_cons, List.foldl_cons]
      have hz : (t.zip u).map (·.1) = t := List.map_fst_zip hl.le
      have h1 := ih u (acc.set a v) hnd.2 hl (fun i hi => by rw [List.length_set]; exact hlt i (by simp [hi]))
      rw [List.map_cons, List.map_cons, h1]
      congr 1
      rw [foldl_set_other _ _ _ (by rw [hz]; exact hnd.1)]
      simp [hlt a (by simp)]

/-- C29: the vectors written back with `u[regi_ids[r]] = results[r].u` end up at the positions of their
regime: reading the positions of regime `r` gives back the vector of regime `r`; the total length does not
change; and every observation is written when all labels are among the regimes. -/
theorem C29_scatter (regimes : List L) : ∀ (res : List (L × List V)) (acc : List V),
    (res.map (·.1)).Nodup → acc.length = regimes.length →
    (∀ p ∈ res, p.2.length = (regiIds regimes p.1).length) →
    (scatter regimes res acc).length = regimes.length ∧
    (∀ p ∈ res, (regiIds regimes p.1).map (fun i => (scatter regimes res acc)[i]?) = p.2.map some) ∧
    (∀ i, (∀ p ∈ res, i ∉ regiIds regimes p.1) → (scatter regimes res acc)[i]? = acc[i]?) := by
  have hm : ∀ r i, i ∈ regiIds regimes r ↔ regimes[i]? = some r := by
    intro r i; simp [regiIds, mem_whereEq]
  intro res
  induction res with
  | nil => intro acc _ ha _; exact ⟨ha, by simp, fun _ _ => rfl⟩
  | cons p t ih =>
    intro acc hnd ha hlen
    obtain ⟨r, u⟩ := p
    rw [List.map_cons, List.nodup_cons] at hnd
    have hru : u.length = (regiIds regimes r).length := hlen (r, u) (by simp)
    have hz : ((regiIds regimes r).zip u).map (·.1) = regiIds regimes r := List.map_fst_zip hru.ge
    have ha' : (((regiIds regimes r).zip u).foldl (fun a p => a.set p.1 p.2) acc).length = regimes.length := by
      rw [foldl_set_length, ha]
    obtain ⟨i1, i2, i3⟩ := ih _ hnd.2 ha' (fun p hp => hlen p (by simp [hp]))
    have hin : ∀ i ∈ regiIds regimes r, i < acc.length := by
      intro i hi
      rw [hm] at hi
      rw [ha]
      exact (List.getElem?_eq_some_iff.1 hi).1
    refine ⟨i1, ?_, ?_⟩
    · intro p hp
      rcases List.mem_cons.1 hp with rfl | hp
      · have h2 := foldl_set_get (regiIds regimes r) u acc
          ((whereEq_sorted r regimes 0).imp fun h => Nat.ne_of_lt h) hru.symm hin
        rw [← h2]
        apply List.map_congr_left
        intro i hi
        apply i3
        intro q hq hiq
        rw [hm] at hi hiq
        rw [hi] at hiq
        have : r = q.1 := Option.some.inj hiq
        exact hnd.1 (List.mem_map.2 ⟨q, hq, this.symm⟩)
      · exact i2 p hp
    · intro i hi
      simp only [scatter]
      rw [i3 i fun q hq => hi q (by simp [hq]), foldl_set_other]
      rw [hz]
      exact hi (r, u) (by simp)

/-- Non-vacuity for C29. -/
example : scatter ["b", "a", "b"] [("a", [10]), ("b", [20, 30])] [0, 0, (0 : ℤ)] = [20, 10, 30] := by decide
example : assemblePar (complete (fun r => if r = "b" then .error .exception else .ok r.length) ["c", "b", "a"])
    ["a", "b", "c"] = .error .exception := by decide

end Spreg.Regimes
