import Verif.Model.SURReg
import Verif.Props.SUR2
import Verif.Props.Chow
import Verif.Props.Regimes2
import Verif.Props.SURSummary
/-
C178: seemingly unrelated regressions with regimes.
-/
namespace Spreg.SURReg
open Matrix Spreg Spreg.Lin Spreg.Regimes

set_option linter.unusedSectionVars false

variable {L : Type} {ne : ℕ}

/-- Specification: coefficient number `p` of an equation. -/
def coef {k : ℕ} (b : Fin k → ℝ) (p : ℕ) : ℝ := if h : p < k then b ⟨p, h⟩ else 0

/-- Specification: the value that the coefficients of regime number `g` give to observation `i` of an equation with the data `cols`. -/
noncomputable def fitted {k : ℕ} (cols : List (List ℝ)) (b : Fin k → ℝ) (g i : ℕ) : ℝ :=
  ∑ v : Fin cols.length, cols[v].getD i 0 * coef b (g * cols.length + v)

/-! ### The design -/

theorem select_true {α : Type} (l : List α) : select (List.replicate l.length true) true l = l ∧ select (List.replicate l.length true) false l = [] :=
  by
  have := select_all true (List.replicate l.length true) l (by simp) (by simp)
  exact this

theorem frame_ok [DecidableEq L] {str : L → String} {regimes rs : List L} {x : Arr} {nm : List String} {p : Arr × List String}
    (h : frame str regimes rs x nm = .ok p) : x.sparse = false ∧ p.1 = ⟨true, x2xspCols x.cols regimes rs⟩ ∧
      (nm.length = x.cols.length → p.2 = rs.flatMap fun r => nm.map fun s => str r ++ "_" ++ s) := by
  unfold frame at h
  split at h
  · cases h
  next hs =>
    simp only [Bool.not_eq_true] at hs
    cases h
    refine ⟨hs, ?_, fun hl => ?_⟩
    · simp only
      rw [regimeXsetup_eq _ _ _ _ (by simp), (select_true x.cols).1, (select_true x.cols).2, List.append_nil]
    · simp only [setNameXRegimes]
      rw [← hl, (select_true nm).1, (select_true nm).2]; simp

theorem step_ok [DecidableEq L] {str : L → String} {nobs : ℕ} {regimes rs : List L} {X : Fin ne → Arr} {nm : Fin ne → List String} {r : Fin ne}
    {p : Arr × List String} (h : step str nobs regimes rs X nm r = .ok p) :
    2 ≤ rs.length ∧ frame str regimes rs (X r) (nm r) = .ok p := by
  unfold step at h
  simp only [bind, Except.bind] at h
  unfold Chk.checkRegimes at h
  split at h
  · cases h
  next h0 =>
    split at h0
    · cases h0
    · exact ⟨by omega, h⟩

theorem stage_ok [LinearOrder L] {str : L → String} {nobs off : ℕ} {regs : List L} {X : Fin ne → Arr} {nameX : Option (Fin ne → List String)}
    {d : Design ne} (h : stage (· ≤ ·) str nobs off (some regs) X nameX = .ok d) :
    ∃ rs, regimesSet (· ≤ ·) regs = .ok rs ∧ d.nr = rs.length ∧ d.nameXr = namesX off nameX X ∧
      (∀ r, step str nobs regs rs X (namesX off nameX X) r = .ok (d.X r, d.nameX r)) ∧
      ∀ (r : Fin ne), r.val + 1 = ne → d.kr = (X r).cols.length := by
  unfold stage at h
  simp only [bind, Except.bind] at h
  split at h
  · cases h
  next rs hrs =>
    split at h
    · cases h
    next l hl =>
      cases h
      refine ⟨rs, hrs, rfl, rfl, fun r => ?_, fun r hr => ?_⟩
      · have hf := (mapM_ok _ _ _).1 hl
        have hlen : l.length = ne := by rw [← hf.length_eq]; simp
        have := hf.get (i := r.val) (by simp) (by omega)
        simp only [List.get_eq_getElem, List.getElem_finRange] at this
        simp only
        rw [List.getD_eq_getElem _ _ (by omega)]
        simpa using this
      · have : (List.finRange ne).getLast? = some r := by
          rw [List.getLast?_eq_getElem?, List.length_finRange, List.getElem?_eq_getElem (by simp; omega)]
          simp; ext; simp; omega
        simp only [this]

theorem mat_exp [DecidableEq L] {N : ℕ} (regs rs : List L) (hN : regs.length = N) (cols : List (List ℝ)) (hc : ∀ c ∈ cols, c.length = N)
    (s : Bool) (i : Fin N) (g v : ℕ) (hg : g < rs.length) (hv : v < cols.length)
    (j : Fin (x2xspCols cols regs rs).length) (hj : j.val = g * cols.length + v) :
    mat N ⟨s, x2xspCols cols regs rs⟩ i j = if regs[i.val]? = some rs[g] then cols[v].getD i 0 else 0 := by
  have h := getElem?_x2xspCols cols regs rs g v hg hv
  have h' : (x2xspCols cols regs rs)[j] = maskCol regs rs[g] cols[v] := by
    rw [← hj] at h
    have := j.2
    simp only [List.getElem?_eq_getElem this, Option.some.injEq] at h
    simpa using h
  have hl := hc _ (List.getElem_mem hv)
  have hi := i.2
  unfold mat
  simp only [Matrix.of_apply]
  erw [h']
  unfold maskCol
  rw [List.getD_eq_getElem _ _ (by simp; omega)]
  simp only [List.getElem_zipWith]
  rw [List.getElem?_eq_getElem (by omega), List.getD_eq_getElem _ _ (by omega)]
  simp

/-- The columns of the expanded design in the order of regimes and variables. -/
theorem sum_cols [DecidableEq L] (regs rs : List L) (cols : List (List ℝ)) (F : Fin (x2xspCols cols regs rs).length → ℝ)
    (G : ℕ → ℕ → ℝ) (h : ∀ g v j, g < rs.length → v < cols.length → j.val = g * cols.length + v → F j = G g v) :
    ∑ j, F j = ∑ g : Fin rs.length, ∑ v : Fin cols.length, G g v := by
  have hl := length_x2xspCols cols regs rs
  rw [← Fintype.sum_prod_type' (f := fun (g : Fin rs.length) (v : Fin cols.length) => G g v)]
  refine (Fintype.sum_equiv (finProdFinEquiv.trans (finCongr hl.symm)) _ _ fun p => ?_).symm
  exact (h _ _ _ p.1.2 p.2.2 (by simp [finProdFinEquiv]; ring)).symm

theorem mulVec_exp [DecidableEq L] {N : ℕ} (regs rs : List L) (hN : regs.length = N) (hnd : rs.Nodup) (cols : List (List ℝ))
    (hc : ∀ c ∈ cols, c.length = N) (s : Bool) (b : Fin (x2xspCols cols regs rs).length → ℝ) (i : Fin N) (g : ℕ) (hg : g < rs.length)
    (hi : regs[i.val]? = some rs[g]) : (mat N ⟨s, x2xspCols cols regs rs⟩ *ᵥ b) i = fitted cols b g i := by
  unfold Matrix.mulVec dotProduct
  rw [sum_cols regs rs cols _ fun a v => (if a = g then cols.getD v [] |>.getD i 0 else 0) * coef b (a * cols.length + v)]
  · rw [Finset.sum_eq_single ⟨g, hg⟩]
    · unfold fitted
      refine Finset.sum_congr rfl fun v _ => ?_
      simp
    · intro a _ ha
      have : a.val ≠ g := fun e => ha (Fin.ext e)
      simp [this]
    · simp
  · intro a v j ha hv hj
    have hm := mat_exp regs rs hN cols hc s i a v ha hv j hj
    have hb : b j = coef b (a * cols.length + v) := by
      unfold coef
      rw [dif_pos (by rw [← hj]; exact j.2)]
      congr 1; ext; exact hj
    rw [hi] at hm
    refine (congrArg₂ (· * ·) hm hb).trans ?_
    congr 1
    by_cases e : a = g
    · subst e; simp [hv]
    · have : ¬ rs[g] = rs[a] := fun e' => e ((hnd.getElem_inj_iff).1 e').symm
      simp [e, this]

/-- C178: in a SUR with regimes the observations of a regime enter with the coefficients of that regime, the starting values are the least
squares estimates of every regime by itself, and, given the covariance matrix of the errors between equations, the coefficients of a regime
solve the SUR equations of the observations of that regime alone. -/
theorem C178_coefficients [LinearOrder L] {N : ℕ} (str : L → String) (off : ℕ) (regs : List L) (hN : regs.length = N)
    (X : Fin ne → Arr) (hX : ∀ r, ∀ c ∈ (X r).cols, c.length = N) (nameX : Option (Fin ne → List String)) (d : Design ne)
    (hd : stage (· ≤ ·) str N off (some regs) X nameX = .ok d) (y : Fin ne → Fin N → ℝ) (iter : Bool) (maxiter : ℕ) (eps : ℝ)
    (f : SUR.Fit (Fin N) (Fin ne) fun r => Fin (d.X r).cols.length) (hf : fit y d.X iter maxiter eps = some f) :
    ∃ rs : List L, rs.Pairwise (· < ·) ∧ (∀ r, r ∈ rs ↔ r ∈ regs) ∧
      (∀ g (hg : g < rs.length) (r : Fin ne) (i : Fin N), regs[i.val]? = some rs[g] →
        f.bigYP i r = fitted (X r).cols (f.est.b r) g i ∧ f.bigE i r = y r i - fitted (X r).cols (f.est.b r) g i) ∧
      (∀ g (hg : g < rs.length) (r : Fin ne) (v : Fin (X r).cols.length),
        ∑ i : Fin N with regs[i.val]? = some rs[g], (X r).cols[v].getD i 0 * (y r i - fitted (X r).cols (f.bOLS r) g i) = 0) ∧
      ∀ g (hg : g < rs.length) (r : Fin ne) (v : Fin (X r).cols.length),
        ∑ t, f.est.sig⁻¹ r t *
          ∑ i : Fin N with regs[i.val]? = some rs[g], (X r).cols[v].getD i 0 * (y t i - fitted (X t).cols (f.est.b t) g i) = 0 := by
  obtain ⟨rs, hrs, -, -, hst, -⟩ := stage_ok hd
  have hne : regs ≠ [] := by
    rintro rfl; simp [regimesSet] at hrs
  obtain ⟨rs', h1, h2, h3⟩ := C25_set regs hne
  rw [hrs] at h1; cases h1
  have hnd : rs.Nodup := h2.imp fun h => ne_of_lt h
  have hD : ∀ r, d.X r = ⟨true, x2xspCols (X r).cols regs rs⟩ := fun r => (frame_ok (step_ok (hst r)).2).2.1
  obtain ⟨DX, dn, dr, dk, dnr⟩ := d
  simp only at hD f hf
  obtain rfl : DX = fun r => ⟨true, x2xspCols (X r).cols regs rs⟩ := funext hD
  simp only at f hf
  have hfv : ∀ (b : ∀ r, Fin (x2xspCols (X r).cols regs rs).length → ℝ) g (hg : g < rs.length) (r : Fin ne) (i : Fin N), regs[i.val]? = some rs[g] →
      (mat N ⟨true, x2xspCols (X r).cols regs rs⟩ *ᵥ b r) i = fitted (X r).cols (b r) g i :=
    fun b g hg r i hi => mulVec_exp regs rs hN hnd _ (hX r) true _ i g hg hi
  obtain ⟨b, s0, s, h0, hinv, -, e1, e2, -, -, e3, -, e4, -⟩ := SUR.base_cases _ y iter maxiter eps f hf
  have key : ∀ (r t : Fin ne) (b : ∀ r, Fin (x2xspCols (X r).cols regs rs).length → ℝ) g (hg : g < rs.length) (v : Fin (X r).cols.length)
      (j : Fin (x2xspCols (X r).cols regs rs).length), j.val = g * (X r).cols.length + v →
      ∑ i : Fin N, mat N ⟨true, x2xspCols (X r).cols regs rs⟩ i j * (y t i - (mat N ⟨true, x2xspCols (X t).cols regs rs⟩ *ᵥ b t) i) =
      ∑ i : Fin N with regs[i.val]? = some rs[g], (X r).cols[v].getD i 0 * (y t i - fitted (X t).cols (b t) g i) := by
    intro r t b g hg v j hj
    rw [Finset.sum_filter]
    refine Finset.sum_congr rfl fun i _ => ?_
    have hm := mat_exp regs rs hN _ (hX r) true i g v hg v.2 j hj
    by_cases hi : regs[i.val]? = some rs[g]
    · rw [if_pos hi] at hm ⊢
      exact congrArg₂ (· * ·) hm (congrArg (y t i - ·) (hfv b g hg t i hi))
    · rw [if_neg hi] at hm ⊢
      exact (congrArg (· * _) hm).trans (zero_mul _)
  have hlt : ∀ (r : Fin ne) g (hg : g < rs.length) (v : Fin (X r).cols.length), g * (X r).cols.length + v < (x2xspCols (X r).cols regs rs).length := by
    intro r g hg v
    rw [length_x2xspCols]
    have := v.2
    nlinarith
  refine ⟨rs, h2, h3, fun g hg r i hi => ?_, fun g hg r v => ?_, fun g hg r v => ?_⟩
  · rw [e4, e3, e1]
    constructor
    · exact hfv s.est.b g hg r i hi
    · show y r i - _ = _
      rw [hfv s.est.b g hg r i hi]
  · obtain ⟨-, -, -, -, h4, -⟩ := SUR.start_inv _ y b s0 h0
    rw [← key r r _ g hg v ⟨_, hlt r g hg v⟩ rfl]
    obtain ⟨-, o, ho, hb⟩ := SUR.C70_residuals _ y iter maxiter eps f hf r
    rw [← hb]
    obtain ⟨hu, rfl⟩ := ols_eq_some ho
    exact congrFun (normal_eq _ _ hu) ⟨_, hlt r g hg v⟩
  · obtain ⟨E, hE⟩ := hinv.est
    have h5 := congrFun (SUR.C41_gls _ y _ s.est hE).1 ⟨r, ⟨_, hlt r g hg v⟩⟩
    rw [SUR.Zt_mulVec] at h5
    simp only [SUR.omega_inv, SUR.omega_mulVec, SUR.resid_stack, Pi.zero_apply, Finset.mul_sum] at h5
    rw [Finset.sum_comm] at h5
    rw [e1]
    refine Eq.trans ?_ h5
    refine Finset.sum_congr rfl fun t _ => ?_
    rw [← key r t _ g hg v ⟨_, hlt r g hg v⟩ rfl, Finset.mul_sum]
    refine Finset.sum_congr rfl fun i _ => ?_
    simp only [SUR.surResids, Matrix.of_apply]
    ring
/-- The expanded design. -/
theorem stage_design [LinearOrder L] {str : L → String} {nobs off : ℕ} {regs : List L} {X : Fin ne → Arr} {nameX : Option (Fin ne → List String)}
    {d : Design ne} (h : stage (· ≤ ·) str nobs off (some regs) X nameX = .ok d) :
    ∃ rs : List L, regimesSet (· ≤ ·) regs = .ok rs ∧ rs.Pairwise (· < ·) ∧ (∀ r, r ∈ rs ↔ r ∈ regs) ∧ d.nr = rs.length ∧ d.nameXr = namesX off nameX X ∧
      (∀ r, d.X r = ⟨true, x2xspCols (X r).cols regs rs⟩ ∧ (X r).sparse = false ∧ 2 ≤ rs.length ∧
        ((namesX off nameX X r).length = (X r).cols.length →
          d.nameX r = rs.flatMap fun g => (namesX off nameX X r).map fun s => str g ++ "_" ++ s)) := by
  obtain ⟨rs, hrs, h1, h2, hst, -⟩ := stage_ok h
  have hne : regs ≠ [] := by
    rintro rfl; simp [regimesSet] at hrs
  obtain ⟨rs', h3, h4, h5⟩ := C25_set regs hne
  rw [hrs] at h3; cases h3
  refine ⟨rs, hrs, h4, h5, h1, h2, fun r => ?_⟩
  obtain ⟨a, b⟩ := step_ok (hst r)
  obtain ⟨c, e, g⟩ := frame_ok b
  exact ⟨e, c, a, g⟩

theorem flatMap_get {β : Type} (F : L → List β) (k : ℕ) (hF : ∀ r, (F r).length = k) : ∀ (rs : List L) (g v : ℕ) (hg : g < rs.length) (_ : v < k),
    (rs.flatMap F)[g * k + v]? = (F rs[g])[v]? := by
  intro rs
  induction rs with
  | nil => intro g v hg; simp at hg
  | cons a rs ih =>
    intro g v hg hv
    cases g with
    | zero => simp [List.flatMap_cons, List.getElem?_append, hF, hv]
    | succ g =>
      rw [List.flatMap_cons, List.getElem?_append_right (by rw [hF]; nlinarith), hF,
        show (g + 1) * k + v - k = g * k + v by rw [Nat.succ_mul]; omega]
      simpa using ih g v (by simpa using hg) hv

/-- C178: with the regimes numbered in increasing order, coefficient `g k + v` of an equation with `k` columns belongs to column `v` restricted to
the observations of regime `g` and carries the name of that regime and of that column. -/
theorem C178_names [LinearOrder L] (str : L → String) (nobs off : ℕ) (regs : List L) (X : Fin ne → Arr) (nameX : Option (Fin ne → List String))
    (d : Design ne) (h : stage (· ≤ ·) str nobs off (some regs) X nameX = .ok d) (r : Fin ne)
    (hn : ∀ f, nameX = some f → (f r).length = (X r).cols.length) (hk : (X r).cols ≠ []) :
    ∃ rs : List L, rs.Pairwise (· < ·) ∧ (∀ g, g ∈ rs ↔ g ∈ regs) ∧ (d.X r).cols.length = rs.length * (X r).cols.length ∧
      (d.nameX r).length = rs.length * (X r).cols.length ∧ (d.nameXr r).length = (X r).cols.length ∧
      ∀ g v (hg : g < rs.length) (hv : v < (X r).cols.length),
        (d.X r).cols[g * (X r).cols.length + v]? = some (maskCol regs rs[g] (X r).cols[v]) ∧
        (d.nameX r)[g * (X r).cols.length + v]? = (d.nameXr r)[v]?.map fun s => str rs[g] ++ "_" ++ s := by
  obtain ⟨rs, -, h1, h2, -, h4, h5⟩ := stage_design h
  obtain ⟨e1, -, -, e2⟩ := h5 r
  have hl : (namesX off nameX X r).length = (X r).cols.length := by
    unfold namesX
    cases nameX with
    | some f => exact hn f rfl
    | none =>
      have := List.length_pos_iff.2 hk
      simp [genericX]; omega
  refine ⟨rs, h1, h2, by rw [e1, length_x2xspCols], ?_, by rw [h4, hl], fun g v hg hv => ⟨?_, ?_⟩⟩
  · rw [e2 hl]; simp [List.length_flatMap, hl]
  · rw [e1]; exact getElem?_x2xspCols _ regs rs g v hg hv
  · rw [e2 hl, flatMap_get _ (X r).cols.length (by simp [hl]) rs g v hg hv, h4, List.getElem?_map]

/-- C178: the names of an equation before regimes are added are the user's. Without names equation `r` (counted from `off`) has `Constant_r`, `var_1_r`,
`var_2_r`, one per column. -/
theorem C178_user_names [LinearOrder L] (str : L → String) (nobs off : ℕ) (regs : Option (List L)) (X : Fin ne → Arr) (nameX : Option (Fin ne → List String))
    (d : Design ne) (h : stage (· ≤ ·) str nobs off regs X nameX = .ok d) (r : Fin ne) :
    (∀ f, nameX = some f → d.nameXr r = f r) ∧
    (nameX = none → (X r).cols ≠ [] → (d.nameXr r).length = (X r).cols.length ∧ (d.nameXr r)[0]? = some ("Constant_" ++ toString (r.1 + off)) ∧
      ∀ v, 0 < v → v < (X r).cols.length → (d.nameXr r)[v]? = some ("var_" ++ toString v ++ "_" ++ toString (r.1 + off))) := by
  have hn : d.nameXr = namesX off nameX X := by
    cases regs with
    | none => cases h; rfl
    | some regs => exact (stage_design h).choose_spec.2.2.2.2.1
  rw [hn]
  refine ⟨fun f hf => by subst hf; rfl, fun hx hk => ?_⟩
  subst hx
  have h0 := List.length_pos_iff.2 hk
  refine ⟨by simp [namesX, genericX]; omega, by simp [namesX, genericX], fun v hv hl => ?_⟩
  obtain ⟨w, rfl⟩ : ∃ w, v = w + 1 := ⟨v - 1, by omega⟩
  simp only [namesX, genericX, List.getElem?_cons_succ, List.getElem?_map]
  rw [List.getElem?_range (by omega)]
  simp

theorem coef_getD {k : ℕ} (b : Fin k → ℝ) (p : ℕ) : (List.ofFn b).getD p 0 = coef b p := by
  unfold coef
  split
  · next h => rw [List.getD_eq_getElem _ _ (by simpa using h)]; simp
  · next h => rw [List.getD_eq_default _ _ (by simpa using h)]

/-- C178: the Chow tests within an equation can be computed whenever the model can. Test number `v` is not negative and is zero exactly if the
coefficients of column `v` are the same in all regimes; the joint test is zero exactly if this holds for every column. -/
theorem C178_chow [LinearOrder L] {N : ℕ} (str : L → String) (off : ℕ) (regs : List L)
    (X : Fin ne → Arr) (nameX : Option (Fin ne → List String)) (d : Design ne)
    (hd : stage (· ≤ ·) str N off (some regs) X nameX = .ok d) (y : Fin ne → Fin N → ℝ) (iter : Bool) (maxiter : ℕ) (eps : ℝ)
    (f : SUR.Fit (Fin N) (Fin ne) fun r => Fin (d.X r).cols.length) (hf : fit y d.X iter maxiter eps = some f) (r : Fin ne)
    (hk : (X r).cols ≠ []) :
    ∃ res, chowEq (X r).cols.length d.nr f.est r = .ok res ∧ res.regi.length = (X r).cols.length ∧
      (∀ v (hv : v < res.regi.length), 0 ≤ res.regi[v] ∧ (res.regi[v] = 0 ↔ ∀ g < d.nr, ∀ g' < d.nr,
        coef (f.est.b r) (g * (X r).cols.length + v) = coef (f.est.b r) (g' * (X r).cols.length + v))) ∧
      0 ≤ res.joint ∧ (res.joint = 0 ↔ ∀ v < (X r).cols.length, ∀ g < d.nr, ∀ g' < d.nr,
        coef (f.est.b r) (g * (X r).cols.length + v) = coef (f.est.b r) (g' * (X r).cols.length + v)) := by
  obtain ⟨rs, -, -, -, h3, -, h5⟩ := stage_design hd
  have hl : (d.X r).cols.length = (X r).cols.length * d.nr := by rw [(h5 r).1, length_x2xspCols, h3, Nat.mul_comm]
  obtain ⟨b, s0, s, h0, hinv, -, e1, -⟩ := SUR.base_cases _ y iter maxiter eps f hf
  obtain ⟨E, hE⟩ := hinv.est
  obtain ⟨g1, g2, g3, g4, -⟩ := SUR.surEst_some _ y _ s.est hE
  have hpsd : SymPSD f.est.varb := by rw [e1]; exact SUR.C41_varb_psd _ y _ _ hE
  have hu : IsUnit f.est.varb.det := by
    rw [e1, g4]
    exact (Matrix.isUnit_nonsing_inv_det_iff).2 g3
  set ι : Fin (d.X r).cols.length → SUR.Stk (fun r => Fin (d.X r).cols.length) := fun j => ⟨r, j⟩ with hι
  have hinj : Function.Injective ι := by
    intro a b h; simpa [hι] using h
  let ex : (Fin (d.X r).cols.length → ℝ) → SUR.Stk (fun r => Fin (d.X r).cols.length) → ℝ :=
    fun v p => if h : p.1 = r then v (h ▸ p.2) else 0
  have hq : ∀ v : Fin (d.X r).cols.length → ℝ, v ⬝ᵥ (f.est.varb.submatrix ι ι *ᵥ v) = ex v ⬝ᵥ (f.est.varb *ᵥ ex v) := by
    intro v
    have hs : ∀ F : SUR.Stk (fun r => Fin (d.X r).cols.length) → ℝ, ∑ p, ex v p * F p = ∑ j, v j * F (ι j) := by
      intro F
      rw [Fintype.sum_sigma, Finset.sum_eq_single r]
      · simp [ex, hι]
      · intro t _ ht; simp [ex, ht]
      · simp
    simp only [dotProduct, mulVec, submatrix_apply]
    rw [hs]
    refine Finset.sum_congr rfl fun i _ => ?_
    congr 1
    have := hs fun p => f.est.varb (ι i) p
    simp only [mul_comm (f.est.varb _ _)]
    exact this.symm
  have hsub : SymPSD (f.est.varb.submatrix ι ι) := by
    refine ⟨by rw [transpose_submatrix, hpsd.1], fun v => ?_⟩
    have h1 := hpsd.2 (ex v)
    rw [quad_eq] at h1 ⊢
    exact (hq v).symm ▸ h1
  have hpd : ∀ v : Fin (d.X r).cols.length → ℝ, v ≠ 0 → 0 < v ⬝ᵥ (f.est.varb.submatrix ι ι *ᵥ v) := by
    intro v hv
    rw [hq]
    have hi := SUR.inv_quad (SUR.inv_psd hpsd hu) ((Matrix.isUnit_nonsing_inv_det_iff).2 hu) (ex v)
    rw [Matrix.nonsing_inv_nonsing_inv _ hu] at hi
    refine lt_of_le_of_ne hi.1 fun h0 => hv ?_
    have h1 := hi.2.1 h0.symm
    funext j
    simpa [ex, hι] using congrFun h1 (ι j)
  obtain ⟨res, hres⟩ := Chow.C124_exists (X r).cols.length 0 0 d.nr (Nat.zero_le _) (List.length_pos_iff.2 hk) (List.ofFn (f.est.b r))
    (f.est.varb.submatrix ι ι) hpd (by simp) (by omega)
  obtain ⟨k1, k2, k3, k4⟩ := Chow.C124_chow _ _ _ _ (Nat.zero_le _) (List.ofFn (f.est.b r)) _ hsub (by simp) res hres
  refine ⟨res, hres, k1, fun v hv => ⟨(k2 v hv).1, ?_⟩, k3, ?_⟩
  · rw [(k2 v hv).2]
    simp only [Chow.AllEq, coefPos, Nat.sub_zero, if_pos (by omega : v < (X r).cols.length), coef_getD]
  · rw [k4]
    refine forall₂_congr fun v hv => ?_
    simp only [Chow.AllEq, coefPos, Nat.sub_zero, if_pos hv, coef_getD]

/-- C178: the table of tests of an equation has one row for every column, with its name (the first one is called CONSTANT), its test and the
number of restrictions tested, and then the joint test. -/
theorem C178_table (argsort : List String → List ℕ) (hs : ∀ l, (argsort l).Perm (List.range l.length)) (names : List String) (hne : names ≠ [])
    (nr kr : ℕ) (res : Chow.ChowRes) (hr : res.regi.length = names.length) :
    ∃ rows, chowTable argsort names nr kr res = .ok (rows ++ [("Global test", kr * (nr - 1), res.joint)]) ∧
      rows.Perm ((("CONSTANT" :: names.tail).zip res.regi).map fun p => (p.1, nr - 1, p.2)) := by
  have hl : ("CONSTANT" :: names.tail).length = names.length := by
    have := List.length_pos_iff.2 hne
    simp; omega
  set idx := 0 :: (argsort names.tail).map (· + 1) with hidx
  have hp : idx.Perm (List.range names.length) := by
    have h1 := (hs names.tail).map (· + 1)
    have h2 : List.range names.length = 0 :: (List.range names.tail.length).map (· + 1) := by
      rw [← hl, List.length_cons, List.range_succ_eq_map]
    rw [h2]
    exact h1.cons _
  let G : ℕ → String × ℕ × ℝ := fun i => (("CONSTANT" :: names.tail).getD i "", nr - 1, res.regi.getD i 0)
  have hm : idx.mapM (chowRow ("CONSTANT" :: names.tail) (nr - 1) res.regi) = .ok (idx.map G) := by
    refine SURSummary.mapM_ok' _ G idx fun i hi => ?_
    have hi' := List.mem_range.1 (hp.mem_iff.1 hi)
    unfold chowRow
    rw [List.getElem?_eq_getElem (by omega), List.getElem?_eq_getElem (by omega)]
    simp only [G]
    rw [List.getD_eq_getElem _ _ (by omega), List.getD_eq_getElem _ _ (by omega)]
  refine ⟨idx.map G, ?_, ?_⟩
  · unfold chowTable
    simp only [bind, Except.bind]
    rw [← hidx, hm]
  · refine (hp.map G).trans (List.Perm.of_eq ?_)
    have hz : (("CONSTANT" :: names.tail).zip res.regi).length = names.length := by rw [List.length_zip, hl, hr, min_self]
    refine List.ext_getElem (by rw [List.length_map, List.length_map, hz, List.length_range]) fun i h1 h2 => ?_
    rw [List.length_map, List.length_range] at h1
    simp only [List.getElem_map, List.getElem_range, List.getElem_zip, G]
    rw [List.getD_eq_getElem _ _ (by omega), List.getD_eq_getElem _ _ (by omega)]

/-- C178 is false of the degrees of freedom printed beside the joint test: they are those of the last equation, so that they are the number of
restrictions tested (with which the p-value is computed) only in equations with as many columns as the last one. -/
theorem C178_global_df_violated [LinearOrder L] (str : L → String) (nobs off : ℕ) (regs : List L) (X : Fin ne → Arr)
    (nameX : Option (Fin ne → List String)) (d : Design ne) (h : stage (· ≤ ·) str nobs off (some regs) X nameX = .ok d) (r last : Fin ne)
    (hl : last.val + 1 = ne) : d.kr * (d.nr - 1) = jointDf (X r).cols.length d.nr ↔ (X r).cols.length = (X last).cols.length := by
  obtain ⟨rs, -, h1, -, -, h2⟩ := stage_ok h
  obtain ⟨rs', -, -, -, h3, -, h4⟩ := stage_design h
  have hn : 2 ≤ d.nr := by rw [h3]; exact (h4 r).2.2.1
  rw [h2 last hl]
  unfold jointDf
  simp only [List.sum_replicate, smul_eq_mul]
  constructor
  · intro h; exact (Nat.eq_of_mul_eq_mul_right (by omega) h).symm
  · intro h; rw [h]

/-- C178 is false of the data: a call with regimes leaves the expanded matrices in the dictionary `bigX` of the caller. A second call with regimes on
the same dictionary raises, whatever the regimes; and a call without regimes estimates the regimes again, under generic names, instead of one
coefficient for each column. -/
theorem C178_history_violated [LinearOrder L] (str : L → String) (nobs off : ℕ) (regs : List L) (X : Fin ne → Arr)
    (nameX : Option (Fin ne → List String)) (d : Design ne) (h : stage (· ≤ ·) str nobs off (some regs) X nameX = .ok d) :
    after (· ≤ ·) str nobs off (some regs) X nameX = d.X ∧
    (∀ (regs' : List L) (nameX' : Option (Fin ne → List String)), 0 < ne →
      ∃ e, stage (· ≤ ·) str nobs off (some regs') (after (· ≤ ·) str nobs off (some regs) X nameX) nameX' = .error e) ∧
    (∃ d', stage (· ≤ ·) str nobs off (none : Option (List L)) (after (· ≤ ·) str nobs off (some regs) X nameX) none = .ok d' ∧ d'.X = d.X ∧
      ∀ r, (X r).cols ≠ [] → (X r).cols.length < (d'.X r).cols.length) := by
  obtain ⟨rs, hrs, -, -, hst, -⟩ := stage_ok h
  have ha : after (· ≤ ·) str nobs off (some regs) X nameX = d.X := by
    funext r
    unfold after
    simp only [hrs, hst r]
    rw [if_pos]
    intro s _
    rw [hst s]; rfl
  obtain ⟨rs', -, -, -, -, -, h4⟩ := stage_design h
  refine ⟨ha, fun regs' nameX' hne => ?_, ⟨d.X, _, _, 0, 0⟩, by rw [ha]; rfl, rfl, fun r hr => ?_⟩
  · rw [ha]
    cases hs : stage (· ≤ ·) str nobs off (some regs') d.X nameX' with
    | error e => exact ⟨e, rfl⟩
    | ok d' =>
      exfalso
      obtain ⟨_, -, -, -, -, -, h5⟩ := stage_design hs
      have := (h5 ⟨0, hne⟩).2.1
      rw [(h4 ⟨0, hne⟩).1] at this
      cases this
  · simp only
    rw [(h4 r).1, length_x2xspCols]
    have := List.length_pos_iff.2 hr
    have := (h4 r).2.2.1
    nlinarith

/-- Without regimes the dictionary of the caller is left as it is. -/
theorem C178_plain [LinearOrder L] (str : L → String) (nobs off : ℕ) (X : Fin ne → Arr) (nameX : Option (Fin ne → List String)) :
    after (· ≤ ·) str nobs off (none : Option (List L)) X nameX = X ∧
      ∃ d, stage (· ≤ ·) str nobs off (none : Option (List L)) X nameX = .ok d ∧ d.X = X := ⟨rfl, _, rfl, rfl⟩

/-! ### An example -/

/-- Two equations with a constant, six observations in two regimes. -/
def exX : Fin 2 → Arr := fun _ => ⟨false, [[1, 1, 1, 1, 1, 1]]⟩
def exRegs : List ℕ := [7, 7, 7, 3, 3, 3]
def exY : Fin 2 → Fin 6 → ℝ := ![![1, -1, 0, 4, 2, 3], ![1, 1, -2, 6, 6, 3]]

theorem ex_stage : ∃ d, stage (· ≤ ·) toString 6 0 (some exRegs) exX none = .ok d ∧
    d.X = fun _ => ⟨true, [[0, 0, 0, 1, 1, 1], [1, 1, 1, 0, 0, 0]]⟩ := by
  have hrs : regimesSet (· ≤ ·) exRegs = .ok [3, 7] := by decide
  have hc : ∀ (nm : Fin 2 → List String), step toString 6 exRegs [3, 7] exX nm =
      fun r => frame toString exRegs [3, 7] (exX r) (nm r) := by
    intro nm
    funext r
    unfold step Chk.checkRegimes exX
    simp only [List.length_cons, List.length_nil, bind, Except.bind]
    rw [if_neg (by norm_num), if_neg (by norm_num)]
  unfold stage
  simp only [hrs, bind, Except.bind]
  rw [hc]
  refine ⟨_, rfl, ?_⟩
  funext r
  fin_cases r <;> simp [exX, exRegs, regimeXsetup, x2xspCols, maskCol]

theorem ex_mat : mat 6 ⟨true, [[0, 0, 0, 1, 1, 1], [1, 1, 1, 0, 0, 0]]⟩ = !![0, 1; 0, 1; 0, 1; 1, 0; 1, 0; 1, 0] := by
  ext i j
  fin_cases i <;> fin_cases j <;> rfl

/-- The example satisfies the hypotheses of the theorems, and the coefficients of the two regimes are the means of the two regimes. -/
theorem C178_example : ∃ d, stage (· ≤ ·) toString 6 0 (some exRegs) exX none = .ok d ∧
    ∃ f, fit exY d.X false 5 (1 / 100000) = some f ∧ coef (f.bOLS 0) 0 = 3 ∧ coef (f.bOLS 0) 1 = 0 ∧ coef (f.bOLS 1) 0 = 5 ∧
      coef (f.bOLS 1) 1 = 0 := by
  obtain ⟨d, hd, hX⟩ := ex_stage
  refine ⟨d, hd, ?_⟩
  rw [hX]
  set M : Matrix (Fin 6) (Fin 2) ℝ := !![0, 1; 0, 1; 0, 1; 1, 0; 1, 0; 1, 0] with hM
  have hMM : Mᵀ * M = !![3, 0; 0, 3] := by
    ext i j
    fin_cases i <;> fin_cases j <;> simp [hM, Matrix.mul_apply, Fin.sum_univ_succ] <;> norm_num
  have hu : IsUnit (Mᵀ * M).det := by
    rw [hMM, Matrix.det_fin_two_of]; exact isUnit_iff_ne_zero.2 (by norm_num)
  have hinv : (Mᵀ * M)⁻¹ = !![1 / 3, 0; 0, 1 / 3] := by
    rw [hMM]
    apply Matrix.inv_eq_right_inv
    ext i j
    fin_cases i <;> fin_cases j <;> simp [Matrix.mul_apply, Fin.sum_univ_succ]
  let B : Fin 2 → Fin 2 → ℝ := ![![3, 0], ![5, 0]]
  have hb : SUR.eqByEq (SUR.crossXX fun _ : Fin 2 => M) (SUR.crossXy (fun _ : Fin 2 => M) exY) = some B := by
    unfold SUR.eqByEq
    rw [if_pos (show ∀ r : Fin 2, IsUnit (SUR.crossXX (fun _ : Fin 2 => M) r r).det from fun _ => hu)]
    congr 1
    funext r
    show (Mᵀ * M)⁻¹ *ᵥ (Mᵀ *ᵥ exY r) = B r
    rw [hinv]
    funext j
    fin_cases r <;> fin_cases j <;> simp [hM, B, exY, mulVec, dotProduct, Fin.sum_univ_succ] <;> norm_num
  have hs : SUR.sigOf (SUR.surResids exY (fun _ : Fin 2 => M) B) = !![2 / 3, 0; 0, 2] := by
    have : SUR.surResids exY (fun _ : Fin 2 => M) B = !![1, 1; -1, 1; 0, -2; 1, 1; -1, 1; 0, -2] := by
      ext i j
      fin_cases i <;> fin_cases j <;> simp [SUR.surResids, hM, B, exY, mulVec, dotProduct, Fin.sum_univ_succ] <;> norm_num
    rw [this]
    unfold SUR.sigOf
    ext i j
    fin_cases i <;> fin_cases j <;> simp [Matrix.mul_apply, Fin.sum_univ_succ] <;> norm_num
  obtain ⟨e, he⟩ := (SUR.C41_exists_iff (fun _ : Fin 2 => M) exY (SUR.surResids exY (fun _ : Fin 2 => M) B)).2
    ⟨by rw [hs, Matrix.det_fin_two_of]; exact isUnit_iff_ne_zero.2 (by norm_num), fun _ => hu⟩
  have key : ∃ f : SUR.Fit (Fin 6) (Fin 2) fun _ => Fin 2, SUR.baseSUR (fun _ : Fin 2 => M) exY false 5 (1 / 100000) = some f ∧ f.bOLS = B := by
    unfold SUR.baseSUR SUR.surStart
    rw [hb]
    simp only [Option.bind_some]
    rw [he]
    exact ⟨_, rfl, rfl⟩
  obtain ⟨f, hf, hB⟩ := key
  refine ⟨f, ?_, ?_⟩
  · unfold fit
    rw [← hf]
    have : M = mat 6 ⟨true, [[0, 0, 0, 1, 1, 1], [1, 1, 1, 0, 0, 0]]⟩ := ex_mat.symm
    rw [this]
  · rw [hB]
    refine ⟨?_, ?_, ?_, ?_⟩ <;> simp [coef, B]

end Spreg.SURReg
