import Verif.Model.Chow
import Verif.Props.Regimes2
import Verif.Props.RegimesMat
import Verif.Props.Checks
import Mathlib.Data.List.GetD
import Verif.Props.Fisher3
import Mathlib.Data.Fin.VecNotation
/-
C124 (Chow tests as run), C125 (tests across equations).
-/
namespace Spreg.Chow
open Matrix Spreg Spreg.Lin Spreg.Regimes Spreg.RegimesMat
open Spreg.Chk (mapM_ok_iff)

/-! ### Restrictions -/

/-- Sum over columns with one `-1` and one `1`. -/
theorem sum_pick {nv : ℕ} (f : Fin nv → ℝ) (p0 p1 : ℕ) (h0 : p0 < nv) (h1 : p1 < nv) (hne : p0 ≠ p1) :
    ∑ c : Fin nv, (((if c.1 = p1 then -1 else if c.1 = p0 then 1 else 0 : ℤ)) : ℝ) * f c = f ⟨p0, h0⟩ - f ⟨p1, h1⟩ := by
  have : ∀ c : Fin nv, (((if c.1 = p1 then -1 else if c.1 = p0 then 1 else 0 : ℤ)) : ℝ) * f c =
      (if c = ⟨p0, h0⟩ then f c else 0) - (if c = ⟨p1, h1⟩ then f c else 0) := by
    intro c
    by_cases e1 : c.1 = p1
    · have : c = ⟨p1, h1⟩ := Fin.ext e1
      subst this
      simp [Fin.ext_iff, Ne.symm hne]
    · by_cases e0 : c.1 = p0
      · have : c = ⟨p0, h0⟩ := Fin.ext e0
        subst this
        simp [Fin.ext_iff, hne]
      · simp [Fin.ext_iff, e0, e1]
  simp only [this]
  rw [Finset.sum_sub_distrib]
  simp

theorem rMat_apply {kr kryd nr nv v : ℕ} (hk : kryd ≤ kr) (hv : v < kr) (hnv : kr * nr ≤ nv) (b : Fin nv → ℝ) (i : Fin (nr - 1)) :
    (rMat v kr kryd nr nv *ᵥ b) i =
      b ⟨coefPos kr kryd nr v 0, (coefPos_lt hk hv (by have := i.2; omega)).trans_le hnv⟩ -
      b ⟨coefPos kr kryd nr v (i + 1), (coefPos_lt hk hv (by have := i.2; omega)).trans_le hnv⟩ := by
  have hi := i.2
  rw [mulVec, dotProduct]
  simp only [rMat, of_apply, buildR1var_eq hk hv hi]
  refine sum_pick b _ _ _ _ ?_
  intro h
  have := (coefPos_inj hv hv (by omega) (by omega) h).2
  omega

/-- Coefficients `p 0, ..., p (nr-1)` of a vector are equal. -/
def AllEq (b : ℕ → ℝ) (nr : ℕ) (p : ℕ → ℕ) : Prop := ∀ g < nr, ∀ g' < nr, b (p g) = b (p g')

theorem allEq_iff (b : ℕ → ℝ) (nr : ℕ) (p : ℕ → ℕ) : AllEq b nr p ↔ ∀ i < nr - 1, b (p 0) - b (p (i + 1)) = 0 := by
  constructor
  · intro h i hi
    rw [h 0 (by omega) (i + 1) (by omega), sub_self]
  · intro h
    have h0 : ∀ g < nr, b (p g) = b (p 0) := by
      intro g hg
      cases g with
      | zero => rfl
      | succ g => exact (sub_eq_zero.1 (h g (by omega))).symm
    intro g hg g' hg'
    rw [h0 g hg, h0 g' hg']

theorem rMat_zero_iff {kr kryd nr nv v : ℕ} (hk : kryd ≤ kr) (hv : v < kr) (hnv : kr * nr ≤ nv) (l : List ℝ) :
    rMat v kr kryd nr nv *ᵥ vec l nv = 0 ↔ AllEq (fun p => l.getD p 0) nr (coefPos kr kryd nr v) := by
  rw [allEq_iff]
  constructor
  · intro h i hi
    have := congrFun h ⟨i, hi⟩
    rwa [rMat_apply hk hv hnv] at this
  · intro h
    funext i
    rw [rMat_apply hk hv hnv]
    exact h i i.2

theorem waldE_ok {m k : Type} [Fintype m] [Fintype k] [DecidableEq m] [DecidableEq k] {b : k → ℝ} {r : Matrix m k ℝ} {vm : Matrix k k ℝ}
    {w : ℝ} (hvm : SymPSD vm) (h : waldE b r vm = .ok w) : 0 ≤ w ∧ (w = 0 ↔ r *ᵥ b = 0) := by
  unfold waldE at h
  split at h
  · next w' hw =>
    rw [Except.ok.injEq] at h
    subst h
    exact C27_nonneg b r 0 vm hvm _ hw
  · cases h

/-! ### C124 -/

/-- The result of `_chow_run` for coefficients `betas` and a covariance matrix that cover each other. -/
theorem chowRun_eq {kr kf kryd nr nv : ℕ} {betas : List ℝ} {vm : Matrix (Fin nv) (Fin nv) ℝ} {kf' : ℕ} {b' : List ℝ}
    (ha : adjust kr kf nr betas nv = .ok (kf', b')) {res : ChowRes} (h : chowRun kr kf kryd nr betas vm = .ok res) :
    kr * nr ≤ nv ∧ b'.length = nv ∧ res.regi.length = kr ∧
    (∀ v (hv : v < res.regi.length), waldE (vec b' nv) (rMat v kr kryd nr nv) vm = .ok res.regi[v]) ∧
    waldE (vec b' nv) (Matrix.of fun (p : Fin kr × Fin (nr - 1)) c => rMat p.1 kr kryd nr nv p.2 c) vm = .ok res.joint := by
  unfold chowRun at h
  rw [ha] at h
  simp only [bind, Except.bind] at h
  split at h
  · cases h
  split at h
  · cases h
  next h0 h1 =>
    push Not at h1
    split at h
    · cases h
    next regi hregi =>
      split at h
      · cases h
      next j hj =>
        rw [Except.ok.injEq] at h
        subst h
        have hl : regi.length = kr := by
          have := ((mapM_ok_iff _ _ _).1 hregi).length_eq
          simpa using this.symm
        refine ⟨by omega, h1.2, hl, ?_, hj⟩
        intro v hv
        have hv : v < regi.length := hv
        have := (List.forall₂_iff_get.1 ((mapM_ok_iff _ _ _).1 hregi)).2 v (by simp; omega) hv
        simpa using this

theorem joint_zero_iff {kr kryd nr nv : ℕ} (b : Fin nv → ℝ) :
    (Matrix.of fun (p : Fin kr × Fin (nr - 1)) c => rMat p.1 kr kryd nr nv p.2 c) *ᵥ b = 0 ↔
      ∀ v < kr, rMat v kr kryd nr nv *ᵥ b = 0 := by
  constructor
  · intro h v hv
    funext i
    exact congrFun h (⟨v, hv⟩, i)
  · intro h
    funext p
    exact congrFun (h p.1 p.1.2) p.2

/-- C124: every statistic is nonnegative and is zero exactly when the coefficients it names are the same in all regimes; the
joint statistic is zero exactly when all of them are. -/
theorem C124_chow (kr kf kryd nr : ℕ) (hk : kryd ≤ kr) (betas : List ℝ) {nv : ℕ} (vm : Matrix (Fin nv) (Fin nv) ℝ) (hvm : SymPSD vm)
    (hlen : betas.length = nv) (res : ChowRes) (h : chowRun kr kf kryd nr betas vm = .ok res) :
    res.regi.length = kr ∧
    (∀ v (hv : v < res.regi.length), 0 ≤ res.regi[v] ∧
      (res.regi[v] = 0 ↔ AllEq (fun p => betas.getD p 0) nr (coefPos kr kryd nr v))) ∧
    0 ≤ res.joint ∧ (res.joint = 0 ↔ ∀ v < kr, AllEq (fun p => betas.getD p 0) nr (coefPos kr kryd nr v)) := by
  have ha : adjust kr kf nr betas nv = .ok (kf, betas) := by unfold adjust; rw [if_neg (not_not.2 hlen)]
  obtain ⟨h1, -, h2, h3, h4⟩ := chowRun_eq ha h
  have hj := waldE_ok hvm h4
  refine ⟨h2, ?_, hj.1, ?_⟩
  · intro v hv
    have := waldE_ok hvm (h3 v hv)
    rw [rMat_zero_iff hk (h2 ▸ hv) h1] at this
    exact this
  · rw [hj.2, joint_zero_iff]
    exact forall₂_congr fun v hv => rMat_zero_iff hk hv h1 betas

/-- C124: coefficients without a variance (the spatial parameters and variances at the end of the vector, counted in `kf`) are
dropped. -/
theorem C124_extra (kr kf kryd nr : ℕ) (b extra : List ℝ) (he : extra ≠ []) (hkf : extra.length ≤ kf) {nv : ℕ}
    (vm : Matrix (Fin nv) (Fin nv) ℝ) (hb : b.length = nv) :
    chowRun kr kf kryd nr (b ++ extra) vm = chowRun kr (kf - extra.length) kryd nr b vm := by
  have hpos : 0 < extra.length := List.length_pos_iff.2 he
  have h1 : adjust kr kf nr (b ++ extra) nv = .ok (kf - extra.length, b) := by
    unfold adjust
    rw [if_pos (by rw [List.length_append]; omega), if_pos (by omega), if_neg (by rw [List.length_append]; omega),
      List.length_append, List.take_left' hb]
    congr 2
    omega
  have h2 : adjust kr (kf - extra.length) nr b nv = .ok (kf - extra.length, b) := by
    unfold adjust; rw [if_neg (not_not.2 hb)]
  unfold chowRun
  rw [h1, h2]

theorem takeRows_append (l : List ℝ) (a b : List ℕ) (x y : List ℝ) (ha : takeRows l a = .ok x) (hb : takeRows l b = .ok y) :
    takeRows l (a ++ b) = .ok (x ++ y) := by
  unfold takeRows at *
  rw [mapM_ok_iff] at *
  exact List.rel_append ha hb

theorem takeRows_range (pre blk rest : List ℝ) (kr : ℕ) (h : kr ≤ blk.length) :
    takeRows (pre ++ (blk ++ rest)) (List.range' pre.length kr) = .ok (blk.take kr) := by
  unfold takeRows
  rw [mapM_ok_iff, List.forall₂_iff_get]
  refine ⟨by simp [h], fun i h1 h2 => ?_⟩
  have hi : i < kr := by simpa using h1
  have hlt : i < blk.length := by omega
  simp only [List.get_eq_getElem, List.getElem_range', one_mul, List.getElem_take]
  rw [List.getElem?_append_right (by omega), Nat.add_sub_cancel_left, List.getElem?_append_left hlt, List.getElem?_eq_getElem hlt]

theorem takeRows_blocks (kr : ℕ) : ∀ (bl : List (List ℝ)) (pre : List ℝ), (∀ l ∈ bl, l.length = kr + 1) →
    takeRows (pre ++ bl.flatten) ((List.range bl.length).flatMap fun i => List.range' (pre.length + i * (kr + 1)) kr) =
      .ok ((bl.map (List.take kr)).flatten)
  | [], pre, _ => rfl
  | l :: t, pre, h => by
    have hl : l.length = kr + 1 := h l (by simp)
    have ih := takeRows_blocks kr t (pre ++ l) fun m hm => h m (by simp [hm])
    rw [List.length_cons, List.range_succ_eq_map, List.flatMap_cons, List.flatten_cons, List.map_cons, List.flatten_cons]
    refine takeRows_append _ _ _ _ _ ?_ ?_
    · rw [zero_mul, add_zero]
      exact takeRows_range pre l _ kr (by omega)
    · rw [List.flatMap_map]
      rw [List.append_assoc] at ih
      rw [← ih]
      congr 2
      funext i
      simp only [Function.comp, Nat.succ_eq_add_one]
      rw [List.length_append, hl, Nat.add_mul]
      congr 1
      ring

/-- C124: when the regimes were estimated one by one and the covariance matrix does not cover the spatial parameter that ends
each regime's block of coefficients, the tests are those of the blocks without it. -/
theorem C124_blocks (kr kryd nr : ℕ) (bl : List (List ℝ)) (hn : bl.length = nr) (hr : 0 < nr) (hb : ∀ l ∈ bl, l.length = kr + 1)
    {nv : ℕ} (hv : nv = nr * kr) (vm : Matrix (Fin nv) (Fin nv) ℝ) :
    chowRun kr 0 kryd nr bl.flatten vm = chowRun kr 0 kryd nr (bl.map (List.take kr)).flatten vm := by
  have hfl : ∀ (m : ℕ) (L : List (List ℝ)), (∀ l ∈ L, l.length = m) → L.flatten.length = L.length * m := by
    intro m L
    induction L with
    | nil => intro; simp
    | cons a t ih =>
      intro h
      rw [List.flatten_cons, List.length_append, ih fun l hl => h l (by simp [hl]), h a (by simp), List.length_cons]; ring
  have l1 : bl.flatten.length = nr * (kr + 1) := by rw [hfl (kr + 1) bl hb, hn]
  have l2 : (bl.map (List.take kr)).flatten.length = nv := by
    rw [hfl kr _ ?_, List.length_map, hn, hv]
    intro l hl
    obtain ⟨m, hm, rfl⟩ := List.mem_map.1 hl
    rw [List.length_take, hb m hm]; omega
  have h1 : adjust kr 0 nr bl.flatten nv = .ok (0, (bl.map (List.take kr)).flatten) := by
    unfold adjust
    rw [if_pos (by rw [l1, hv, Nat.mul_add]; omega), if_neg (by omega)]
    have := takeRows_blocks kr bl [] hb
    simp only [List.nil_append, List.length_nil, Nat.zero_add] at this
    rw [brange, ← hn, this]; rfl
  have h2 : adjust kr 0 nr (bl.map (List.take kr)).flatten nv = .ok (0, (bl.map (List.take kr)).flatten) := by
    unfold adjust; rw [if_neg (not_not.2 l2)]
  unfold chowRun
  rw [h1, h2]

theorem vecMul_indep {m : Type} [Fintype m] [DecidableEq m] {nv : ℕ} (r : Matrix m (Fin nv) ℝ) (p : m → Fin nv)
    (hp : ∀ i j, r i (p j) = if i = j then -1 else 0) (c : m → ℝ) (hc : c ᵥ* r = 0) : c = 0 := by
  funext j
  have := congrFun hc (p j)
  rw [vecMul, dotProduct] at this
  simp only [hp] at this
  simpa using this

/-- C124: with a positive definite covariance matrix the tests are always computed. -/
theorem C124_exists (kr kf kryd nr : ℕ) (hk : kryd ≤ kr) (h0 : 0 < kr) (betas : List ℝ) {nv : ℕ} (vm : Matrix (Fin nv) (Fin nv) ℝ)
    (hpd : ∀ v : Fin nv → ℝ, v ≠ 0 → 0 < v ⬝ᵥ (vm *ᵥ v)) (hlen : betas.length = nv) (hnv : kr * nr + kf = nv) :
    ∃ res, chowRun kr kf kryd nr betas vm = .ok res := by
  have ha : adjust kr kf nr betas nv = .ok (kf, betas) := by unfold adjust; rw [if_neg (not_not.2 hlen)]
  have hcol : ∀ (v : Fin kr) (i : Fin (nr - 1)), coefPos kr kryd nr v (i + 1) < nv := fun v i =>
    (coefPos_lt hk v.2 (by have := i.2; omega)).trans_le (by omega)
  have hent : ∀ (v w : Fin kr) (i j : Fin (nr - 1)), rMat v kr kryd nr nv i ⟨coefPos kr kryd nr w (j + 1), hcol w j⟩ =
      if v = w ∧ i = j then -1 else 0 := by
    intro v w i j
    have hi := i.2
    have hj := j.2
    simp only [rMat, of_apply, buildR1var_eq hk v.2 hi]
    by_cases e : v = w ∧ i = j
    · rw [if_pos e, e.1, e.2, if_pos rfl]; norm_num
    · rw [if_neg e, if_neg, if_neg]
      · norm_num
      · intro h
        have := (coefPos_inj w.2 v.2 (by omega) (by omega) h).2
        omega
      · intro h
        have := coefPos_inj w.2 v.2 (by omega) (by omega) h
        exact e ⟨Fin.ext this.1.symm, Fin.ext (by omega)⟩
  have hw : ∀ {m : Type} [Fintype m] [DecidableEq m] (r : Matrix m (Fin nv) ℝ), (∀ c, c ᵥ* r = 0 → c = 0) →
      ∃ w, waldE (vec betas nv) r vm = .ok w := by
    intro m _ _ r hr
    obtain ⟨w, hw⟩ := (C27_exists_iff (vec betas nv) r 0 vm hpd).2 hr
    exact ⟨w, by unfold waldE; rw [hw]⟩
  have hs : ∀ v < kr, ∃ w, waldE (vec betas nv) (rMat v kr kryd nr nv) vm = .ok w := by
    intro v hv
    refine hw _ fun c hc => vecMul_indep _ (fun j => ⟨_, hcol ⟨v, hv⟩ j⟩) (fun i j => ?_) c hc
    have := hent ⟨v, hv⟩ ⟨v, hv⟩ i j
    simpa using this
  obtain ⟨j, hj⟩ := hw (Matrix.of fun (p : Fin kr × Fin (nr - 1)) c => rMat p.1 kr kryd nr nv p.2 c) fun c hc =>
    vecMul_indep _ (fun q => ⟨_, hcol q.1 q.2⟩) (fun p q => by
      have := hent p.1 q.1 p.2 q.2
      rw [of_apply, this]
      simp only [Prod.ext_iff]) c hc
  obtain ⟨regi, hregi⟩ : ∃ regi, (List.range kr).mapM (fun v => waldE (vec betas nv) (rMat v kr kryd nr nv) vm) = .ok regi := by
    choose! f hf using hs
    refine ⟨(List.range kr).map f, (mapM_ok_iff _ _ _).2 ?_⟩
    rw [List.forall₂_map_right_iff, List.forall₂_same]
    intro v hv
    exact hf v (List.mem_range.1 hv)
  refine ⟨⟨j, regi⟩, ?_⟩
  unfold chowRun
  rw [ha]
  simp only [bind, Except.bind]
  rw [if_neg (by omega), if_neg (by omega), hregi]
  simp only
  rw [hj]

/-- C124: in a system of equations without endogenous variables the tests of an equation name the right coefficients: coefficient
`g kx + v` belongs to variable `v` in regime `g`. -/
theorem C124_sur_partial {L V : Type} [DecidableEq L] [Zero V] (xcols : List (List V)) (regimes rs : List L) (betas : List ℝ) {nv : ℕ}
    (vm : Matrix (Fin nv) (Fin nv) ℝ) (hvm : SymPSD vm) (hlen : betas.length = nv) (res : ChowRes)
    (h : chowThreeSLS xcols.length 0 rs.length betas vm = .ok res) :
    res.regi.length = xcols.length ∧
    ∀ v (hv : v < res.regi.length) (hv' : v < xcols.length),
      (res.regi[v] = 0 ↔ ∀ g < rs.length, ∀ g' < rs.length,
        betas.getD (g * xcols.length + v) 0 = betas.getD (g' * xcols.length + v) 0) ∧
      ∀ g (hg : g < rs.length), (threeSLSColumns xcols [] regimes rs)[g * xcols.length + v]? = some (maskCol regimes rs[g] xcols[v]) := by
  obtain ⟨h1, h2, -⟩ := C124_chow _ _ _ _ (Nat.zero_le _) betas vm hvm hlen res h
  rw [add_zero] at h1 h2
  refine ⟨h1, fun v hv hv' => ⟨?_, fun g hg => ?_⟩⟩
  · rw [(h2 v hv).2]
    simp only [AllEq, coefPos, Nat.sub_zero, if_pos hv']
  · have e : threeSLSColumns xcols [] regimes rs = x2xspCols xcols regimes rs := by
      unfold threeSLSColumns x2xspCols; simp
    rw [e]
    exact getElem?_x2xspCols xcols regimes rs g v hg hv'

/-- C124, defect: `ThreeSLS` (and `SURlagIV` with `regime_lag_sep=True`) with regimes. One exogenous variable and one endogenous:
the columns are `x` in regime a, `x` in b, `y` in a, `y` in b. Coefficients 1, 1, 5, 5 are the same in both regimes, and yet the
test of the first variable is not zero: it compares `x` in a with `y` in a. -/
theorem C124_threesls_violated :
    threeSLSColumns [[2, 3]] [[5, (7 : ℤ)]] ["a", "b"] ["a", "b"] = [[2, 0], [0, 3], [5, 0], [0, 7]] ∧
    ∃ res, chowThreeSLS 1 1 2 [1, 1, 5, 5] (1 : Matrix (Fin 4) (Fin 4) ℝ) = .ok res ∧
      ∃ h : 0 < res.regi.length, res.regi[0] ≠ 0 := by
  refine ⟨by decide, ?_⟩
  have hpd : ∀ v : Fin 4 → ℝ, v ≠ 0 → 0 < v ⬝ᵥ ((1 : Matrix (Fin 4) (Fin 4) ℝ) *ᵥ v) := by
    intro v hv
    rw [one_mulVec]
    exact lt_of_le_of_ne (Finset.sum_nonneg fun i _ => mul_self_nonneg _) (Ne.symm (by rwa [ne_eq, dotProduct_self_eq_zero]))
  have hps : SymPSD (1 : Matrix (Fin 4) (Fin 4) ℝ) := by
    have := psd_gram (1 : Matrix (Fin 4) (Fin 4) ℝ)
    rwa [transpose_one, Matrix.one_mul] at this
  obtain ⟨res, hres⟩ := C124_exists 2 0 0 2 (by omega) (by omega) [1, 1, 5, 5] (1 : Matrix (Fin 4) (Fin 4) ℝ) hpd rfl rfl
  obtain ⟨h1, h2, -⟩ := C124_chow _ _ _ _ (Nat.zero_le _) _ _ hps rfl res hres
  refine ⟨res, hres, by omega, ?_⟩
  intro h0
  have := (h2 0 (by omega)).2.1 h0 0 (by omega) 1 (by omega)
  norm_num [coefPos] at this

/-! ### C125 -/

theorem getD_flatten (m : ℕ) : ∀ (L : List (List ℝ)) (g i : ℕ), (∀ l ∈ L, l.length = m) → i < m → g < L.length →
    L.flatten.getD (g * m + i) 0 = (L.getD g []).getD i 0
  | [], g, i, _, _, hg => by simp at hg
  | l :: t, 0, i, h, hi, _ => by
    have hl := h l (by simp)
    rw [List.flatten_cons, zero_mul, zero_add]
    simp only [List.getD_cons_zero]
    rw [List.getD_append _ _ _ _ (by omega)]
  | l :: t, g + 1, i, h, hi, hg => by
    have hl := h l (by simp)
    rw [List.flatten_cons, List.getD_append_right _ _ _ _ (by rw [hl, Nat.add_mul]; omega), List.getD_cons_succ,
      ← getD_flatten m t g i (fun a ha => h a (by simp [ha])) hi (by simpa using hg), hl]
    congr 1
    rw [Nat.add_mul]; omega

/-- C125: the test for variable `i` across equations is zero exactly when coefficient `i` is the same in every equation. -/
theorem C125_surchow (b : List (List ℝ)) (kr : ℕ) (hb : ∀ l ∈ b, l.length = kr) {nv : ℕ} (varb : Matrix (Fin nv) (Fin nv) ℝ)
    (hv : SymPSD varb) (t : List ℝ) (h : surChow b.length kr b.flatten varb = .ok t) :
    t.length = kr ∧ ∀ i (hi : i < t.length), 0 ≤ t[i] ∧
      (t[i] = 0 ↔ ∀ g < b.length, ∀ g' < b.length, (b.getD g []).getD i 0 = (b.getD g' []).getD i 0) := by
  unfold surChow at h
  split at h
  · cases h
  next hn =>
    push Not at hn
    have hf := (mapM_ok_iff _ _ _).1 h
    have hl : t.length = kr := by simpa using hf.length_eq.symm
    refine ⟨hl, fun i hi => ?_⟩
    have hi' : i < kr := hl ▸ hi
    have h1 := (List.forall₂_iff_get.1 hf).2 i (by simpa using hi') hi
    simp only [List.get_eq_getElem, List.getElem_range] at h1
    obtain ⟨h2, h3⟩ := waldE_ok hv h1
    refine ⟨h2, ?_⟩
    rw [h3, rMat_zero_iff (Nat.zero_le _) hi' hn.1.le]
    simp only [AllEq, coefPos, Nat.sub_zero, if_pos hi']
    refine forall₂_congr fun g hg => forall₂_congr fun g' hg' => ?_
    rw [getD_flatten kr b g i hb hi' hg, getD_flatten kr b g' i hb hi' hg']

theorem getD_last : ∀ (L : List (List ℝ)) (i : ℕ), (∀ l ∈ L, l ≠ []) → i < L.length →
    L.flatten.getD (((L.map List.length).take (i + 1)).sum - 1) 0 = ((L.getD i []).getLast?).getD 0 ∧
    0 < ((L.map List.length).take (i + 1)).sum ∧ ((L.map List.length).take (i + 1)).sum ≤ L.flatten.length
  | [], i, _, hi => by simp at hi
  | l :: t, 0, h, _ => by
    have hl : 0 < l.length := List.length_pos_iff.2 (h l (by simp))
    simp only [List.map_cons, zero_add, List.take_succ_cons, List.take_zero, List.sum_cons, List.sum_nil, add_zero, List.flatten_cons,
      List.getD_cons_zero, List.length_append]
    refine ⟨?_, hl, by omega⟩
    rw [List.getD_append _ _ _ _ (by omega), List.getLast?_eq_getElem?, List.getD_eq_getElem?_getD]
  | l :: t, i + 1, h, hi => by
    have hl : 0 < l.length := List.length_pos_iff.2 (h l (by simp))
    obtain ⟨h1, h2, h3⟩ := getD_last t i (fun a ha => h a (by simp [ha])) (by simpa using hi)
    simp only [List.map_cons, List.take_succ_cons, List.sum_cons, List.flatten_cons, List.getD_cons_succ, List.length_append] at h1 h2 h3 ⊢
    refine ⟨?_, by omega, by omega⟩
    rw [List.getD_append_right _ _ _ _ (by omega), ← h1]
    congr 1
    omega

theorem joinR_apply (bigK : List ℕ) {nv : ℕ} (v : Fin nv → ℝ) (i : Fin bigK.length) (p : Fin nv)
    (hp : p.1 + 1 = (bigK.take (i + 1)).sum) : (joinR bigK nv *ᵥ v) i = v p := by
  rw [mulVec, dotProduct, Finset.sum_eq_single p]
  · simp [joinR, hp]
  · intro c _ hc
    have : ¬ c.1 + 1 = (bigK.take (i + 1)).sum := fun h => hc (Fin.ext (by omega))
    rw [joinR, of_apply, if_neg this, zero_mul]
  · simp

/-- C125: the joint test on the spatial lags is zero exactly when the last coefficient of every equation is zero. -/
theorem C125_joinrho_partial (b : List (List ℝ)) (hb : ∀ l ∈ b, l ≠ []) {nv : ℕ} (varb : Matrix (Fin nv) (Fin nv) ℝ)
    (hv : SymPSD varb) (w : ℝ) (h : surJoinrho (b.map List.length) b.flatten varb = .ok w) :
    0 ≤ w ∧ (w = 0 ↔ ∀ l ∈ b, l.getLast? = some 0) := by
  unfold surJoinrho at h
  split at h
  · cases h
  next hn =>
    split at h
    · cases h
    · push Not at hn
      obtain ⟨h1, h2⟩ := waldE_ok hv h
      refine ⟨h1, ?_⟩
      rw [h2]
      have key : ∀ (i : ℕ) (hi : i < (b.map List.length).length),
          (joinR (b.map List.length) nv *ᵥ vec b.flatten nv) ⟨i, hi⟩ = ((b.getD i []).getLast?).getD 0 := by
        intro i hi
        have hi' : i < b.length := by simpa using hi
        obtain ⟨g1, g2, g3⟩ := getD_last b i hb hi'
        rw [joinR_apply _ _ _ ⟨((b.map List.length).take (i + 1)).sum - 1, by omega⟩ (by simp only; omega)]
        exact g1
      constructor
      · intro hz l hl
        obtain ⟨i, hi, rfl⟩ := List.mem_iff_getElem.1 hl
        have := congrFun hz ⟨i, by simpa using hi⟩
        rw [key, List.getD_eq_getElem?_getD, List.getElem?_eq_getElem hi] at this
        simp only [Option.getD_some, Pi.zero_apply] at this
        obtain ⟨x, hx⟩ : ∃ x, b[i].getLast? = some x := ⟨_, List.getLast?_eq_some_getLast (hb _ hl)⟩
        rw [hx] at this ⊢
        simpa using this
      · intro hz
        funext ⟨i, hi⟩
        have hi' : i < b.length := by simpa using hi
        rw [key, List.getD_eq_getElem?_getD, List.getElem?_eq_getElem hi']
        simp only [Option.getD_some]
        rw [hz _ (List.getElem_mem hi')]; rfl

/-- C125, defect: with `regime_lag_sep=True` an equation of `SURlagIV` has a spatial lag coefficient for each regime; the joint test
looks at the last regime only. Columns: `x` in a, `x` in b, `Wy` in a, `Wy` in b; the coefficient of `Wy` in a is 7 and the
statistic is zero. -/
theorem C125_joinrho_violated :
    threeSLSColumns [[2, 3]] [[5, (7 : ℤ)]] ["a", "b"] ["a", "b"] = [[2, 0], [0, 3], [5, 0], [0, 7]] ∧
    surJoinrho [4] [1, 1, 7, 0] (1 : Matrix (Fin 4) (Fin 4) ℝ) = .ok 0 := by
  refine ⟨by decide, ?_⟩
  have hpd : ∀ v : Fin 4 → ℝ, v ≠ 0 → 0 < v ⬝ᵥ ((1 : Matrix (Fin 4) (Fin 4) ℝ) *ᵥ v) := by
    intro v hv
    rw [one_mulVec]
    exact lt_of_le_of_ne (Finset.sum_nonneg fun i _ => mul_self_nonneg _) (Ne.symm (by rwa [ne_eq, dotProduct_self_eq_zero]))
  have hps : SymPSD (1 : Matrix (Fin 4) (Fin 4) ℝ) := by
    have := psd_gram (1 : Matrix (Fin 4) (Fin 4) ℝ)
    rwa [transpose_one, Matrix.one_mul] at this
  obtain ⟨w, hw⟩ := (C27_exists_iff (vec [1, 1, 7, 0] 4) (joinR [4] 4) 0 1 hpd).2 (by
    intro c hc
    funext i
    have := congrFun hc 3
    have hs : ∀ f : Fin [4].length → ℝ, ∑ i, f i = f (0 : Fin 1) := fun f => Fin.sum_univ_one f
    rw [vecMul, dotProduct, hs] at this
    have hi : i = (0 : Fin 1) := Subsingleton.elim (α := Fin 1) _ _
    rw [hi]
    simpa [joinR] using this)
  have h : surJoinrho [4] [1, 1, 7, 0] (1 : Matrix (Fin 4) (Fin 4) ℝ) = .ok w := by
    unfold surJoinrho
    rw [if_neg (by simp), if_neg (by simp), waldE, hw]
  rw [h]
  have := (C125_joinrho_partial [[1, 1, 7, 0]] (by simp) (1 : Matrix (Fin 4) (Fin 4) ℝ) hps w (by simpa using h)).2.2 (by simp)
  rw [this]

/-- C125: tests on the spatial parameters of SURerrorML: zero exactly when they are all equal, respectively all zero. -/
theorem C125_lambda {neq : ℕ} (lam : Fin neq → ℝ) (vlam : Matrix (Fin neq) (Fin neq) ℝ) (hv : SymPSD vlam) :
    (∀ w, lamTest lam vlam = .ok w → 0 ≤ w ∧ (w = 0 ↔ ∀ r s, lam r = lam s)) ∧
    (∀ w, joinLam lam vlam = .ok w → 0 ≤ w ∧ (w = 0 ↔ ∀ r, lam r = 0)) := by
  constructor
  · intro w h
    obtain ⟨h1, h2⟩ := waldE_ok hv h
    refine ⟨h1, ?_⟩
    rw [h2]
    constructor
    · intro hz
      have h0 : ∀ r : Fin neq, lam r = lam ⟨0, by have := r.2; omega⟩ := by
        intro r
        obtain ⟨r, hr⟩ := r
        cases r with
        | zero => rfl
        | succ r =>
          have := congrFun hz ⟨r, by omega⟩
          rw [rMat_apply (Nat.zero_le _) (by omega) (by omega)] at this
          simp only [coefPos, Nat.sub_zero, Nat.lt_one_iff, if_true, Nat.zero_mul, Nat.mul_one, Nat.add_zero, Pi.zero_apply] at this
          exact (sub_eq_zero.1 this).symm
      intro r s
      rw [h0 r, h0 s]
    · intro hz
      funext i
      rw [rMat_apply (Nat.zero_le _) (by omega) (by omega), hz _ _, sub_self]; rfl
  · intro w h
    obtain ⟨h1, h2⟩ := waldE_ok hv h
    refine ⟨h1, ?_⟩
    rw [h2, one_mulVec]
    exact ⟨fun h r => congrFun h r, fun h => funext h⟩

/-- C125: the covariance matrix passed to those tests (the block of the spatial parameters in `surerrvm`) meets the hypothesis. -/
theorem C125_lambda_vm {n : Type} [Fintype n] [DecidableEq n] {neq : ℕ} (W : Matrix n n ℝ) (lam : Fin neq → ℝ)
    (S : Matrix (Fin neq) (Fin neq) ℝ) (hS : S.PosDef) (vm : Matrix (Fin neq ⊕ SUR.UPair (Fin neq)) (Fin neq ⊕ SUR.UPair (Fin neq)) ℝ)
    (h : SUR.surErrVm W lam S = some vm) : SymPSD (vm.submatrix Sum.inl Sum.inl) := by
  obtain ⟨-, -, h3, h4⟩ := SUR.C123_vm W lam S hS vm h
  refine ⟨by rw [transpose_submatrix, h3], fun v => ?_⟩
  rw [quad_eq]
  have := (h4 (Sum.elim v 0)).1
  simpa [dotProduct, mulVec, Fintype.sum_sum_type] using this

end Spreg.Chow
