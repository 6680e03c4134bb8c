import Verif.Model.OLSChow
import Verif.Spec.ChiSq
import Verif.Props.ExactSize
import Verif.Props.Chow
/-
Under normal errors the Chow statistics of `OLS_Regimes` with one error variance have Fisher's distribution (C179).
-/
set_option linter.unusedSectionVars false
namespace Spreg.OLSChow
open Matrix MeasureTheory ProbabilityTheory Spreg Spreg.Lin Spreg.Exact Spreg.Sampling Spreg.RegimesMat Spreg.Chow Spreg.Regimes

variable {n k m : Type} [Fintype n] [Fintype k] [Fintype m] [DecidableEq n] [DecidableEq k] [DecidableEq m]

theorem gram_pd (x : Matrix n k ℝ) (hu : IsUnit (xᵀ * x).det) (v : k → ℝ) (hv : v ≠ 0) : 0 < v ⬝ᵥ ((xᵀ * x)⁻¹ *ᵥ v) := by
  set w := (xᵀ * x)⁻¹ *ᵥ v with hw
  have hvw : v = (xᵀ * x) *ᵥ w := by rw [hw, mulVec_mulVec, mul_nonsing_inv _ hu, one_mulVec]
  have e : v ⬝ᵥ w = (x *ᵥ w) ⬝ᵥ (x *ᵥ w) := by
    rw [hvw, ← mulVec_mulVec, dotProduct_comm, dotProduct_mulVec, vecMul_transpose]
  rw [e]
  refine lt_of_le_of_ne (Finset.sum_nonneg fun i _ => mul_self_nonneg _) fun h => hv ?_
  have h0 : x *ᵥ w = 0 := dotProduct_self_eq_zero.1 h.symm
  rw [hvw, ← mulVec_mulVec, h0, mulVec_zero]

/-- The projection of the Wald statistic. -/
theorem wald_proj (x : Matrix n k ℝ) (hu : IsUnit (xᵀ * x).det) (r : Matrix m k ℝ) (hr : ∀ c : m → ℝ, c ᵥ* r = 0 → c = 0) :
    IsUnit (r * ((xᵀ * x)⁻¹ * rᵀ)).det ∧
    ∃ A : Matrix n n ℝ, A = (r * ((xᵀ * x)⁻¹ * xᵀ))ᵀ * (r * ((xᵀ * x)⁻¹ * rᵀ))⁻¹ * (r * ((xᵀ * x)⁻¹ * xᵀ)) ∧
      Aᵀ = A ∧ A * A = A ∧ A * (1 - x * (xᵀ * x)⁻¹ * xᵀ) = 0 ∧ trace A = Fintype.card m := by
  have hS : IsUnit (r * ((xᵀ * x)⁻¹ * rᵀ)).det := by
    obtain ⟨w, hw⟩ := (C27_exists_iff 0 r 0 (xᵀ * x)⁻¹ (gram_pd x hu)).2 hr
    by_contra h
    unfold waldTest inv? at hw
    simp at hw
    exact h (isUnit_iff_ne_zero.2 hw.1)
  refine ⟨hS, _, rfl, ?_⟩
  set S := r * ((xᵀ * x)⁻¹ * rᵀ) with hSd
  set G := (xᵀ * x)⁻¹ * xᵀ with hG
  have sX : ((xᵀ * x)⁻¹)ᵀ = (xᵀ * x)⁻¹ := by rw [transpose_nonsing_inv, transpose_mul, transpose_transpose]
  have hGG : G * Gᵀ = (xᵀ * x)⁻¹ := by
    rw [hG, transpose_mul, transpose_transpose, sX, Matrix.mul_assoc, ← Matrix.mul_assoc xᵀ, mul_nonsing_inv _ hu, Matrix.mul_one]
  have hRR : (r * G) * (r * G)ᵀ = S := by
    rw [transpose_mul, Matrix.mul_assoc, ← Matrix.mul_assoc G, hGG]
  have sS : S⁻¹ᵀ = S⁻¹ := by rw [transpose_nonsing_inv, ← hRR, transpose_mul, transpose_transpose]
  have hGM : G * (1 - x * (xᵀ * x)⁻¹ * xᵀ) = 0 := by
    have := congrArg transpose (ann_x x hu)
    rw [transpose_mul, ann_symm, transpose_zero] at this
    rw [hG, Matrix.mul_assoc, this, Matrix.mul_zero]
  refine ⟨?_, ?_, ?_, ?_⟩
  · rw [transpose_mul _ (r * G), transpose_mul _ S⁻¹, transpose_transpose, sS, Matrix.mul_assoc]
  · calc _ = (r * G)ᵀ * S⁻¹ * ((r * G) * (r * G)ᵀ) * S⁻¹ * (r * G) := by simp only [Matrix.mul_assoc]
      _ = _ := by rw [hRR, Matrix.mul_assoc _ S⁻¹ S, nonsing_inv_mul _ hS, Matrix.mul_one]
  · rw [Matrix.mul_assoc, Matrix.mul_assoc r G, hGM, Matrix.mul_zero, Matrix.mul_zero]
  · rw [Matrix.mul_assoc, trace_mul_comm, Matrix.mul_assoc, hRR, nonsing_inv_mul _ hS, trace_one]

/-- The Wald statistic with the classical variance matrix. -/
theorem wald_value (b : k → ℝ) (r : Matrix m k ℝ) (V : Matrix k k ℝ) (s2 : ℝ) (hs : s2 ≠ 0) (hS : IsUnit (r * (V * rᵀ)).det) (w : ℝ)
    (h : waldE b r (vmClassic s2 V) = .ok w) : w = ((r *ᵥ b) ⬝ᵥ ((r * (V * rᵀ))⁻¹ *ᵥ (r *ᵥ b))) / s2 := by
  have e : r * (vmClassic s2 V * rᵀ) = s2 • (r * (V * rᵀ)) := by
    unfold vmClassic; rw [Matrix.smul_mul, Matrix.mul_smul]
  unfold waldE at h
  split at h
  · next w' hw =>
    rw [Except.ok.injEq] at h
    subst h
    unfold waldTest inv? at hw
    simp only [e] at hw
    split at hw
    · next hd =>
      simp only [Option.map_some, Option.some.injEq, sub_zero] at hw
      rw [← hw]
      have : (s2 • (r * (V * rᵀ)))⁻¹ = s2⁻¹ • (r * (V * rᵀ))⁻¹ := by
        apply Matrix.inv_eq_right_inv
        rw [Matrix.smul_mul, Matrix.mul_smul, smul_smul, mul_nonsing_inv _ hS, mul_inv_cancel₀ hs, one_smul]
      rw [this, smul_mulVec, dotProduct_smul, smul_eq_mul, div_eq_inv_mul]
    · cases hw
  · cases h

/-- A Wald statistic of a variance matrix that is zero is not computed. -/
theorem wald_zero [Nonempty m] (b : k → ℝ) (r : Matrix m k ℝ) (V : Matrix k k ℝ) (w : ℝ) : waldE b r (vmClassic 0 V) ≠ .ok w := by
  intro h
  unfold waldE at h
  split at h
  · next w' hw =>
    unfold waldTest inv? vmClassic at hw
    simp [det_zero] at hw
  · cases h

theorem rMat_indep {kr kf kryd nr nv : ℕ} (hk : kryd ≤ kr) (hnv : kr * nr + kf = nv) :
    (∀ v < kr, ∀ c, c ᵥ* rMat v kr kryd nr nv = 0 → c = 0) ∧
    (∀ c, c ᵥ* (Matrix.of fun (p : Fin kr × Fin (nr - 1)) c => rMat p.1 kr kryd nr nv p.2 c) = 0 → c = 0) := by
  have hcol : ∀ (v : Fin kr) (i : Fin (nr - 1)), coefPos kr kryd nr v (i + 1) < nv := fun v i =>
    (coefPos_lt hk v.2 (by have := i.2; omega)).trans_le (by omega)
  have hent : ∀ (v w : Fin kr) (i j : Fin (nr - 1)), rMat v kr kryd nr nv i ⟨coefPos kr kryd nr w (j + 1), hcol w j⟩ =
      if v = w ∧ i = j then -1 else 0 := by
    intro v w i j
    have hi := i.2
    have hj := j.2
    simp only [rMat, of_apply, buildR1var_eq hk v.2 hi]
    by_cases e : v = w ∧ i = j
    · rw [if_pos e, e.1, e.2, if_pos rfl]; norm_num
    · rw [if_neg e, if_neg, if_neg]
      · norm_num
      · intro h
        have := (coefPos_inj w.2 v.2 (by omega) (by omega) h).2
        omega
      · intro h
        have := coefPos_inj w.2 v.2 (by omega) (by omega) h
        exact e ⟨Fin.ext this.1.symm, Fin.ext (by omega)⟩
  constructor
  · intro v hv c hc
    refine vecMul_indep _ (fun j => ⟨_, hcol ⟨v, hv⟩ j⟩) (fun i j => ?_) c hc
    have := hent ⟨v, hv⟩ ⟨v, hv⟩ i j
    simpa using this
  · intro c hc
    exact vecMul_indep _ (fun q => ⟨_, hcol q.1 q.2⟩) (fun p q => by
      have := hent p.1 q.1 p.2 q.2
      rw [of_apply, this]
      simp only [Prod.ext_iff]) c hc

/-- The statistic of variable `v`, zero if the tests are not computed. -/
noncomputable def single (r : Py ChowRes) (v : ℕ) : ℝ := match r with | .ok c => c.regi.getD v 0 | .error _ => 0
/-- The joint statistic, zero if the tests are not computed. -/
noncomputable def joint (r : Py ChowRes) : ℝ := match r with | .ok c => c.joint | .error _ => 0

/-- What the tests are, as functions of the error. -/
theorem olsChow_value {kr kf nr nv : ℕ} (h0 : 0 < kr) (h2 : 2 ≤ nr) (hnv : kr * nr + kf = nv) (x : Matrix n (Fin nv) ℝ) (hu : IsUnit (xᵀ * x).det)
    (hk : nv < Fintype.card n) (beta : Fin nv → ℝ) (e : n → ℝ) :
    let M := 1 - x * (xᵀ * x)⁻¹ * xᵀ
    let s2 := (e ⬝ᵥ (M *ᵥ e)) / ((Fintype.card n - nv : ℕ) : ℝ)
    let T : {m : Type} → [Fintype m] → [DecidableEq m] → Matrix m (Fin nv) ℝ → ℝ := fun {_} _ _ r =>
      (r *ᵥ (beta + ((xᵀ * x)⁻¹ * xᵀ) *ᵥ e)) ⬝ᵥ ((r * ((xᵀ * x)⁻¹ * rᵀ))⁻¹ *ᵥ (r *ᵥ (beta + ((xᵀ * x)⁻¹ * xᵀ) *ᵥ e))) / s2
    (∀ v < kr, single (olsChow kr kf nr x (x *ᵥ beta + e)) v = T (rMat v kr 0 nr nv)) ∧
    joint (olsChow kr kf nr x (x *ᵥ beta + e)) = T (Matrix.of fun (p : Fin kr × Fin (nr - 1)) c => rMat p.1 kr 0 nr nv p.2 c) ∧
    (s2 ≠ 0 → ∃ res, olsChow kr kf nr x (x *ᵥ beta + e) = .ok res ∧ res.regi.length = kr) := by
  intro M s2 T
  have hf := ols_of_isUnit x (x *ᵥ beta + e) hu
  set f := olsWith x (x *ᵥ beta + e) (xᵀ * x)⁻¹ with hfd
  obtain ⟨h1, hb, h3⟩ := ols_linear x beta e f hf
  have hs2 : sig2nk f.u nv = s2 := by
    simp only [s2, M]
    unfold sig2nk
    rw [h3, utu_ann x hu, Nat.cast_sub hk.le]
  have hdef : olsChow kr kf nr x (x *ᵥ beta + e) = chowRun kr kf 0 nr (List.ofFn f.betas) (vmClassic s2 (xᵀ * x)⁻¹) := by
    unfold olsChow; rw [hf]; simp only []; rw [hs2, h1]
  have hlen : (List.ofFn f.betas).length = nv := List.length_ofFn
  have hvec : Chow.vec (List.ofFn f.betas) nv = beta + ((xᵀ * x)⁻¹ * xᵀ) *ᵥ e := by
    rw [← hb]; funext c
    simp [Chow.vec]
  have ha : adjust kr kf nr (List.ofFn f.betas) nv = .ok (kf, List.ofFn f.betas) := by unfold adjust; rw [if_neg (not_not.2 hlen)]
  obtain ⟨i1, i2⟩ := rMat_indep (kf := kf) (nr := nr) (nv := nv) (Nat.zero_le kr) hnv
  by_cases hz : s2 = 0
  · have herr : ∀ res, olsChow kr kf nr x (x *ᵥ beta + e) ≠ .ok res := by
      intro res h
      rw [hdef, hz] at h
      obtain ⟨-, -, hl, hr, -⟩ := chowRun_eq ha h
      have : Nonempty (Fin (nr - 1)) := ⟨⟨0, by omega⟩⟩
      exact wald_zero _ _ _ _ (hr 0 (by omega))
    obtain ⟨er, her⟩ : ∃ er, olsChow kr kf nr x (x *ᵥ beta + e) = .error er := by
      cases h : olsChow kr kf nr x (x *ᵥ beta + e) with
      | ok r => exact absurd h (herr r)
      | error er => exact ⟨er, rfl⟩
    refine ⟨fun v hv => ?_, ?_, fun h => absurd hz h⟩
    · rw [her]; simp only [single, T, hz, div_zero]
    · rw [her]; simp only [joint, T, hz, div_zero]
  · have hpos : 0 < s2 := by
      refine lt_of_le_of_ne ?_ (Ne.symm hz)
      rw [← hs2]
      unfold sig2nk
      refine div_nonneg (utu_nonneg _) ?_
      rw [sub_nonneg]; exact_mod_cast hk.le
    have hpd : ∀ v : Fin nv → ℝ, v ≠ 0 → 0 < v ⬝ᵥ (vmClassic s2 (xᵀ * x)⁻¹ *ᵥ v) := by
      intro v hv
      unfold vmClassic
      rw [smul_mulVec, dotProduct_smul, smul_eq_mul]
      exact mul_pos hpos (gram_pd x hu v hv)
    obtain ⟨res, hres⟩ := C124_exists kr kf 0 nr (Nat.zero_le _) h0 (List.ofFn f.betas) _ hpd hlen hnv
    obtain ⟨-, -, hl, hr, hj⟩ := chowRun_eq ha hres
    rw [hvec] at hr hj
    refine ⟨fun v hv => ?_, ?_, fun _ => ⟨res, hdef.trans hres, hl⟩⟩
    · have hv' : v < res.regi.length := by omega
      rw [hdef, hres]
      simp only [single, T]
      rw [List.getD_eq_getElem _ _ hv']
      exact wald_value _ _ _ _ hz (wald_proj x hu _ (i1 v hv)).1 _ (hr v hv')
    · rw [hdef, hres]
      simp only [joint, T]
      exact wald_value _ _ _ _ hz (wald_proj x hu _ i2).1 _ hj

/-- Law of a Wald statistic. -/
theorem wald_law {nv : ℕ} (s : ℝ) (hs : 0 < s) (x : Matrix n (Fin nv) ℝ) (hu : IsUnit (xᵀ * x).det) (hk : nv < Fintype.card n)
    (beta : Fin nv → ℝ) (r : Matrix m (Fin nv) ℝ) (hr : ∀ c : m → ℝ, c ᵥ* r = 0 → c = 0) (hb : r *ᵥ beta = 0) :
    (Measure.pi fun _ : n => gaussianReal 0 s.toNNReal).map (fun e =>
      ((r *ᵥ (beta + ((xᵀ * x)⁻¹ * xᵀ) *ᵥ e)) ⬝ᵥ ((r * ((xᵀ * x)⁻¹ * rᵀ))⁻¹ *ᵥ (r *ᵥ (beta + ((xᵀ * x)⁻¹ * xᵀ) *ᵥ e))) /
        ((e ⬝ᵥ ((1 - x * (xᵀ * x)⁻¹ * xᵀ) *ᵥ e)) / ((Fintype.card n - nv : ℕ) : ℝ))) / Fintype.card m) =
      fisherLaw (Fintype.card m) (Fintype.card n - nv) := by
  obtain ⟨hS, A, hA, a1, a2, a3, a4⟩ := wald_proj x hu r hr
  have htr : trace (1 - x * (xᵀ * x)⁻¹ * xᵀ) = ((Fintype.card n - nv : ℕ) : ℝ) := by
    rw [(annihilator x hu).2, Nat.cast_sub hk.le]; simp
  rw [← ratio_law s hs A _ a1 (ann_symm x) a2 (ann_idem x hu) a3 _ _ a4 htr]
  congr 1
  funext e
  have hq : (r *ᵥ (beta + ((xᵀ * x)⁻¹ * xᵀ) *ᵥ e)) ⬝ᵥ ((r * ((xᵀ * x)⁻¹ * rᵀ))⁻¹ *ᵥ (r *ᵥ (beta + ((xᵀ * x)⁻¹ * xᵀ) *ᵥ e))) = e ⬝ᵥ (A *ᵥ e) := by
    rw [mulVec_add, hb, zero_add, mulVec_mulVec]
    have : A *ᵥ e = (r * ((xᵀ * x)⁻¹ * xᵀ))ᵀ *ᵥ ((r * ((xᵀ * x)⁻¹ * rᵀ))⁻¹ *ᵥ ((r * ((xᵀ * x)⁻¹ * xᵀ)) *ᵥ e)) := by
      rw [mulVec_mulVec, mulVec_mulVec, hA, Matrix.mul_assoc]
    rw [this, dotProduct_mulVec e, vecMul_transpose]
  rw [hq, div_right_comm]

/-- Variable `v` has the same coefficient in all regimes. Coefficient `g * kr + v` of the design of `Regimes_Frame` is the one of variable `v` in
regime `g` (`C23`, `C24`). -/
def Stable {nv : ℕ} (beta : Fin nv → ℝ) (kr nr v : ℕ) : Prop :=
  ∀ g < nr, ∀ g' < nr, ∀ p q : Fin nv, p.1 = g * kr + v → q.1 = g' * kr + v → beta p = beta q

theorem stable_null {kr kf nr nv : ℕ} (hnv : kr * nr + kf = nv) (beta : Fin nv → ℝ) (v : ℕ) (hv : v < kr) (hb : Stable beta kr nr v) :
    rMat v kr 0 nr nv *ᵥ beta = 0 := by
  have hlt : ∀ g < nr, g * kr + v < nv := fun g hg => by nlinarith
  have h : AllEq (fun p => (List.ofFn beta).getD p 0) nr (coefPos kr 0 nr v) := by
    intro g hg g' hg'
    have e : ∀ g, coefPos kr 0 nr v g = g * kr + v := by intro g; simp [coefPos, hv]
    simp only [e]
    rw [List.getD_eq_getElem _ _ (by rw [List.length_ofFn]; exact hlt g hg), List.getD_eq_getElem _ _ (by rw [List.length_ofFn]; exact hlt g' hg'),
      List.getElem_ofFn, List.getElem_ofFn]
    exact hb g hg g' hg' _ _ rfl rfl
  have := (rMat_zero_iff (kryd := 0) (nr := nr) (nv := nv) (Nat.zero_le kr) hv (by omega) (List.ofFn beta)).2 h
  rwa [show Chow.vec (List.ofFn beta) nv = beta from by funext c; simp [Chow.vec]] at this

/-- **C179 (law of the Chow tests).** `y` has independent normal errors of equal variance and the coefficients of variable `v` are the same in all
regimes: the statistic reported for `v`, over its number of restrictions, has Fisher's distribution with as many and `n - k` degrees of freedom. -/
theorem C179_single {kr kf nr nv : ℕ} (h0 : 0 < kr) (h2 : 2 ≤ nr) (hnv : kr * nr + kf = nv) (s : ℝ) (hs : 0 < s) (x : Matrix n (Fin nv) ℝ)
    (hu : IsUnit (xᵀ * x).det) (hk : nv < Fintype.card n) (beta : Fin nv → ℝ) (v : ℕ) (hv : v < kr) (hb : Stable beta kr nr v) :
    (Measure.pi fun _ : n => gaussianReal 0 s.toNNReal).map (fun e => single (olsChow kr kf nr x (x *ᵥ beta + e)) v / (nr - 1 : ℕ)) =
      fisherLaw (nr - 1) (Fintype.card n - nv) := by
  have := wald_law s hs x hu hk beta (rMat v kr 0 nr nv) ((rMat_indep (kf := kf) (Nat.zero_le kr) hnv).1 v hv) (stable_null hnv beta v hv hb)
  rw [Fintype.card_fin] at this
  rw [← this]
  congr 1
  funext e
  rw [(olsChow_value h0 h2 hnv x hu hk beta e).1 v hv]

/-- **C179 (law of the joint Chow test).** All coefficients that may differ are the same in all regimes: the joint statistic over its number of
restrictions has Fisher's distribution. -/
theorem C179_joint {kr kf nr nv : ℕ} (h0 : 0 < kr) (h2 : 2 ≤ nr) (hnv : kr * nr + kf = nv) (s : ℝ) (hs : 0 < s) (x : Matrix n (Fin nv) ℝ)
    (hu : IsUnit (xᵀ * x).det) (hk : nv < Fintype.card n) (beta : Fin nv → ℝ) (hb : ∀ v < kr, Stable beta kr nr v) :
    (Measure.pi fun _ : n => gaussianReal 0 s.toNNReal).map (fun e => joint (olsChow kr kf nr x (x *ᵥ beta + e)) / (kr * (nr - 1) : ℕ)) =
      fisherLaw (kr * (nr - 1)) (Fintype.card n - nv) := by
  have := wald_law s hs x hu hk beta (Matrix.of fun (p : Fin kr × Fin (nr - 1)) c => rMat p.1 kr 0 nr nv p.2 c)
    (rMat_indep (kf := kf) (Nat.zero_le kr) hnv).2 ((joint_zero_iff beta).2 fun v hv => stable_null hnv beta v hv (hb v hv))
  rw [Fintype.card_prod, Fintype.card_fin, Fintype.card_fin] at this
  rw [← this]
  congr 1
  funext e
  rw [(olsChow_value h0 h2 hnv x hu hk beta e).2.1]

/-- **C179 (the tests are computed).** With probability one all tests are computed, whatever the coefficients. -/
theorem C179_computed {kr kf nr nv : ℕ} (h0 : 0 < kr) (h2 : 2 ≤ nr) (hnv : kr * nr + kf = nv) (s : ℝ) (hs : 0 < s) (x : Matrix n (Fin nv) ℝ)
    (hu : IsUnit (xᵀ * x).det) (hk : nv < Fintype.card n) (beta : Fin nv → ℝ) :
    ∀ᵐ e ∂(Measure.pi fun _ : n => gaussianReal 0 s.toNNReal), ∃ res, olsChow kr kf nr x (x *ᵥ beta + e) = .ok res ∧ res.regi.length = kr := by
  have hl := C179_joint h0 h2 hnv s hs x hu hk 0 (fun v _ g _ g' _ p q _ _ => rfl)
  have hq : 0 < kr * (nr - 1) := Nat.mul_pos h0 (by omega)
  have := fisher_atoms (kr * (nr - 1)) (Fintype.card n - nv) hq (by omega)
  have hp : IsProbabilityMeasure (fisherLaw (kr * (nr - 1)) (Fintype.card n - nv)) := by
    unfold fisherLaw; exact Measure.isProbabilityMeasure_map (fisher_meas _ _).aemeasurable
  have h00 := of_law _ _ _ hl {0} (measurableSet_singleton 0)
  rw [measure_singleton] at h00
  rw [ae_iff]
  refine measure_mono_null (fun e he => ?_) h00
  by_contra hne
  apply he
  refine (olsChow_value h0 h2 hnv x hu hk beta e).2.2 fun hz => hne ?_
  show _ = _
  rw [(olsChow_value h0 h2 hnv x hu hk 0 e).2.1]
  simp only [] at hz ⊢
  rw [hz, div_zero, zero_div]

end Spreg.OLSChow
