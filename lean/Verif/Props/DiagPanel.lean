import Verif.Model.DiagPanel
import Verif.Props.LM
import Verif.Props.SUR
import Mathlib.Tactic.FieldSimp
import Mathlib.Algebra.Order.Chebyshev
/-
Properties C80 (Lagrange multiplier tests of panels), C81 (Hausman test), C82 (BSK tests).
-/
namespace Spreg.DPanel
open Matrix Spreg.Lin Spreg.LM
open scoped Kronecker

variable {t n k : Type} [Fintype t] [Fintype n] [Fintype k] [DecidableEq t]

theorem trw_eq (W : Matrix n n ℝ) : trw W = tr_t W := by
  unfold trw tr_t
  rw [← Finset.sum_add_distrib]
  refine Finset.sum_congr rfl fun i _ => ?_
  rw [Matrix.add_mul, Matrix.add_apply]; ring

/-- `t * trw` is the normaliser of the stacked weights. -/
theorem trw_stacked (W : Matrix n n ℝ) :
    tr_t (wnt (t := t) W) = Fintype.card t * trw W := by
  rw [trw_eq, tr_t_eq, tr_t_eq]
  have h : ∀ (a b : t × n), (wnt (t := t) W a b + wnt (t := t) W b a) ^ 2
      = if a.1 = b.1 then (W a.2 b.2 + W b.2 a.2) ^ 2 else 0 := by
    intro a b
    unfold wnt
    rw [kroneckerMap_apply, kroneckerMap_apply]
    by_cases hab : a.1 = b.1
    · rw [hab]; simp
    · rw [if_neg hab, Matrix.one_apply_ne hab, Matrix.one_apply_ne (Ne.symm hab)]; simp
  simp only [h, Fintype.sum_prod_type]
  have h2 : ∀ s : t, ∑ i, ∑ s', ∑ j, (if s = s' then (W i j + W j i) ^ 2 else 0)
      = ∑ i, ∑ j, (W i j + W j i) ^ 2 := fun s => by
    refine Finset.sum_congr rfl fun i _ => ?_
    rw [Finset.sum_eq_single s]
    · simp
    · intro s' _ hne; simp [Ne.symm hne]
    · simp
  simp only [h2, Finset.sum_const, Finset.card_univ, nsmul_eq_mul]
  ring

theorem num2_eq [DecidableEq k] [DecidableEq n] (x : Matrix (t × n) k ℝ) (y : t × n → ℝ)
    (r : Reg (t × n) k) (h : reg x y = some r) (W : Matrix n n ℝ) :
    num2 r W = utu (rm x *ᵥ (wnt (t := t) W *ᵥ r.fit.predy)) := by
  obtain ⟨hx, hr⟩ := reg_eq_some h
  have hrx : r.x = x := by rw [hr]
  have hxtxi : r.fit.xtxi = (xᵀ * x)⁻¹ := by rw [hr]; rfl
  rw [utu_eq_dot]
  unfold num2
  simp only [hrx, hxtxi]
  have h1 : (1 : Matrix (t × n) (t × n) ℝ) - x * ((xᵀ * x)⁻¹ * xᵀ) = rm x := by
    unfold rm; simp only [Matrix.mul_assoc]
  rw [h1]
  generalize wnt (t := t) W *ᵥ r.fit.predy = v
  rw [dotProduct_mulVec (rm x *ᵥ v), ← mulVec_transpose, rm_symm, mulVec_mulVec, rm_idem x hx,
    dotProduct_comm]

/-- C80: with the maximum likelihood variance estimate, three of the four panel tests are the
cross-sectional tests of the pooled regression with the stacked weights `kron(I_t, W)`. -/
theorem C80_stacked_partial [DecidableEq k] [DecidableEq n] (x : Matrix (t × n) k ℝ) (y : t × n → ℝ)
    (r : Reg (t × n) k) (h : reg x y = some r) (hu : ∃ i, r.fit.u i ≠ 0) (W : Matrix n n ℝ) :
    panelLMerror r r.s2 W = (lmErr r (wnt W)).stat ∧
    panelRLMlag r r.s2 W = (rlmLag r (wnt W)).stat ∧
    panelRLMerror r r.s2 W = (rlmErr r (wnt W)).stat := by
  have hs := (s2_pos r hu).ne'
  have hnj := nj_eq x y r h hu (wnt W)
  have ht := trw_stacked (t := t) W
  have hJ : (num2 r W + Fintype.card t * trw W * r.s2) / r.s2 = r.nn * jj r (wnt W) := by
    rw [hnj, num2_eq x y r h W, ht]
    field_simp
  refine ⟨?_, ?_, ?_⟩
  · unfold panelLMerror lmErr utwuDs wu
    simp only
    rw [ht, div_pow, div_div]
    congr 1
    ring
  · unfold panelRLMlag rlmLag
    simp only
    rw [hJ, ht]
    rfl
  · unfold panelRLMerror rlmErr
    simp only
    rw [hJ, ht]
    have e1 : utwu r W / r.s2 = utwuDs r (wnt W) := rfl
    have e2 : utwy r W / r.s2 = utwyDs r (wnt W) := rfl
    rw [e1, mul_div_assoc, e2]
    congr 2
    ring

/-- C80 fails for the LM lag test: its normaliser uses `trw * trw` where the other tests (and the stacked
cross-sectional test) use `t * trw`. When the score is not zero the reported statistic agrees with the
stacked test only if the trace happens to equal the number of periods. -/
theorem C80_LMlag_violated [DecidableEq k] [DecidableEq n] (x : Matrix (t × n) k ℝ) (y : t × n → ℝ)
    (r : Reg (t × n) k) (h : reg x y = some r) (hu : ∃ i, r.fit.u i ≠ 0) (W : Matrix n n ℝ)
    (hW : ∃ i j, W i j + W j i ≠ 0) (hscore : utwy r W ≠ 0) :
    panelLMlag r r.s2 W = (lmLag r (wnt W)).stat ↔ trw W = Fintype.card t := by
  have hs := s2_pos r hu
  have hnj := nj_eq x y r h hu (wnt W)
  have ht := trw_stacked (t := t) W
  obtain ⟨i, j, hij⟩ := hW
  have htr : 0 < trw W := by rw [trw_eq]; exact tr_t_pos W i j hij
  obtain ⟨⟨s, -⟩, -⟩ := hu
  have hT : (0 : ℝ) < Fintype.card t := by
    have : 0 < Fintype.card t := Fintype.card_pos_iff.mpr ⟨s⟩
    exact_mod_cast this
  have hn2 : 0 ≤ num2 r W := by rw [num2_eq x y r h W]; exact utu_nonneg _
  have e1 : (lmLag r (wnt W)).stat = utwy r W ^ 2 / (r.s2 ^ 2 * (num2 r W / r.s2 + Fintype.card t * trw W)) := by
    unfold lmLag
    simp only
    rw [hnj, ← num2_eq x y r h W, ht]
    unfold utwyDs
    rw [div_pow, div_div]
    rfl
  have e2 : panelLMlag r r.s2 W = utwy r W ^ 2 / (r.s2 ^ 2 * (num2 r W / r.s2 + trw W * trw W)) := by
    unfold panelLMlag
    simp only
    rw [add_div, mul_div_cancel_right₀ _ hs.ne']
  rw [e1, e2]
  have hq : 0 ≤ num2 r W / r.s2 := div_nonneg hn2 hs.le
  have p1 : 0 < r.s2 ^ 2 * (num2 r W / r.s2 + Fintype.card t * trw W) := by positivity
  have p2 : 0 < r.s2 ^ 2 * (num2 r W / r.s2 + trw W * trw W) := by positivity
  rw [div_eq_div_iff p2.ne' p1.ne']
  constructor
  · intro heq
    have h3 := mul_left_cancel₀ (pow_ne_zero 2 hscore) heq
    have h4 := mul_left_cancel₀ (pow_ne_zero 2 hs.ne') h3
    have h5 : (Fintype.card t : ℝ) * trw W = trw W * trw W := by linarith
    exact (mul_right_cancel₀ htr.ne' h5).symm
  · intro heq; rw [heq]

/-- C80: consequently the four panel statistics do not satisfy the identity
`LM_error + robust LM_lag = LM_lag + robust LM_error` unless the trace equals the number of periods. -/
theorem C80_identity_violated [DecidableEq k] [DecidableEq n] (x : Matrix (t × n) k ℝ) (y : t × n → ℝ)
    (r : Reg (t × n) k) (h : reg x y = some r) (hu : ∃ i, r.fit.u i ≠ 0) (W : Matrix n n ℝ)
    (hW : ∃ i j, W i j + W j i ≠ 0) (hscore : utwy r W ≠ 0)
    (hlag : rm x *ᵥ (wnt (t := t) W *ᵥ r.fit.predy) ≠ 0) :
    panelLMerror r r.s2 W + panelRLMlag r r.s2 W = panelLMlag r r.s2 W + panelRLMerror r r.s2 W
      ↔ trw W = Fintype.card t := by
  rw [← C80_LMlag_violated x y r h hu W hW hscore]
  obtain ⟨h1, h2, h3⟩ := C80_stacked_partial x y r h hu W
  have hs := s2_pos r hu
  have hnj := nj_eq x y r h hu (wnt W)
  have htp : 0 < tr_t (wnt (t := t) W) := by
    obtain ⟨i, j, hij⟩ := hW
    obtain ⟨⟨s, -⟩, -⟩ := hu
    rw [trw_stacked]
    have hT : (0 : ℝ) < Fintype.card t := by
      have : 0 < Fintype.card t := Fintype.card_pos_iff.mpr ⟨s⟩
      exact_mod_cast this
    have htr : 0 < trw W := by rw [trw_eq]; exact tr_t_pos W i j hij
    positivity
  have hlt : tr_t (wnt (t := t) W) < r.nn * jj r (wnt W) := by
    rw [hnj]
    have : 0 < utu (rm x *ᵥ (wnt (t := t) W *ᵥ r.fit.predy)) :=
      lt_of_le_of_ne (utu_nonneg _) fun h0 => hlag ((utu_eq_zero _).mp h0.symm)
    have := div_pos this hs
    linarith
  have key := sarma_algebra (utwuDs r (wnt W)) (utwyDs r (wnt W)) _ _ htp hlt
  have hk : (rlmLag r (wnt W)).stat + (lmErr r (wnt W)).stat
      = (lmLag r (wnt W)).stat + (rlmErr r (wnt W)).stat := key
  rw [h1, h2, h3]
  constructor
  · intro h4; linarith
  · intro h4; linarith

/-- A concrete violation: two neighbours, one period, a regression on a constant. The trace is 4, the number
of periods 1, and the score is not zero. -/
theorem C80_witness_violated : ∃ (x : Matrix (Fin 1 × Fin 2) Unit ℝ) (y : Fin 1 × Fin 2 → ℝ)
    (r : Reg (Fin 1 × Fin 2) Unit) (W : Matrix (Fin 2) (Fin 2) ℝ), reg x y = some r ∧
    panelLMlag r r.s2 W ≠ (lmLag r (wnt W)).stat := by
  let x : Matrix (Fin 1 × Fin 2) Unit ℝ := Matrix.of fun _ _ => 1
  let y : Fin 1 × Fin 2 → ℝ := fun i => if i.2 = 0 then 0 else 2
  let W : Matrix (Fin 2) (Fin 2) ℝ := !![0, 1; 1, 0]
  have hxx : xᵀ * x = Matrix.of fun _ _ => 2 := by
    ext i j; simp [x, Matrix.mul_apply]
  have hu : IsUnit (xᵀ * x).det := by
    rw [hxx, Matrix.det_unique]; exact isUnit_iff_ne_zero.mpr (by simp)
  obtain ⟨f, hf, hb⟩ := SUR.ols_of_normal x y (fun _ => 1) hu (by
    ext i
    simp [x, y, mulVec, dotProduct, Fintype.sum_prod_type, Fin.sum_univ_two])
  have hfu : ∀ i, f.u i = if i.2 = 0 then -1 else 1 := by
    obtain ⟨-, rfl⟩ := ols_eq_some hf
    intro i
    have : (olsWith x y (xᵀ * x)⁻¹).u = y - x *ᵥ (olsWith x y (xᵀ * x)⁻¹).betas := rfl
    rw [this, hb]
    obtain ⟨a, b⟩ := i
    fin_cases b <;> simp [x, y, mulVec, dotProduct] <;> norm_num
  have hr : reg x y = some { x := x, y := y, fit := f } := by unfold reg; rw [hf]; rfl
  refine ⟨x, y, _, W, hr, ?_⟩
  rw [Ne, C80_LMlag_violated x y _ hr ⟨(0, 0), by rw [hfu]; simp⟩ W ⟨0, 1, by simp [W]⟩ ?_]
  · simp [trw, W, Matrix.mul_apply, Fin.sum_univ_two]; norm_num
  · unfold utwy wnt
    simp only [dotProduct, Fintype.sum_prod_type, hfu, mulVec, kroneckerMap_apply]
    simp [Fin.sum_univ_two, W, y]

/-! ### Hausman -/

/-- C81 fails: the variance of the difference is taken as `V_RE - V_FE`. Whenever random effects are the more
efficient estimator (`V_FE - V_RE` positive semidefinite, the premise of the test) the reported statistic is
minus the Hausman statistic, hence never positive, and the test never rejects. -/
theorem C81_hausman_violated [DecidableEq k] (dfe dre : k → ℝ) (vfe vre : Matrix k k ℝ)
    (heff : SymPSD (vfe - vre)) (h : ℝ) (hh : hausman dfe dre vfe vre = some h) :
    h = -((dfe - dre) ⬝ᵥ ((vfe - vre)⁻¹ *ᵥ (dfe - dre))) ∧ h ≤ 0 := by
  unfold hausman at hh
  simp only [Option.map_eq_some_iff] at hh
  obtain ⟨B, hB, hq⟩ := hh
  obtain ⟨hu, rfl, hl, -⟩ := inv?_eq_some hB
  have hneg : (vre - vfe)⁻¹ = -(vfe - vre)⁻¹ := by
    apply Matrix.inv_eq_right_inv
    have : vre - vfe = -(vfe - vre) := by abel
    rw [this, neg_mul_neg]
    apply mul_nonsing_inv
    have hd : (vre - vfe) = (-1 : ℝ) • (vfe - vre) := by simp
    rw [hd, det_smul] at hu
    exact isUnit_of_mul_isUnit_right hu
  have e : h = -((dfe - dre) ⬝ᵥ ((vfe - vre)⁻¹ *ᵥ (dfe - dre))) := by
    rw [← hq, hneg, neg_mulVec, dotProduct_neg]
  refine ⟨e, ?_⟩
  have hu2 : IsUnit (vfe - vre).det := by
    have hd : (vre - vfe) = (-1 : ℝ) • (vfe - vre) := by simp
    rw [hd, det_smul] at hu
    exact isUnit_of_mul_isUnit_right hu
  have := psd_inv heff (mul_nonsing_inv _ hu2) (dfe - dre)
  rw [e]; linarith

/-- C81: the degrees of freedom exceed the number of compared coefficients by one in both models. -/
theorem C81_df_violated (lag : Bool) (kx : ℕ) : hausmanDf lag kx = hausmanLen lag kx + 1 := by
  cases lag <;> rfl

/-- The hypotheses are met, with a strictly negative statistic: one coefficient, variances 2 and 1. -/
example : hausman (k := Unit) (fun _ => 1) (fun _ => 0) (2 : Matrix Unit Unit ℝ) 1 = some (-1) := by
  have hd : (1 : Matrix Unit Unit ℝ) - 2 = -1 := by norm_num
  unfold hausman
  simp only [hd]
  rw [inv?_of_isUnit (by simp)]
  simp [dotProduct, mulVec]

/-! ### BSK tests -/

/-- C82: the joint statistic is the sum of the squares of the positive parts of the two marginal statistics;
it is never negative. -/
theorem C82_joint (sf : ℝ → ℕ → ℝ) (a b : ℝ) :
    (bskJoint sf a b).1 = max a 0 ^ 2 + max b 0 ^ 2 ∧ 0 ≤ (bskJoint sf a b).1 := by
  have h : (bskJoint sf a b).1 = max a 0 ^ 2 + max b 0 ^ 2 := by
    unfold bskJoint
    rcases le_or_gt a 0 with ha | ha <;> rcases le_or_gt b 0 with hb | hb
    · rw [if_neg (by rintro ⟨h1, -⟩; linarith), if_neg (by rintro ⟨h1, -⟩; linarith),
        if_neg (by rintro ⟨-, h1⟩; linarith), max_eq_right ha, max_eq_right hb]; norm_num
    · rw [if_neg (by rintro ⟨h1, -⟩; linarith), if_neg (by rintro ⟨h1, -⟩; linarith), if_pos ⟨ha, hb⟩,
        max_eq_right ha, max_eq_left hb.le]; norm_num
    · rw [if_neg (by rintro ⟨-, h1⟩; linarith), if_pos ⟨ha, hb⟩, max_eq_left ha.le, max_eq_right hb]
      norm_num
    · rw [if_pos ⟨ha, hb⟩, max_eq_left ha.le, max_eq_left hb.le]
  exact ⟨h, by rw [h]; positivity⟩

/-- C82: the mixture p-value is a probability. -/
theorem C82_joint_p (sf : ℝ → ℕ → ℝ) (hsf : ∀ x d, 0 ≤ sf x d ∧ sf x d ≤ 1) (a b : ℝ) :
    0 ≤ (bskJoint sf a b).2 ∧ (bskJoint sf a b).2 ≤ 1 := by
  unfold bskJoint
  simp only
  split
  · have h1 := hsf (a ^ 2 + b ^ 2) 1
    have h2 := hsf (a ^ 2 + b ^ 2) 2
    constructor <;> norm_num <;> linarith [h1.1, h1.2, h2.1, h2.2]
  · split
    · have h1 := hsf (a ^ 2) 1
      constructor <;> norm_num <;> linarith [h1.1, h1.2]
    · split
      · have h1 := hsf (b ^ 2) 1
        constructor <;> norm_num <;> linarith [h1.1, h1.2]
      · norm_num

/-- C82: `G` lies between -1 and the number of periods minus one. -/
theorem C82_G_range (u : t → n → ℝ) (hu : ∃ s i, u s i ≠ 0) :
    -1 ≤ bskG u ∧ bskG u ≤ Fintype.card t - 1 := by
  obtain ⟨s, i, hsi⟩ := hu
  have hden : 0 < ∑ s, ∑ i, u s i ^ 2 := by
    refine Finset.sum_pos' (fun a _ => Finset.sum_nonneg fun _ _ => sq_nonneg _) ⟨s, Finset.mem_univ _, ?_⟩
    exact Finset.sum_pos' (fun a _ => sq_nonneg _) ⟨i, Finset.mem_univ _, by positivity⟩
  have hnum : 0 ≤ ∑ i, (∑ s, u s i) ^ 2 := Finset.sum_nonneg fun _ _ => sq_nonneg _
  have hle : ∑ i, (∑ s, u s i) ^ 2 ≤ Fintype.card t * ∑ s, ∑ i, u s i ^ 2 := by
    rw [Finset.sum_comm (s := Finset.univ (α := t)), Finset.mul_sum]
    refine Finset.sum_le_sum fun i _ => ?_
    have := sq_sum_le_card_mul_sum_sq (s := (Finset.univ : Finset t)) (f := fun s => u s i)
    rw [Finset.card_univ] at this
    exact this
  unfold bskG
  constructor
  · have := div_nonneg hnum hden.le; linarith
  · have : (∑ i, (∑ s, u s i) ^ 2) / (∑ s, ∑ i, u s i ^ 2) ≤ Fintype.card t := by
      rw [div_le_iff₀ hden]; exact hle
    linarith

/-- C82 fails: asking for the marginal spatial test alone (or for any selection with `LM2` but without `LMJ`
and `LM1`) raises `UnboundLocalError`. -/
theorem C82_LM2_alone_violated (which : Which) (h2 : BSK.LM2 ∈ which.expand)
    (hj : BSK.LMJ ∉ which.expand) (h1 : BSK.LM1 ∉ which.expand) (W : Matrix n n ℝ) (u : t → n → ℝ)
    (sf : ℝ → ℕ → ℝ) (cs cre : ℝ) : bskTests which W u sf cs cre = .error .unboundLocal := by
  unfold bskTests
  have e1 : which.expand.contains BSK.LM1 = false := by simpa using h1
  have ej : which.expand.contains BSK.LMJ = false := by simpa using hj
  have e2 : which.expand.contains BSK.LM2 = true := by simpa using h2
  simp only [e1, ej, e2]
  rfl

example : bskTests (t := Fin 3) (n := Fin 2) (.one .LM2) 0 0 0 0 0 = .error .unboundLocal :=
  C82_LM2_alone_violated _ (by simp [Which.expand]) (by simp [Which.expand]) (by simp [Which.expand]) _ _ _ _ _

/-- C82 (good domain): for at least two periods and any other selection the call succeeds and returns exactly
one row per requested test, in the fixed order LM1, LM2, LMJ, conditional spatial, conditional RE, with the
degrees of freedom 1, 1, 2, 1, 1. -/
theorem C82_rows_partial (which : Which) (hT : Fintype.card t ≠ 1) (W : Matrix n n ℝ) (u : t → n → ℝ)
    (sf : ℝ → ℕ → ℝ) (cs cre : ℝ)
    (hok : BSK.LM2 ∈ which.expand → BSK.LMJ ∈ which.expand ∨ BSK.LM1 ∈ which.expand) :
    ∃ rows, bskTests which W u sf cs cre = .ok rows ∧
      rows.map (fun r => (r.test, r.df)) =
        [(BSK.LM1, 1), (.LM2, 1), (.LMJ, 2), (.LMCspatial, 1), (.LMCre, 1)].filter
          (fun p => which.expand.contains p.1) ∧
      ∀ r ∈ rows, (r.test = .LM1 → .ok r.stat = bskLM1 u) ∧ (r.test = .LM2 → r.stat = bskLM2 W u) ∧
        (r.test = .LMJ → ∃ a, bskLM1 u = .ok a ∧ r.stat = max a 0 ^ 2 + max (bskLM2 W u) 0 ^ 2) := by
  have hlm : ∃ a, bskLM1 u = .ok a := by unfold bskLM1; rw [if_neg hT]; exact ⟨_, rfl⟩
  obtain ⟨a, ha⟩ := hlm
  have hok' : which.expand.contains BSK.LM2 = true →
      which.expand.contains BSK.LMJ = true ∨ which.expand.contains BSK.LM1 = true := by
    intro h; simpa using hok (by simpa using h)
  have hj := (C82_joint sf a (bskLM2 W u)).1
  unfold bskTests
  simp only [ha]
  cases c1 : which.expand.contains BSK.LM1 <;> cases c2 : which.expand.contains BSK.LM2 <;>
    cases cj : which.expand.contains BSK.LMJ <;> cases cs' : which.expand.contains BSK.LMCspatial <;>
    cases cr : which.expand.contains BSK.LMCre <;>
    first
    | (refine ⟨_, rfl, ?_, ?_⟩
       · simp only [List.filter_cons, List.filter_nil, c1, c2, cj, cs', cr]; rfl
       · try simp only [Except.map]
         intro r hr
         simp only [List.mem_append, List.mem_cons, List.not_mem_nil, or_false, false_or, if_true,
           if_false, Bool.false_eq_true, or_assoc] at hr <;>
         first
         | (rcases hr with rfl | rfl | rfl | rfl | rfl <;> simp [hj])
         | (rcases hr with rfl | rfl | rfl | rfl <;> simp [hj])
         | (rcases hr with rfl | rfl | rfl <;> simp [hj])
         | (rcases hr with rfl | rfl <;> simp [hj])
         | (subst hr; simp [hj]))
    | (exfalso; rcases hok' c2 with h | h
       · rw [cj] at h; cases h
       · rw [c1] at h; cases h)

/-- C82: with a single period the default call raises `ZeroDivisionError`. -/
theorem C82_one_period_violated (which : Which) (hT : Fintype.card t = 1)
    (h : BSK.LMJ ∈ which.expand ∨ BSK.LM1 ∈ which.expand) (W : Matrix n n ℝ) (u : t → n → ℝ)
    (sf : ℝ → ℕ → ℝ) (cs cre : ℝ) : bskTests which W u sf cs cre = .error .zeroDivision := by
  have hlm : bskLM1 u = .error .zeroDivision := by unfold bskLM1; rw [if_pos hT]
  have hc : (which.expand.contains BSK.LMJ || which.expand.contains BSK.LM1) = true := by
    rw [Bool.or_eq_true]; simpa using h
  unfold bskTests
  simp only [hlm, hc]
  rfl

/-- C82: for at least two periods the marginal statistic for random effects is, with residuals `u`,
`sqrt(NT / (2(T-1))) (sum_i (sum_t u_it)^2 / sum u^2 - 1)`, and the marginal statistic for spatial errors has the sign of
`u'Wu` and, squared, is the panel LM error statistic with the residual variance `u'u / (NT)`. -/
theorem C82_marginals (r : Reg (t × n) k) (W : Matrix n n ℝ) (hT : Fintype.card t ≠ 1)
    (hW : 0 < trw W) (hu : r.fit.u ≠ 0) :
    bskLM1 (fun s i => r.fit.u (s, i)) = .ok
      (Real.sqrt ((Fintype.card n * Fintype.card t : ℝ) / (2 * (Fintype.card t - 1))) *
        ((∑ i, (∑ s, r.fit.u (s, i)) ^ 2) / (∑ p, r.fit.u p ^ 2) - 1)) ∧
    bskLM2 W (fun s i => r.fit.u (s, i)) ^ 2
      = panelLMerror r ((∑ p, r.fit.u p ^ 2) / (Fintype.card n * Fintype.card t)) W ∧
    (0 < bskLM2 W (fun s i => r.fit.u (s, i)) ↔ 0 < r.fit.u ⬝ᵥ (wnt (t := t) W *ᵥ r.fit.u)) := by
  have hq : ∑ s, ∑ i, r.fit.u (s, i) ^ 2 = ∑ p, r.fit.u p ^ 2 := by rw [Fintype.sum_prod_type]
  have hH : ∑ s, ∑ i, r.fit.u (s, i) * (W *ᵥ fun i => r.fit.u (s, i)) i = r.fit.u ⬝ᵥ (wnt (t := t) W *ᵥ r.fit.u) := by
    rw [dotProduct, Fintype.sum_prod_type]
    refine Finset.sum_congr rfl fun s _ => Finset.sum_congr rfl fun i _ => ?_
    congr 1
    simp only [mulVec, dotProduct, wnt, Fintype.sum_prod_type, kroneckerMap_apply, one_apply]
    rw [Finset.sum_eq_single s]
    · simp
    · intro b _ hb; simp [hb.symm]
    · simp
  obtain ⟨p, hp⟩ := Function.ne_iff.mp hu
  have hpos : 0 < ∑ p, r.fit.u p ^ 2 :=
    Finset.sum_pos' (fun _ _ => sq_nonneg _) ⟨p, Finset.mem_univ _, by
      have : r.fit.u p ≠ 0 := hp
      positivity⟩
  have hT0 : (0 : ℝ) < Fintype.card t := by exact_mod_cast Fintype.card_pos_iff.2 ⟨p.1⟩
  have hN0 : (0 : ℝ) < Fintype.card n := by exact_mod_cast Fintype.card_pos_iff.2 ⟨p.2⟩
  have htr : tr_t W = trw W := by
    unfold tr_t trw
    simp only [Matrix.mul_apply, Matrix.add_apply, add_mul, Finset.sum_add_distrib]
    rw [add_comm]
  refine ⟨?_, ?_, ?_⟩
  · unfold bskLM1 bskG
    rw [if_neg hT, hq]
  · unfold bskLM2 panelLMerror utwu
    simp only
    rw [hq, hH, htr, mul_pow, Real.sq_sqrt (by positivity)]
    field_simp
  · unfold bskLM2
    simp only
    rw [hq, hH, htr]
    have hs : 0 < Real.sqrt ((Fintype.card n : ℝ) ^ 2 * Fintype.card t / trw W) := Real.sqrt_pos.2 (by positivity)
    rw [mul_pos_iff_of_pos_left hs, div_pos_iff_of_pos_right hpos]

end Spreg.DPanel
