import Verif.Props.Probit
import Mathlib.Analysis.SpecialFunctions.Pow.NNReal
/-
C91-C94: prediction table, likelihood ratio test, marginal effects, spatial tests of the probit model.
-/
namespace Spreg.Probit
open Matrix Spreg.Lin

variable {n k : Type} [Fintype n] [Fintype k]

/-! ### C91: prediction table -/

/-- C91: for binary `y` the entries of the table are the numbers of observations in each cell; the cells add up to the
margins and to the number of observations. -/
theorem C91_table (y : n → ℝ) (pb : n → ℕ) (hy : Binary y) (hb : ∀ i, pb i = 1 ∨ pb i = 0) :
    let t := predTable y pb
    (t.truepos = {i | pb i = 1 ∧ y i = 1}.ncard ∧ t.trueneg = {i | pb i = 0 ∧ y i = 0}.ncard ∧
      t.falsepos = {i | pb i = 1 ∧ y i = 0}.ncard ∧ t.falseneg = {i | pb i = 0 ∧ y i = 1}.ncard ∧
      t.actpos = {i | y i = 1}.ncard ∧ t.actneg = {i | y i = 0}.ncard ∧
      t.predpos = {i | pb i = 1}.ncard ∧ t.predneg = {i | pb i = 0}.ncard) ∧
    t.actpos = t.truepos + t.falseneg ∧ t.actneg = t.trueneg + t.falsepos ∧
    t.predpos = t.truepos + t.falsepos ∧ t.predneg = t.trueneg + t.falseneg ∧
    t.truepos + t.trueneg + t.falsepos + t.falseneg = Fintype.card n := by
  classical
  have key : ∀ (P : n → Prop) [DecidablePred P], ({i | P i} : Set n).ncard = ∑ i, if P i then 1 else 0 := by
    intro P _
    rw [Set.ncard_eq_toFinset_card', Set.toFinset_setOf, Finset.card_filter]
  have keyR : ∀ (P : n → Prop) [DecidablePred P], ((({i | P i} : Set n).ncard : ℕ) : ℝ) = ∑ i, if P i then (1 : ℝ) else 0 := by
    intro P _; rw [key]; push_cast; rfl
  have hcard : (Fintype.card n : ℝ) = ∑ _i : n, (1 : ℝ) := by simp
  have hcardZ : (Fintype.card n : ℤ) = ∑ _i : n, (1 : ℤ) := by simp
  have hcardN : Fintype.card n = ∑ _i : n, 1 := by simp
  have e1 : ∑ i, y i = ∑ i, if y i = 1 then (1 : ℝ) else 0 :=
    Finset.sum_congr rfl fun i _ => by rcases hy i with h | h <;> simp [h]
  have e2 : (Fintype.card n : ℝ) - ∑ i, y i = ∑ i, if y i = 0 then (1 : ℝ) else 0 := by
    rw [hcard, ← Finset.sum_sub_distrib]
    exact Finset.sum_congr rfl fun i _ => by rcases hy i with h | h <;> simp [h]
  have e3 : ∑ i, pb i = ∑ i, if pb i = 1 then 1 else 0 :=
    Finset.sum_congr rfl fun i _ => by rcases hb i with h | h <;> simp [h]
  have e4 : (Fintype.card n : ℤ) - (∑ i, pb i : ℕ) = ∑ i, if pb i = 0 then (1 : ℤ) else 0 := by
    rw [hcardZ]; push_cast; rw [← Finset.sum_sub_distrib]
    exact Finset.sum_congr rfl fun i _ => by rcases hb i with h | h <;> simp [h]
  have m : ∀ (P Q : n → Prop) [DecidablePred P] [DecidablePred Q],
      ∑ i, ((if P i then 1 else 0) * (if Q i then 1 else 0) : ℕ) = ∑ i, if P i ∧ Q i then 1 else 0 := by
    intro P Q _ _
    exact Finset.sum_congr rfl fun i _ => by by_cases h1 : P i <;> by_cases h2 : Q i <;> simp [h1, h2]
  intro t
  refine ⟨?_, ?_, ?_, ?_, ?_, ?_⟩
  · refine ⟨?_, ?_, ?_, ?_, ?_, ?_, ?_, ?_⟩
    · rw [key]; exact m (fun i => pb i = 1) (fun i => y i = 1)
    · rw [key]; exact m (fun i => pb i = 0) (fun i => y i = 0)
    · rw [key]; exact m (fun i => pb i = 1) (fun i => y i = 0)
    · rw [key]; exact m (fun i => pb i = 0) (fun i => y i = 1)
    · rw [keyR]; exact e1
    · rw [keyR]; exact e2
    · rw [key]; exact e3
    · rw [key]; push_cast; exact e4
  · show ∑ i, y i = _
    simp only [t, predTable, m]
    rw [e1]; push_cast; rw [← Finset.sum_add_distrib]
    exact Finset.sum_congr rfl fun i _ => by
      rcases hb i with h | h <;> by_cases h1 : y i = 1 <;> simp [h, h1]
  · show (Fintype.card n : ℝ) - ∑ i, y i = _
    simp only [t, predTable, m]
    rw [e2]; push_cast; rw [← Finset.sum_add_distrib]
    exact Finset.sum_congr rfl fun i _ => by
      rcases hb i with h | h <;> by_cases h1 : y i = 0 <;> simp [h, h1]
  · show ∑ i, pb i = _
    simp only [t, predTable, m]
    rw [← Finset.sum_add_distrib]
    exact Finset.sum_congr rfl fun i _ => by
      rcases hb i with h | h <;> rcases hy i with h1 | h1 <;> simp [h, h1]
  · show (Fintype.card n : ℤ) - (∑ i, pb i : ℕ) = _
    simp only [t, predTable, m]
    rw [e4]; push_cast; rw [← Finset.sum_add_distrib]
    exact Finset.sum_congr rfl fun i _ => by
      rcases hb i with h | h <;> rcases hy i with h1 | h1 <;> simp [h, h1]
  · simp only [t, predTable, m]
    rw [← Finset.sum_add_distrib, ← Finset.sum_add_distrib, ← Finset.sum_add_distrib, hcardN]
    exact Finset.sum_congr rfl fun i _ => by
      rcases hb i with h | h <;> rcases hy i with h1 | h1 <;> simp [h, h1]

/-- C91: when both classes occur, the fit measures are percentages, and the percentage correctly predicted is the mean of
sensitivity and specificity weighted by the class sizes. -/
theorem C91_fit (y : n → ℝ) (pb : n → ℕ) (hy : Binary y) (hb : ∀ i, pb i = 1 ∨ pb i = 0)
    (h1 : ∃ i, y i = 1) (h0 : ∃ i, y i = 0) :
    let t := predTable y pb
    let f := probitFit (Fintype.card n) t
    (0 ≤ f.TPR ∧ f.TPR ≤ 100) ∧ (0 ≤ f.TNR ∧ f.TNR ≤ 100) ∧ (0 ≤ f.BA ∧ f.BA ≤ 100) ∧
    (0 ≤ f.PREDPC ∧ f.PREDPC ≤ 100) ∧
    f.PREDPC * Fintype.card n = f.TPR * t.actpos + f.TNR * t.actneg ∧
    (f.PREDPC = 100 ↔ ∀ i, (pb i : ℝ) = y i) := by
  intro t f
  obtain ⟨hc, a1, a2, -, -, a5⟩ := C91_table y pb hy hb
  obtain ⟨-, -, c3, c4, c5, c6, -, -⟩ := hc
  have hp : 0 < t.actpos := by
    rw [c5]; exact_mod_cast (Set.ncard_pos (Set.toFinite _)).2 h1
  have hn : 0 < t.actneg := by
    rw [c6]; exact_mod_cast (Set.ncard_pos (Set.toFinite _)).2 h0
  have hN : (0 : ℝ) < Fintype.card n := by
    obtain ⟨i, -⟩ := h1; exact_mod_cast Fintype.card_pos_iff.2 ⟨i⟩
  have a5' : (t.truepos : ℝ) + t.trueneg + t.falsepos + t.falseneg = Fintype.card n := by exact_mod_cast a5
  have b1 : f.TPR = 100 * t.truepos / t.actpos := rfl
  have b2 : f.TNR = 100 * t.trueneg / t.actneg := rfl
  have b3 : f.BA = (f.TPR + f.TNR) / 2 := rfl
  have b4 : f.PREDPC = 100 * (t.truepos + t.trueneg) / Fintype.card n := rfl
  have tp : 0 ≤ f.TPR ∧ f.TPR ≤ 100 := by
    rw [b1]
    refine ⟨by positivity, ?_⟩
    rw [div_le_iff₀ hp]
    have : (0 : ℝ) ≤ t.falseneg := by positivity
    have e : t.actpos = t.truepos + t.falseneg := a1
    rw [e]; linarith
  have tn : 0 ≤ f.TNR ∧ f.TNR ≤ 100 := by
    rw [b2]
    refine ⟨by positivity, ?_⟩
    rw [div_le_iff₀ hn]
    have : (0 : ℝ) ≤ t.falsepos := by positivity
    have e : t.actneg = t.trueneg + t.falsepos := a2
    rw [e]; linarith
  have hfp : (0 : ℝ) ≤ t.falsepos := by positivity
  have hfn : (0 : ℝ) ≤ t.falseneg := by positivity
  refine ⟨tp, tn, ⟨by rw [b3]; linarith [tp.1, tn.1], by rw [b3]; linarith [tp.2, tn.2]⟩, ⟨?_, ?_⟩, ?_, ?_⟩
  · rw [b4]; positivity
  · rw [b4, div_le_iff₀ hN, ← a5']; linarith
  · rw [b4, b1, b2]; field_simp
  · rw [b4, div_eq_iff hN.ne', ← a5']
    have hz : 100 * ((t.truepos : ℝ) + t.trueneg) = 100 * (t.truepos + t.trueneg + t.falsepos + t.falseneg) ↔
        t.falsepos = 0 ∧ t.falseneg = 0 := by
      constructor
      · intro h
        have h2 : (t.falsepos : ℝ) = 0 := by linarith
        have h3 : (t.falseneg : ℝ) = 0 := by linarith
        exact ⟨by exact_mod_cast h2, by exact_mod_cast h3⟩
      · rintro ⟨h2, h3⟩; rw [h2, h3]; push_cast; ring
    rw [hz, c3, c4, Set.ncard_eq_zero (Set.toFinite _), Set.ncard_eq_zero (Set.toFinite _),
      Set.eq_empty_iff_forall_notMem, Set.eq_empty_iff_forall_notMem]
    constructor
    · rintro ⟨h2, h3⟩ i
      have h2i := h2 i
      have h3i := h3 i
      simp only [Set.mem_setOf_eq, not_and] at h2i h3i
      rcases hb i with h | h <;> rcases hy i with h4 | h4
      · exact absurd h4 (h2i h)
      · rw [h, h4]; norm_num
      · rw [h, h4]; norm_num
      · exact absurd h4 (h3i h)
    · intro h
      constructor <;> intro i <;> simp only [Set.mem_setOf_eq, not_and] <;> intro h5 h6 <;> have := h i <;>
        rw [h5, h6] at this <;> norm_num at this

/-- C91 fails when `y` is not coded 0/1, which `Probit` accepts: with the codes 1 and 2 the number of actual negatives is
negative and the cells do not add up to the number of observations. -/
theorem C91_coding_violated (pb : Fin 2 → ℕ) :
    (predTable ![1, 2] pb).actneg = -1 ∧ (predTable ![1, 2] pb).actpos = 3 ∧
    (predTable ![1, 2] pb).truepos + (predTable ![1, 2] pb).trueneg + (predTable ![1, 2] pb).falsepos +
      (predTable ![1, 2] pb).falseneg < 2 := by
  refine ⟨?_, ?_, ?_⟩
  · simp [predTable, Fin.sum_univ_two]
  · simp [predTable, Fin.sum_univ_two]; norm_num
  · simp [predTable, Fin.sum_univ_two]
    split <;> split <;> simp_all

/-! ### C92: likelihood ratio -/

theorem ll_le_zero (x : Matrix n k ℝ) (y : n → ℝ) (b : k → ℝ) : ll x y b ≤ 0 :=
  Finset.sum_nonpos fun _ _ => Real.log_nonpos (Phi_pos _).le (Phi_lt_one _).le

theorem ll_neg [Nonempty n] (x : Matrix n k ℝ) (y : n → ℝ) (b : k → ℝ) : ll x y b < 0 :=
  Finset.sum_neg (fun _ _ => Real.log_neg (Phi_pos _) (Phi_lt_one _)) Finset.univ_nonempty

/-- The value `L0` is the log-likelihood of a constant index. -/
theorem L0_eq (x : Matrix n k ℝ) (y : n → ℝ) (hy : Binary y) (h1 : ∃ i, y i = 1) (h0 : ∃ i, y i = 0)
    (j : k) (hj : ∀ i, x i j = 1) [DecidableEq k] :
    ∃ c, ll x y (Pi.single j c) = L0 y ∧ Phi c = (∑ i, y i) / Fintype.card n := by
  obtain ⟨i1, hi1⟩ := h1
  obtain ⟨i0, hi0⟩ := h0
  have hN : (0 : ℝ) < Fintype.card n := by exact_mod_cast Fintype.card_pos_iff.2 ⟨i1⟩
  have hy0 : ∀ i, 0 ≤ y i := fun i => by rcases hy i with h | h <;> rw [h] <;> norm_num
  have hy1 : ∀ i, y i ≤ 1 := fun i => by rcases hy i with h | h <;> rw [h] <;> norm_num
  have hpos : 0 < ∑ i, y i :=
    Finset.sum_pos' (fun i _ => hy0 i) ⟨i1, Finset.mem_univ _, by rw [hi1]; norm_num⟩
  have hlt : ∑ i, y i < Fintype.card n := by
    have : ∑ i, y i < ∑ _i : n, (1 : ℝ) :=
      Finset.sum_lt_sum (fun i _ => hy1 i) ⟨i0, Finset.mem_univ _, by rw [hi0]; norm_num⟩
    simpa using this
  obtain ⟨c, hc⟩ := Phi_surj (p := (∑ i, y i) / Fintype.card n) (by positivity) ((div_lt_one hN).2 hlt)
  refine ⟨c, ?_, hc⟩
  have hxb : ∀ i, (x *ᵥ Pi.single j c) i = c := fun i => by
    simp [mulVec_single, hj i]
  unfold ll L0
  simp only [hxb]
  have ht : ∀ i, Real.log (Phi (sgn y i * c)) = y i * Real.log (Phi c) + (1 - y i) * Real.log (1 - Phi c) := by
    intro i
    rcases hy i with h | h
    · simp [sgn, h, Phi_neg]
    · have : sgn y i = 1 := by simp [sgn, h]; norm_num
      rw [this, h]; simp
  simp only [ht]
  rw [Finset.sum_add_distrib, ← Finset.sum_mul, ← Finset.sum_mul, Finset.sum_sub_distrib, hc]
  simp only [Finset.sum_const, Finset.card_univ, nsmul_eq_mul, mul_one]
  field_simp

/-- C92: at the maximum, with a constant among the regressors and both classes present, the likelihood ratio statistic is
nonnegative, and McFadden's rho is in `[0, 1)`; `L0` is the maximum of the log-likelihood of the model with only a
constant. -/
theorem C92_lr [DecidableEq k] (x : Matrix n k ℝ) (y : n → ℝ) (hy : Binary y) (h1 : ∃ i, y i = 1) (h0 : ∃ i, y i = 0)
    (j : k) (hj : ∀ i, x i j = 1) (f : Fit n k) (hl : f.logl = ll x y f.betas)
    (hm : ∀ b, ll x y b ≤ ll x y f.betas) :
    0 ≤ (lrtest y f).1 ∧ 0 ≤ mcfadRho y f ∧ mcfadRho y f < 1 ∧
    IsGreatest (Set.range fun c : ℝ => ll x y (Pi.single j c)) (L0 y) := by
  obtain ⟨c, hc, hP⟩ := L0_eq x y hy h1 h0 j hj
  haveI : Nonempty n := ⟨h1.choose⟩
  have a1 : L0 y ≤ f.logl := by rw [hl, ← hc]; exact hm _
  have a2 : f.logl < 0 := by rw [hl]; exact ll_neg x y _
  have a3 : L0 y < 0 := by linarith
  refine ⟨by unfold lrtest; simp only; linarith, ?_, ?_, ⟨⟨c, hc⟩, ?_⟩⟩
  · unfold mcfadRho
    have : f.logl / L0 y ≤ 1 := by rw [div_le_one_of_neg a3]; exact a1
    linarith
  · unfold mcfadRho
    have : 0 < f.logl / L0 y := div_pos_of_neg_of_neg a2 a3
    linarith
  · rintro _ ⟨c', rfl⟩
    simp only
    rw [← hc]
    have ht := (ll_tangent x y hy (Pi.single j c) (Pi.single j c')).1
    have hg : gradient x y (Pi.single j c) ⬝ᵥ (Pi.single j c' - Pi.single j c) = 0 := by
      rw [← Pi.single_sub, dotProduct_single]
      have hxb : ∀ i, (x *ᵥ Pi.single j c) i = c := fun i => by simp [mulVec_single, hj i]
      have hlam : ∀ i, lamb x y (Pi.single j c) i = phi c * ((y i - Phi c) / (Phi c * (1 - Phi c))) := by
        intro i
        rw [← gen_resid hy, hxb]
      have : gradient x y (Pi.single j c) j = 0 := by
        have h2 : gradient x y (Pi.single j c) j = ∑ i, lamb x y (Pi.single j c) i * x i j := rfl
        rw [h2]
        simp only [hj, mul_one, hlam]
        rw [← Finset.mul_sum, ← Finset.sum_div, Finset.sum_sub_distrib, hP]
        have hN : (Fintype.card n : ℝ) ≠ 0 := by exact_mod_cast Fintype.card_ne_zero
        simp only [Finset.sum_const, Finset.card_univ, nsmul_eq_mul]
        rw [mul_div_cancel₀ _ hN, sub_self, zero_div, mul_zero]
      rw [this, zero_mul]
    linarith

/-- C92 fails for the degrees of freedom: the restricted model of the likelihood ratio test has one parameter, the constant,
so a model with the constant and `s` further regressors has `s` restrictions; the code uses `s + 1`. In particular the
constant-only model is tested against itself with one degree of freedom. -/
theorem C92_df_violated {s : Type} [Fintype s] (y : n → ℝ) (f : Fit n (Unit ⊕ s)) :
    (lrtest y f).2 = Fintype.card s + 1 := by
  unfold lrtest; simp [add_comm]

/-! ### C93: marginal effects -/

/-- Matrix of partial derivatives of a function of the coefficients. -/
def IsJacobian {s : Type} [DecidableEq k] (g : (k → ℝ) → s → ℝ) (b : k → ℝ) (D : Matrix s k ℝ) : Prop :=
  ∀ j l, HasDerivAt (fun t : ℝ => g (b + t • Pi.single l 1) j) (D j l) 0

theorem psd_sub {s : Type} [Fintype s] [DecidableEq s] {A : Matrix (Unit ⊕ s) (Unit ⊕ s) ℝ} (h : SymPSD A) :
    SymPSD (Matrix.of fun i j : s => A (.inr i) (.inr j)) := by
  refine ⟨?_, fun v => ?_⟩
  · ext i j
    have := congrFun (congrFun h.1 (.inr i)) (.inr j)
    exact this
  · have := h.2 (Sum.elim 0 v)
    simpa [dotProduct, mulVec, Fintype.sum_sum_type] using this

/-- C93: whatever the scale, the slopes are coefficients times the scale, their variance matrix is symmetric positive
semidefinite and the standard errors are the roots of its diagonal; an unknown `scalem` raises `UnboundLocalError`. -/
theorem C93_variance {s : Type} [Fintype s] [DecidableEq s] (sm : ScaleM) (x : Matrix n (Unit ⊕ s) ℝ) (y : n → ℝ)
    (hy : Binary y) (o : Optim (Unit ⊕ s)) (bs : Option (Unit ⊕ s → ℝ)) (mi : ℕ) (f : Fit n (Unit ⊕ s))
    (h : baseProbit x y o bs mi = .ok f) :
    (sm = .other → probitApe sm x f = .error .unboundLocal) ∧
    (sm ≠ .other → ∃ a, probitApe sm x f = .ok a ∧ (∀ j, a.slopes j = f.betas (.inr j) * a.scale) ∧ SymPSD a.vm ∧
      ∀ j, a.stdErr j ^ 2 = a.vm j j) := by
  have hv := C88_variance x y hy o bs mi f h
  have hpsd : SymPSD f.vm := ⟨hv.1, fun v => by
    by_cases hv0 : v = 0
    · rw [hv0]; simp
    · rw [quad_eq]; exact (hv.2 v hv0).le⟩
  constructor
  · rintro rfl; rfl
  · intro hsm
    have key : ∀ c : ℝ, ∀ D : Matrix (Unit ⊕ s) (Unit ⊕ s) ℝ, SymPSD (Matrix.of fun i j : s =>
        ((c ^ 2) • (D * f.vm * Dᵀ)) (.inr i) (.inr j)) := by
      intro c D
      apply psd_sub
      rw [Matrix.mul_assoc]
      exact psd_smul (psd_conj hpsd D) _ (sq_nonneg c)
    have key2 : ∀ c : ℝ, ∀ D : Matrix (Unit ⊕ s) (Unit ⊕ s) ℝ, ∀ j : s,
        0 ≤ ((c ^ 2) • (D * f.vm * Dᵀ)) (.inr j) (.inr j) := by
      intro c D j
      have h := (key c D).2 (Pi.single j 1)
      rw [quad_eq, mulVec_single_one, single_one_dotProduct] at h
      exact h
    cases sm with
    | other => exact absurd rfl hsm
    | xmean =>
      refine ⟨_, rfl, fun j => rfl, key _ _, fun j => ?_⟩
      exact Real.sq_sqrt (key2 _ _ j)
    | phimean =>
      refine ⟨_, rfl, fun j => rfl, key _ _, fun j => ?_⟩
      exact Real.sq_sqrt (key2 _ _ j)

/-- C93: the two scales: the density at the means of the regressors, and the mean of the densities. -/
theorem C93_scales {s : Type} [Fintype s] [DecidableEq s] (x : Matrix n (Unit ⊕ s) ℝ) (y : n → ℝ)
    (o : Optim (Unit ⊕ s)) (bs : Option (Unit ⊕ s → ℝ)) (mi : ℕ) (f : Fit n (Unit ⊕ s))
    (h : baseProbit x y o bs mi = .ok f) :
    (∀ a, probitApe .xmean x f = .ok a → ∀ j, a.slopes j =
      f.betas (.inr j) * phi (∑ l, (∑ i, x i l) / Fintype.card n * f.betas l)) ∧
    (∀ a, probitApe .phimean x f = .ok a → ∀ j, a.slopes j =
      f.betas (.inr j) * ((∑ i, phi (∑ l, x i l * f.betas l)) / Fintype.card n)) := by
  refine ⟨fun a ha j => ?_, fun a ha j => ?_⟩
  · cases ha; rfl
  · cases ha
    obtain ⟨-, -, -, -, -, -, -, -, -, -, this, -⟩ := baseProbit_ok h
    show f.betas (.inr j) * ((∑ i, f.phiy i) / Fintype.card n) = _
    rw [this]
    rfl

theorem xmean_line {s : Type} [Fintype s] (xm b v : s → ℝ) (t : ℝ) :
    xm ⬝ᵥ (b + t • v) = xm ⬝ᵥ b + t * (xm ⬝ᵥ v) := by
  rw [dotProduct_add, dotProduct_smul, smul_eq_mul]

/-- C93 (partial): with `scalem="xmean"` the reported variance matrix is the delta-method variance of the slopes
`beta_j phi(xmean'beta)`. Missing: the default `scalem="phimean"`, see `C93_phimean_violated`. -/
theorem C93_delta_partial {s : Type} [Fintype s] [DecidableEq s] (x : Matrix n (Unit ⊕ s) ℝ) (f : Fit n (Unit ⊕ s))
    (a : Ape s) (h : probitApe .xmean x f = .ok a) :
    (∀ j, a.slopes j = f.betas (.inr j) * phi (xmean x ⬝ᵥ f.betas)) ∧
    ∃ D : Matrix s (Unit ⊕ s) ℝ,
      IsJacobian (fun b j => b (.inr j) * phi (xmean x ⬝ᵥ b)) f.betas D ∧ a.vm = D * f.vm * Dᵀ := by
  unfold probitApe at h
  simp only [scaleOf, bind, Except.bind, pure, Except.pure, Except.ok.injEq] at h
  subst h
  refine ⟨fun j => rfl, ?_⟩
  set c := phi (xmean x ⬝ᵥ f.betas) with hc
  set M : Matrix (Unit ⊕ s) (Unit ⊕ s) ℝ :=
    1 - (xmean x ⬝ᵥ f.betas) • Matrix.of fun i j => f.betas i * xmean x j with hM
  refine ⟨Matrix.of fun j l => c * M (.inr j) l, ?_, ?_⟩
  · intro j l
    have h1 : HasDerivAt (fun t : ℝ => xmean x ⬝ᵥ (f.betas + t • Pi.single l 1)) (xmean x l) 0 := by
      simp only [xmean_line]
      have := ((hasDerivAt_id (0 : ℝ)).mul_const (xmean x ⬝ᵥ Pi.single l 1)).const_add (xmean x ⬝ᵥ f.betas)
      simpa using this
    have h2 := (phi_hasDeriv (xmean x ⬝ᵥ (f.betas + (0 : ℝ) • Pi.single l 1))).comp 0 h1
    rw [zero_smul, add_zero] at h2
    have h3 : HasDerivAt (fun t : ℝ => (f.betas + t • (Pi.single l 1 : Unit ⊕ s → ℝ)) (.inr j))
        ((1 : Matrix (Unit ⊕ s) (Unit ⊕ s) ℝ) (.inr j) l) 0 := by
      have := ((hasDerivAt_id (0 : ℝ)).mul_const ((Pi.single l 1 : Unit ⊕ s → ℝ) (.inr j))).const_add (f.betas (.inr j))
      have e : (Pi.single l 1 : Unit ⊕ s → ℝ) (.inr j) = (1 : Matrix (Unit ⊕ s) (Unit ⊕ s) ℝ) (.inr j) l := by
        rw [one_apply, Pi.single_apply]
      rw [e] at this
      simp only [one_mul] at this
      refine this.congr_of_eventuallyEq (Filter.Eventually.of_forall fun t => ?_)
      simp only [Pi.add_apply, Pi.smul_apply, smul_eq_mul, e, id_eq]
    have h4 := h3.mul h2
    refine h4.congr_deriv ?_
    simp only [zero_smul, add_zero, Function.comp, of_apply, hM, Matrix.sub_apply, Matrix.smul_apply, smul_eq_mul]
    rw [← hc]
    ring
  · ext i j
    have e : ∀ i j, (M * f.vm * Mᵀ) i j = ∑ b, (∑ a, M i a * f.vm a b) * M j b := fun i j => by
      simp [mul_apply]
    simp only [of_apply, Matrix.smul_apply, smul_eq_mul, e]
    simp only [mul_apply, transpose_apply, of_apply, Finset.mul_sum, Finset.sum_mul]
    exact Finset.sum_congr rfl fun b _ => Finset.sum_congr rfl fun a _ => by ring

end Spreg.Probit
