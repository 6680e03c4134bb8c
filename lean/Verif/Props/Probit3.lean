import Verif.Props.Probit2
import Mathlib.Analysis.Real.Pi.Bounds
/-
C93 (default scale), C94: spatial tests of the probit model.
-/
namespace Spreg.Probit
open Matrix Spreg.Lin Spreg.LM

variable {n k : Type} [Fintype n] [Fintype k]

/-! ### C93: the default scale -/

/-- 1/10 < phi(1) -/
theorem phi_one : 1 / 10 < phi 1 := by
  unfold phi
  have h1 : Real.sqrt (2 * Real.pi) < 3 := by
    rw [Real.sqrt_lt' (by norm_num)]
    have := Real.pi_lt_d2; norm_num at this ⊢; linarith
  have h0 : 0 < Real.sqrt (2 * Real.pi) := Real.sqrt_pos.2 (by positivity)
  have h2 : (1 : ℝ) / 2 ≤ Real.exp (-1 ^ 2 / 2) := by
    have := Real.add_one_le_exp (-1 ^ 2 / 2 : ℝ); norm_num at this ⊢; linarith
  have h3 : (3 : ℝ)⁻¹ < (Real.sqrt (2 * Real.pi))⁻¹ := inv_strictAnti₀ h0 h1
  have h4 : (0 : ℝ) < Real.exp (-1 ^ 2 / 2) := Real.exp_pos _
  nlinarith

theorem Phi_one : 3 / 5 < Phi 1 := by
  obtain ⟨c, hc, he⟩ := exists_hasDerivAt_eq_slope Phi phi (show (0 : ℝ) < 1 by norm_num) Phi_continuous.continuousOn
    fun z _ => Phi_hasDeriv z
  rw [Phi_zero] at he
  have h1 : phi 1 ≤ phi c := by
    unfold phi
    have h0 : 0 < Real.sqrt (2 * Real.pi) := Real.sqrt_pos.2 (by positivity)
    refine mul_le_mul_of_nonneg_left (Real.exp_le_exp.2 ?_) (inv_pos.2 h0).le
    have := hc.1; have := hc.2
    nlinarith
  have h2 := phi_one
  norm_num at he
  linarith

/-- The design of the counterexample: a constant and a regressor that is 1 or -1, five observations each. -/
def cxX : Matrix (Bool × Fin 5) (Unit ⊕ Unit) ℝ := Matrix.of fun i j =>
  match j with
  | .inl _ => 1
  | .inr _ => if i.1 then 1 else -1

/-- Three successes out of five where the regressor is 1, two out of five where it is -1. -/
def cxY : Bool × Fin 5 → ℝ := fun i => if i.1 then (if i.2 < 3 then 1 else 0) else (if i.2 < 3 then 0 else 1)

/-- C93 fails for the default `scalem="phimean"`: there is a converged fit (no warning, exact maximum) whose slope is
`beta_1 mean(phi(x'beta))`, and whose reported variance is not the delta-method variance `D V D'` for the derivative `D` of
that slope: the code multiplies the derivative that belongs to `scalem="xmean"` by the mean density. -/
theorem C93_phimean_violated : ∃ (b : ℝ) (f : Fit (Bool × Fin 5) (Unit ⊕ Unit)) (a : Ape Unit),
    baseProbit cxX cxY .newton (some (Sum.elim 0 fun _ => b)) 100 = .ok f ∧ f.warning = false ∧
    (∀ b', ll cxX cxY b' ≤ ll cxX cxY f.betas) ∧ probitApe .phimean cxX f = .ok a ∧
    (∀ j, a.slopes j = f.betas (.inr j) * ((∑ i, phi ((cxX *ᵥ f.betas) i)) / 10)) ∧
    ∃ D : Matrix Unit (Unit ⊕ Unit) ℝ,
      IsJacobian (fun c j => c (.inr j) * ((∑ i, phi ((cxX *ᵥ c) i)) / 10)) f.betas D ∧ a.vm ≠ D * f.vm * Dᵀ := by
  obtain ⟨b, hb⟩ := Phi_surj (p := 3 / 5) (by norm_num) (by norm_num)
  have hb0 : 0 < b := Phi_strictMono.lt_iff_lt.1 (by rw [Phi_zero, hb]; norm_num)
  have hb1 : b < 1 := Phi_strictMono.lt_iff_lt.1 (by rw [hb]; exact Phi_one)
  set B : Unit ⊕ Unit → ℝ := Sum.elim 0 fun _ => b with hB
  have hy : Binary cxY := by
    rintro ⟨c, j⟩
    cases c <;> simp only [cxY] <;> by_cases h : j < 3 <;> simp [h]
  have hmul : ∀ (v : Unit ⊕ Unit → ℝ) (i : Bool × Fin 5),
      (cxX *ᵥ v) i = v (.inl ()) + (if i.1 then 1 else -1) * v (.inr ()) := by
    intro v i
    simp [mulVec, dotProduct, cxX, Fintype.sum_sum_type]
  have hr : FullRank cxX := by
    intro v hv
    have h1 := congrFun hv (true, 0)
    have h2 := congrFun hv (false, 0)
    rw [hmul] at h1 h2
    simp at h1 h2
    funext j
    rcases j with j | j
    · show v (.inl ()) = 0; linarith
    · show v (.inr ()) = 0; linarith
  have hxb : ∀ i, (cxX *ᵥ B) i = (if i.1 then 1 else -1) * b := by
    intro i; rw [hmul]; simp [hB]
  have hsum : ∀ g : Bool × Fin 5 → ℝ, ∑ i, g i = ∑ j, g (true, j) + ∑ j, g (false, j) := by
    intro g; rw [Fintype.sum_prod_type, Fintype.sum_bool]
  have hbn : Phi (-b) = 2 / 5 := by rw [Phi_neg, hb]; norm_num
  have hlam : ∀ i, lamb cxX cxY B i = phi b * ((cxY i - Phi ((if i.1 then 1 else -1) * b)) / (6 / 25)) := by
    rintro ⟨c, j⟩
    rw [← gen_resid hy, hxb]
    cases c
    · simp only [Bool.false_eq_true, if_false, neg_one_mul, phi_neg, hbn]; norm_num
    · simp only [if_true, one_mul, hb]; norm_num
  have hg : gradient cxX cxY B = 0 := by
    funext l
    have h2 : gradient cxX cxY B l = ∑ i, lamb cxX cxY B i * cxX i l := rfl
    rw [h2, hsum]
    simp only [hlam]
    have d0 : (0 : Fin 5) < 3 := by decide
    have d1 : (1 : Fin 5) < 3 := by decide
    have d2 : (2 : Fin 5) < 3 := by decide
    have d3 : ¬ (3 : Fin 5) < 3 := by decide
    have d4 : ¬ (4 : Fin 5) < 3 := by decide
    rcases l with l | l
    · simp only [cxX, of_apply, cxY, if_true, Bool.false_eq_true, if_false, one_mul, neg_one_mul, hb, hbn,
        Fin.sum_univ_five, d0, d1, d2, d3, d4, Pi.zero_apply]
      ring
    · simp only [cxX, of_apply, cxY, if_true, Bool.false_eq_true, if_false, one_mul, neg_one_mul, hb, hbn,
        Fin.sum_univ_five, d0, d1, d2, d3, d4, Pi.zero_apply]
      ring
  obtain ⟨f, hf⟩ := C89_total cxX cxY hy hr (some B) 100
  obtain ⟨e1, e2⟩ := C89_fixed_point cxX cxY B 99 f hg hf
  obtain ⟨p, wn, -, -, -, -, -, -, -, -, hphi, -⟩ := baseProbit_ok hf
  have hwf : f.warning = false := by
    cases h : f.warning with
    | false => rfl
    | true => have := e2.1 h; omega
  have hv := C88_variance cxX cxY hy _ _ _ f hf
  have hph : ∀ i, phi ((cxX *ᵥ f.betas) i) = phi b := by
    intro i
    rw [e1, hxb]
    cases i.1
    · simp only [Bool.false_eq_true, if_false, neg_one_mul, phi_neg]
    · simp only [if_true, one_mul]
  have hmean : (∑ i, phi ((cxX *ᵥ f.betas) i)) / 10 = phi b := by
    simp only [hph]
    simp
    try ring
  have hcard : (Fintype.card (Bool × Fin 5) : ℝ) = 10 := by simp
  have hxm : xmean cxX ⬝ᵥ f.betas = 0 := by
    rw [e1]
    simp [xmean, dotProduct, Fintype.sum_sum_type, hB, hsum, cxX]
  obtain ⟨-, hape⟩ := C93_variance .phimean cxX cxY hy _ _ _ f hf
  obtain ⟨a, ha, hsl, -, -⟩ := hape (by decide)
  have hvm : a.vm () () = phi b ^ 2 * f.vm (.inr ()) (.inr ()) := by
    unfold probitApe at ha
    simp only [scaleOf, bind, Except.bind, pure, Except.pure, Except.ok.injEq] at ha
    subst ha
    simp only [hxm, zero_smul, sub_zero, Matrix.one_mul, transpose_one, Matrix.mul_one, of_apply, Matrix.smul_apply,
      smul_eq_mul, hcard]
    rw [hphi, hmean]
  have hscale : a.scale = phi b := by
    unfold probitApe at ha
    simp only [scaleOf, bind, Except.bind, pure, Except.pure, Except.ok.injEq] at ha
    subst ha
    simp only [hcard]
    rw [hphi, hmean]
  refine ⟨b, f, a, hf, hwf, ?_, ha, ?_, ?_⟩
  · rw [e1]; exact (C88_stationary_iff_max cxX cxY hy B).1 hg
  · intro j; rw [hmean, hsl, hscale]
  · refine ⟨Matrix.of fun _ l => Sum.elim (fun _ => 0) (fun _ => phi b * (1 - b ^ 2)) l, ?_, ?_⟩
    · intro j l
      have hd : ∀ i : Bool × Fin 5, HasDerivAt (fun t : ℝ => phi ((cxX *ᵥ (f.betas + t • Pi.single l 1)) i))
          (-((cxX *ᵥ f.betas) i) * phi b * cxX i l) 0 := by
        intro i
        have h1 : HasDerivAt (fun t : ℝ => (cxX *ᵥ (f.betas + t • Pi.single l 1)) i) (cxX i l) 0 := by
          simp only [line]
          have := ((hasDerivAt_id (0 : ℝ)).mul_const ((cxX *ᵥ Pi.single l 1) i)).const_add ((cxX *ᵥ f.betas) i)
          simpa [mulVec_single] using this
        have h2 := (phi_hasDeriv ((cxX *ᵥ (f.betas + (0 : ℝ) • Pi.single l 1)) i)).comp 0 h1
        rw [zero_smul, add_zero, hph] at h2
        exact h2
      have hs := (HasDerivAt.fun_sum fun i (_ : i ∈ Finset.univ) => hd i).div_const 10
      have h3 : HasDerivAt (fun t : ℝ => (f.betas + t • (Pi.single l 1 : Unit ⊕ Unit → ℝ)) (.inr j))
          ((Pi.single l 1 : Unit ⊕ Unit → ℝ) (.inr j)) 0 := by
        have := ((hasDerivAt_id (0 : ℝ)).mul_const ((Pi.single l 1 : Unit ⊕ Unit → ℝ) (.inr j))).const_add
          (f.betas (.inr j))
        simpa using this
      have h4 := h3.mul hs
      refine h4.congr_deriv ?_
      simp only [zero_smul, add_zero, hmean, of_apply]
      rw [e1]
      simp only [hxb]
      rcases l with l | l
      · rw [hsum]
        simp [hB, cxX]
      · rw [hsum]
        simp [hB, cxX]
        ring
    · intro hEq
      have h1 := congrFun (congrFun hEq ()) ()
      rw [hvm] at h1
      simp [mul_apply, Fintype.sum_sum_type] at h1
      have hV : 0 < f.vm (.inr ()) (.inr ()) := by
        have := hv.2 (Pi.single (.inr ()) 1) (by
          intro h; have := congrFun h (.inr ()); simp at this)
        simpa using this
      have hp := phi_pos b
      have h2 : phi b ^ 2 * f.vm (.inr ()) (.inr ()) * (1 - (1 - b ^ 2) ^ 2) = 0 := by linear_combination h1
      have h3 : 0 < 1 - (1 - b ^ 2) ^ 2 := by
        have e0 : 0 < b ^ 2 := by positivity
        have e1 : b ^ 2 < 1 := by nlinarith
        nlinarith
      have : 0 < phi b ^ 2 * f.vm (.inr ()) (.inr ()) * (1 - (1 - b ^ 2) ^ 2) := by positivity
      linarith

/-! ### C94: spatial tests -/

theorem tr_sum (w : Matrix n n ℝ) :
    (∑ i, (w * w) i i) + ∑ i, (wᵀ * w) i i = tr_t w ∧ (∑ i, (w * w) i i) + ∑ i, (w * wᵀ) i i = tr_t w := by
  have h1 : ∑ i, (wᵀ * w) i i = ∑ i, (w * wᵀ) i i := by
    simp only [mul_apply, transpose_apply]
    exact Finset.sum_comm
  have h2 : (∑ i, (w * w) i i) + ∑ i, (wᵀ * w) i i = tr_t w := by
    unfold tr_t
    simp only [Matrix.add_mul, Matrix.add_apply, Finset.sum_add_distrib]
    ring
  exact ⟨h2, by rw [← h1]; exact h2⟩

/-- The radicand of the Kelejian-Prucha test. -/
theorem kp_radicand [DecidableEq n] (w : Matrix n n ℝ) (s : n → ℝ) :
    ∑ i, ((w * diagonal s) * (w * diagonal s) + (wᵀ * diagonal s) * (w * diagonal s)) i i
      = (∑ i, ∑ j, s i * s j * (w i j + w j i) ^ 2) / 2 := by
  have h : ∑ i, ((w * diagonal s) * (w * diagonal s) + (wᵀ * diagonal s) * (w * diagonal s)) i i
      = ∑ i, ∑ j, (s i * s j * (w i j * w j i) + s i * s j * (w j i * w j i)) := by
    refine Finset.sum_congr rfl fun i _ => ?_
    rw [Matrix.add_apply, mul_apply, mul_apply, ← Finset.sum_add_distrib]
    refine Finset.sum_congr rfl fun j _ => ?_
    simp only [mul_diagonal, transpose_apply]
    ring
  have h2 : ∑ i, ∑ j, s i * s j * (w j i * w j i) = ∑ i, ∑ j, s i * s j * (w i j * w i j) := by
    rw [Finset.sum_comm]
    exact Finset.sum_congr rfl fun i _ => Finset.sum_congr rfl fun j _ => by ring
  rw [h]
  simp only [Finset.sum_add_distrib]
  have h3 : ∑ i, ∑ j, s i * s j * (w i j + w j i) ^ 2
      = 2 * (∑ i, ∑ j, s i * s j * (w i j * w j i)) + ∑ i, ∑ j, s i * s j * (w i j * w i j)
        + ∑ i, ∑ j, s i * s j * (w j i * w j i) := by
    simp only [Finset.mul_sum, ← Finset.sum_add_distrib]
    exact Finset.sum_congr rfl fun i _ => Finset.sum_congr rfl fun j _ => by ring
  rw [h3, h2]; ring

theorem phiProd_pos {x : Matrix n k ℝ} {b : k → ℝ} (i : n) : 0 < phiProd (fun i => Phi ((x *ᵥ b) i)) i := by
  unfold phiProd
  have := Phi_pos ((x *ᵥ b) i); have := Phi_lt_one ((x *ᵥ b) i)
  exact mul_pos (by assumption) (by linarith)

/-- C94: for every fit, the two LM type statistics are nonnegative, the radicand of the Kelejian-Prucha statistic is
nonnegative, and positive unless the weights are antisymmetric, and the statistic has the sign of `u'Wu`. -/
theorem C94_signs [DecidableEq n] [DecidableEq k] (x : Matrix n k ℝ) (y : n → ℝ) (o : Optim k) (bs : Option (k → ℝ))
    (mi : ℕ) (f : Fit n k) (h : baseProbit x y o bs mi = .ok f) (w : Matrix n n ℝ) :
    0 ≤ pinkse w f.predy f.phiy f.uGen ∧ 0 ≤ pinkseSlade w f.predy f.uNaive ∧
    0 ≤ ∑ i, ((w * diagonal (phiProd f.predy)) * (w * diagonal (phiProd f.predy)) +
      (wᵀ * diagonal (phiProd f.predy)) * (w * diagonal (phiProd f.predy))) i i ∧
    ((∃ i j, w i j + w j i ≠ 0) → (0 < moranKP w f.uNaive (phiProd f.predy) ↔ 0 < f.uNaive ⬝ᵥ (w *ᵥ f.uNaive))) := by
  obtain ⟨p, wn, -, -, -, -, -, -, -, hp, -⟩ := baseProbit_ok h
  have hs : ∀ i, 0 < phiProd f.predy i := fun i => by rw [hp]; exact phiProd_pos i
  refine ⟨?_, ?_, ?_, ?_⟩
  · unfold pinkse
    simp only
    rw [(tr_sum w).2]
    exact div_nonneg (sq_nonneg _) (mul_nonneg (sq_nonneg _) (tr_t_nonneg w))
  · unfold pinkseSlade
    simp only
    rw [(tr_sum w).1]
    exact div_nonneg (sq_nonneg _) (tr_t_nonneg w)
  · rw [kp_radicand]
    exact div_nonneg (Finset.sum_nonneg fun i _ => Finset.sum_nonneg fun j _ =>
      mul_nonneg (mul_pos (hs i) (hs j)).le (sq_nonneg _)) (by norm_num)
  · rintro ⟨i, j, hij⟩
    unfold moranKP
    simp only
    rw [kp_radicand]
    have : 0 < (∑ i, ∑ j, phiProd f.predy i * phiProd f.predy j * (w i j + w j i) ^ 2) / 2 := by
      refine div_pos ?_ (by norm_num)
      have hnn : ∀ i j, 0 ≤ phiProd f.predy i * phiProd f.predy j * (w i j + w j i) ^ 2 := fun i j =>
        mul_nonneg (mul_pos (hs i) (hs j)).le (sq_nonneg _)
      refine Finset.sum_pos' (fun a _ => Finset.sum_nonneg fun b _ => hnn a b) ⟨i, Finset.mem_univ _, ?_⟩
      refine Finset.sum_pos' (fun b _ => hnn i b) ⟨j, Finset.mem_univ _, ?_⟩
      exact mul_pos (mul_pos (hs i) (hs j)) (by positivity)
    rw [div_pos_iff_of_pos_right (Real.sqrt_pos.2 this)]

/-- C94: none of the three tests depends on the unit of the weights. -/
theorem C94_units [DecidableEq n] (w : Matrix n n ℝ) (Ph ph uG uN s : n → ℝ) (c : ℝ) (hc : 0 < c) :
    pinkse (c • w) Ph ph uG = pinkse w Ph ph uG ∧ pinkseSlade (c • w) Ph uN = pinkseSlade w Ph uN ∧
    moranKP (c • w) uN s = moranKP w uN s := by
  have hq : ∀ u : n → ℝ, u ⬝ᵥ ((c • w) *ᵥ u) = c * (u ⬝ᵥ (w *ᵥ u)) := fun u => by
    rw [smul_mulVec, dotProduct_smul, smul_eq_mul]
  have ht : tr_t (c • w) = c ^ 2 * tr_t w := by
    rw [tr_t_eq, tr_t_eq]
    simp only [Matrix.smul_apply, smul_eq_mul]
    rw [← mul_div_assoc, Finset.mul_sum]
    congr 1
    refine Finset.sum_congr rfl fun i _ => ?_
    rw [Finset.mul_sum]
    exact Finset.sum_congr rfl fun j _ => by ring
  have hc2 : c ^ 2 ≠ 0 := by positivity
  refine ⟨?_, ?_, ?_⟩
  · unfold pinkse
    simp only
    rw [(tr_sum _).2, (tr_sum _).2, hq, ht, mul_pow, mul_left_comm, mul_div_mul_left _ _ hc2]
  · unfold pinkseSlade
    simp only
    rw [(tr_sum _).1, (tr_sum _).1, hq, ht, mul_pow, mul_div_mul_left _ _ hc2]
  · unfold moranKP
    simp only
    rw [kp_radicand, kp_radicand, hq]
    have : (∑ i, ∑ j, s i * s j * ((c • w) i j + (c • w) j i) ^ 2) / 2
        = c ^ 2 * ((∑ i, ∑ j, s i * s j * (w i j + w j i) ^ 2) / 2) := by
      simp only [Matrix.smul_apply, smul_eq_mul]
      rw [← mul_div_assoc, Finset.mul_sum]
      congr 1
      refine Finset.sum_congr rfl fun i _ => ?_
      rw [Finset.mul_sum]
      exact Finset.sum_congr rfl fun j _ => by ring
    rw [this, Real.sqrt_mul (sq_nonneg c), Real.sqrt_sq hc.le, mul_div_mul_left _ _ hc.ne']

/-- C94: when all observations have the same predicted probability (in particular in the model with only a constant) the
three tests coincide: the Pinkse statistic equals the Pinkse-Slade statistic and the square of the Kelejian-Prucha one. -/
theorem C94_agree [DecidableEq n] [Nonempty n] (w : Matrix n n ℝ) (y : n → ℝ) (z : ℝ) :
    let u : n → ℝ := fun i => y i - Phi z
    let uG : n → ℝ := fun i => phi z * (u i / (Phi z * (1 - Phi z)))
    pinkse w (fun _ => Phi z) (fun _ => phi z) uG = pinkseSlade w (fun _ => Phi z) u ∧
    moranKP w u (phiProd fun _ => Phi z) ^ 2 = pinkseSlade w (fun _ => Phi z) u := by
  intro u uG
  set s := Phi z * (1 - Phi z) with hs
  have hs0 : 0 < s := mul_pos (Phi_pos z) (by have := Phi_lt_one z; linarith)
  have hp := phi_pos z
  have hN : (Fintype.card n : ℝ) ≠ 0 := by exact_mod_cast Fintype.card_ne_zero
  have hq : ∀ c : ℝ, (fun i => c * u i) ⬝ᵥ (w *ᵥ fun i => c * u i) = c ^ 2 * (u ⬝ᵥ (w *ᵥ u)) := by
    intro c
    have : (fun i => c * u i) = c • u := rfl
    rw [this, mulVec_smul, dotProduct_smul, smul_dotProduct, smul_eq_mul, smul_eq_mul]; ring
  have hPS : pinkseSlade w (fun _ => Phi z) u = (u ⬝ᵥ (w *ᵥ u)) ^ 2 / (s ^ 2 * tr_t w) := by
    unfold pinkseSlade phiProd
    simp only
    rw [(tr_sum w).1, ← hs]
    have e : (fun i => u i / Real.sqrt s) = fun i => (Real.sqrt s)⁻¹ * u i := by funext i; ring
    rw [e, hq, inv_pow, Real.sq_sqrt hs0.le]
    field_simp
  rw [hPS]
  constructor
  · unfold pinkse phiProd
    simp only
    rw [(tr_sum w).2, ← hs]
    have e : uG = fun i => (phi z / s) * u i := by funext i; simp only [uG]; ring
    rw [e, hq]
    simp only [Finset.sum_const, Finset.card_univ, nsmul_eq_mul]
    rw [mul_div_cancel_left₀ _ hN]
    by_cases ht : tr_t w = 0
    · simp [ht]
    · field_simp
  · unfold moranKP phiProd
    simp only
    rw [kp_radicand, ← hs, div_pow]
    have e : (∑ i, ∑ j, s * s * (w i j + w j i) ^ 2) / 2 = s ^ 2 * tr_t w := by
      rw [tr_t_eq, ← mul_div_assoc, Finset.mul_sum]
      congr 1
      refine Finset.sum_congr rfl fun i _ => ?_
      rw [Finset.mul_sum]
      exact Finset.sum_congr rfl fun j _ => by ring
    rw [e, Real.sq_sqrt (mul_nonneg (sq_nonneg _) (tr_t_nonneg w))]

end Spreg.Probit
