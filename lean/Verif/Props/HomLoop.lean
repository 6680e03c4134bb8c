import Verif.Props.HomConv
set_option linter.unusedSectionVars false
set_option linter.unusedSimpArgs false
/-
C188: the generalized moments estimator for homoskedastic errors is consistent.
-/
namespace Spreg.Consist
open Spreg Spreg.Lin Spreg.GM Spreg.Sampling Matrix MeasureTheory Filter Topology

variable {Ω : ℕ → Type} [∀ t, MeasurableSpace (Ω t)] {P : ∀ t, Measure (Ω t)}

section model
variable {k : Type} [Fintype k] [DecidableEq k] {n : ℕ → Type} [∀ t, Fintype (n t)] [∀ t, DecidableEq (n t)]
  {W : ∀ t, Matrix (n t) (n t) ℝ} {x : ∀ t, Matrix (n t) k ℝ} {y v e : ∀ t, Ω t → n t → ℝ} {beta : k → ℝ} {lam : ℝ} {s : ℝ}
  {a1 : String} {G Psi : Matrix (Fin 2) (Fin 2) ℝ} {mu4 : ℝ}

theorem hom_G (h : ErrorModel P n W x y v e beta lam fun _ _ => s) (hm : HomLimits P n W v e s a1 G Psi mu4) (d : ∀ t, Ω t → k → ℝ) (hd : ∀ l, ConvP P (fun t ω => d t ω l) 0)
    (i j : Fin 2) : ConvP P (fun t ω => (mh a1 (W t) (v t ω - x t *ᵥ d t ω)).G i j) (G i j) := by
  obtain ⟨r, hr⟩ := h.sumsW
  have hA : ∀ t, Sums (homA a1 (W t) i) (r * r + r * r + r) := fun t => homA_sums a1 (hr t) (h.pos t) i
  have hj : j = 0 ∨ j = 1 := by fin_cases j; exacts [Or.inl rfl, Or.inr rfl]
  rcases hj with rfl | rfl
  · have := em_form h W (fun t => homA a1 (W t) i + homA a1 (W t) i) r _ hr (fun t => sums_add (hA t) (hA t)) d hd (G i 0) (by
      refine (hm.lin i).congr fun t => ?_
      congr 1
      refine integral_congr_ae (Eventually.of_forall fun ω => ?_)
      show _ = (W t *ᵥ v t ω) ⬝ᵥ ((homA a1 (W t) i + homA a1 (W t) i) *ᵥ v t ω)
      rw [add_mulVec, dotProduct_add, ← two_mul]
      rfl)
    refine conv_congr this fun t ω => ?_
    rw [(hom_mom a1 _ _ i).2.1, add_mulVec, dotProduct_add, two_mul]
  · have := em_form h W (fun t => -(homA a1 (W t) i * W t)) r ((r * r + r * r + r) * r) hr (fun t => by
      have := (hA t).mul (hr t)
      exact sums_le this fun a b => by rw [Matrix.neg_apply, abs_neg]) d hd (G i 1) (by
      refine (hm.quad i).congr fun t => ?_
      simp only [neg_mulVec, dotProduct_neg, ← mulVec_mulVec, integral_neg]
      rfl)
    refine conv_congr this fun t ω => ?_
    rw [(hom_mom a1 _ _ i).2.2, neg_mulVec, dotProduct_neg, ← mulVec_mulVec _ _ (W t)]

theorem hom_res (a1 : String) (h : ErrorModel P n W x y v e beta lam fun _ _ => s) (d : ∀ t, Ω t → k → ℝ) (hd : ∀ l, ConvP P (fun t ω => d t ω l) 0) (i : Fin 2) :
    ConvP P (fun t ω => dev (mh a1 (W t) (v t ω - x t *ᵥ d t ω)) lam i) 0 := by
  obtain ⟨r, hr⟩ := h.sumsW
  have hA : ∀ t, Sums (homA a1 (W t) i) (r * r + r * r + r) := fun t => homA_sums a1 (hr t) (h.pos t) i
  have h1 := em_quad h (fun t => 1 - lam • W t) (fun t => homA a1 (W t) i * (1 - lam • W t)) _ _ (fun t => (hr t).filter lam) (fun t => (hA t).mul ((hr t).filter lam)) d hd
  have e1 : ∀ t, (1 - lam • W t) * (1 - lam • W t)⁻¹ = 1 := fun t => mul_nonsing_inv _ (h.reg t)
  have e2 : ∀ t, homA a1 (W t) i * (1 - lam • W t) * (1 - lam • W t)⁻¹ = homA a1 (W t) i := fun t => by rw [Matrix.mul_assoc, e1, Matrix.mul_one]
  simp only [e1, e2, transpose_one, Matrix.one_mul, ← Finset.mul_sum, homA_trace a1 (h.diag _) (h.pos _), mul_zero, sub_zero] at h1
  exact conv_congr h1 fun t ω => hom_dev _ _ _ _ _

/-- Fourth powers of the errors. -/
theorem hom_four (h : ErrorModel P n W x y v e beta lam fun _ _ => s) (hq : SquaredErrors P n e fun _ _ => s) (hm : HomLimits P n W v e s a1 G Psi mu4) :
    ConvP P (fun t ω => (∑ i, e t ω i ^ 4) / Fintype.card (n t)) mu4 := by
  have hpr : ∀ t, IsProbabilityMeasure (P t) := fun t => (h.err t).prob
  have hc : ∀ t, (0 : ℝ) < Fintype.card (n t) := fun t => by exact_mod_cast h.pos t
  obtain ⟨κ, K, V, hκ, he, hp⟩ := hq
  have c1 := quad_llnH hp h.size h.pos (fun t => 1) 1 fun t => Sums.one
  have c2 := conv_smul (2 * s) (avg_bdd he (fun t i => (hκ t i).2) h.size h.pos (fun _ _ => 1) 1 fun _ _ => by simp)
  rw [mul_zero] at c2
  have c3 := conv_plus c1 c2
  rw [add_zero] at c3
  have e4 : ∀ t ω i, e t ω i ^ 4 = (e t ω i ^ 2 - s) * (e t ω i ^ 2 - s) + (2 * s * (e t ω i ^ 2 - s) + s ^ 2) := fun t ω i => by ring
  have i1 : ∀ t i, Integrable (fun ω => e t ω i ^ 2 - s) (P t) := fun t i => ((he t).sq i).integrable (by norm_num)
  have i2 : ∀ t i, Integrable (fun ω => (e t ω i ^ 2 - s) * (e t ω i ^ 2 - s)) (P t) := fun t i => ((he t).sq i).integrable_mul ((he t).sq i)
  have hE : ∀ t i, Integrable (fun ω => e t ω i ^ 4) (P t) ∧ ∫ ω, e t ω i ^ 4 ∂P t = κ t i + s ^ 2 := fun t i => by
    simp only [e4]
    have i3 := ((i1 t i).const_mul (2 * s)).add (integrable_const (s ^ 2) (μ := P t))
    refine ⟨(i2 t i).add i3, ?_⟩
    have := integral_add (i2 t i) i3
    simp only [Pi.add_apply] at this
    rw [this, (he t).cov i i, if_pos rfl, integral_add ((i1 t i).const_mul (2 * s)) (integrable_const _), integral_const_mul, (he t).mean i]
    simp
  have hI : ∀ t, (∫ ω, ∑ i, e t ω i ^ 4 ∂P t) / Fintype.card (n t) = (∑ i, κ t i) / Fintype.card (n t) + s ^ 2 := fun t => by
    rw [integral_finsetSum _ fun i _ => (hE t i).1]
    simp only [(hE t _).2, Finset.sum_add_distrib, Finset.sum_const, Finset.card_univ, nsmul_eq_mul]
    have := (hc t).ne'
    field_simp
  refine conv_congr (conv_add _ _ (hm.fourth.congr hI) _ c3) fun t ω => ?_
  simp only [e4, one_mulVec, one_apply_eq, mul_one, one_mul, dotProduct, Finset.sum_add_distrib, Finset.sum_const, Finset.card_univ, nsmul_eq_mul, ← Finset.mul_sum]
  have := (hc t).ne'
  field_simp
  ring

theorem hom_m2 (h : ErrorModel P n W x y v e beta lam fun _ _ => s) (hq : SquaredErrors P n e fun _ _ => s) (lh : ∀ t, Ω t → ℝ) (hl : ConvP P lh lam)
    (d : ∀ t, Ω t → k → ℝ) (hd : ∀ l, ConvP P (fun t ω => d t ω l) 0) :
    ConvP P (fun t ω => m2 (spFilter (W t) (lh t ω) (v t ω - x t *ᵥ d t ω))) s := by
  have h1 := het_lin h hq lh hl d hd (fun _ _ => 1) 1 fun _ _ => by simp
  refine conv_congr (conv_add (fun _ => s) s tendsto_const_nhds _ h1) fun t ω => ?_
  have hc : (Fintype.card (n t) : ℝ) ≠ 0 := by exact_mod_cast (h.pos t).ne'
  show (∑ i, _) / (Fintype.card (n t) : ℝ) = _
  simp only [one_mul, mul_one, Finset.sum_const, Finset.card_univ, nsmul_eq_mul, sq]
  field_simp
  ring

theorem hom_m4 (h : ErrorModel P n W x y v e beta lam fun _ _ => s) (hq : SquaredErrors P n e fun _ _ => s) (hm : HomLimits P n W v e s a1 G Psi mu4)
    (lh : ∀ t, Ω t → ℝ) (hl : ConvP P lh lam) (d : ∀ t, Ω t → k → ℝ) (hd : ∀ l, ConvP P (fun t ω => d t ω l) 0) :
    ConvP P (fun t ω => m4 (spFilter (W t) (lh t ω) (v t ω - x t *ᵥ d t ω))) mu4 := by
  have hc : ∀ t, (0 : ℝ) < Fintype.card (n t) := fun t => by exact_mod_cast h.pos t
  have hcl := het_close h hq lh hl d hd
  have c4 := hom_four h hq hm
  have c2 : ConvP P (fun t ω => (∑ i, e t ω i ^ 2 * (spFilter (W t) (lh t ω) (v t ω - x t *ᵥ d t ω) i ^ 2 - e t ω i ^ 2)) / Fintype.card (n t)) 0 := by
    have h1 := conv_mul c4 hcl
    rw [mul_zero] at h1
    refine conv_sqrt (conv_le h1 fun t ω => ?_)
    rw [abs_of_nonneg (sq_nonneg _)]
    refine le_trans ?_ (le_abs_self _)
    have k1 := Finset.sum_mul_sq_le_sq_mul_sq Finset.univ (fun i => e t ω i ^ 2) (fun i => spFilter (W t) (lh t ω) (v t ω - x t *ᵥ d t ω) i ^ 2 - e t ω i ^ 2)
    rw [div_pow, div_mul_div_comm, ← sq]
    refine div_le_div_of_nonneg_right (k1.trans (le_of_eq ?_)) (sq_nonneg _)
    congr 1
    exact Finset.sum_congr rfl fun i _ => by ring
  have c3 := conv_plus hcl (conv_smul 2 c2)
  rw [mul_zero, add_zero] at c3
  have c5 := conv_plus c4 c3
  rw [add_zero] at c5
  refine conv_congr c5 fun t ω => ?_
  show (∑ i, _) / (Fintype.card (n t) : ℝ) = _
  rw [mul_div_assoc', ← add_div, ← add_div, Finset.mul_sum, ← Finset.sum_add_distrib, ← Finset.sum_add_distrib]
  congr 1
  exact Finset.sum_congr rfl fun i _ => by ring

theorem hom_V (h : ErrorModel P n W x y v e beta lam fun _ _ => s) (hq : SquaredErrors P n e fun _ _ => s) (hm : HomLimits P n W v e s a1 G Psi mu4)
    (lh : ∀ t, Ω t → ℝ) (hl : ConvP P lh lam) (d : ∀ t, Ω t → k → ℝ) (hd : ∀ l, ConvP P (fun t ω => d t ω l) 0) (i j : Fin 2) :
    ConvP P (fun t ω => vh a1 (W t) (v t ω - x t *ᵥ d t ω) (lh t ω) i j) (Psi i j) := by
  have hpr : ∀ t, IsProbabilityMeasure (P t) := fun t => (h.err t).prob
  have hc : ∀ t, (0 : ℝ) < Fintype.card (n t) := fun t => by exact_mod_cast h.pos t
  obtain ⟨r, hr⟩ := h.sumsW
  have hA : ∀ t i, Sums (homA a1 (W t) i) (r * r + r * r + r) := fun t i => homA_sums a1 (hr t) (h.pos t) i
  have hH : ∀ t, Sums (Matrix.of fun o p => homA a1 (W t) i o p * homA a1 (W t) j o p) ((r * r + r * r + r) * (r * r + r * r + r)) := fun t => sums_had (hA t i) (hA t j)
  have b1 : ∀ t, |(∑ o, ∑ p, homA a1 (W t) i o p * homA a1 (W t) j o p) / (Fintype.card (n t) : ℝ)| ≤ (r * r + r * r + r) * (r * r + r * r + r) := fun t => by
    rw [abs_div, abs_of_pos (hc t), div_le_iff₀ (hc t)]
    refine (Finset.abs_sum_le_sum_abs _ _).trans ((Finset.sum_le_sum fun o _ => (Finset.abs_sum_le_sum_abs _ _).trans ((hH t).1 o)).trans (le_of_eq ?_))
    rw [Finset.sum_const, Finset.card_univ, nsmul_eq_mul, mul_comm]
  have b2 : ∀ t, |(∑ o, homA a1 (W t) i o o * homA a1 (W t) j o o) / (Fintype.card (n t) : ℝ)| ≤ (r * r + r * r + r) * (r * r + r * r + r) := fun t => by
    rw [abs_div, abs_of_pos (hc t), div_le_iff₀ (hc t)]
    refine (Finset.abs_sum_le_sum_abs _ _).trans ((Finset.sum_le_sum fun o _ => sums_get (hH t) o o).trans (le_of_eq ?_))
    rw [Finset.sum_const, Finset.card_univ, nsmul_eq_mul, mul_comm]
  have c2 := hom_m2 h hq lh hl d hd
  have c4 := hom_m4 h hq hm lh hl d hd
  have z1 : ConvP P (fun t ω => 2 * (m2 (spFilter (W t) (lh t ω) (v t ω - x t *ᵥ d t ω)) * m2 (spFilter (W t) (lh t ω) (v t ω - x t *ᵥ d t ω))) - 2 * (s * s)) 0 := by
    have := conv_sub (conv_smul 2 (conv_mul c2 c2)) (conv_const (P := P) (fun _ => 2 * (s * s)) (2 * (s * s)) tendsto_const_nhds)
    rwa [sub_self] at this
  have z2 : ConvP P (fun t ω => (m4 (spFilter (W t) (lh t ω) (v t ω - x t *ᵥ d t ω)) -
      3 * (m2 (spFilter (W t) (lh t ω) (v t ω - x t *ᵥ d t ω)) * m2 (spFilter (W t) (lh t ω) (v t ω - x t *ᵥ d t ω)))) - (mu4 - 3 * (s * s))) 0 := by
    have := conv_sub (conv_sub c4 (conv_smul 3 (conv_mul c2 c2))) (conv_const (P := P) (fun _ => mu4 - 3 * (s * s)) (mu4 - 3 * (s * s)) tendsto_const_nhds)
    rwa [sub_self] at this
  have z := conv_plus (conv_bdd _ _ b1 z1) (conv_bdd _ _ b2 z2)
  rw [add_zero] at z
  refine conv_congr (conv_add _ _ (hm.psi i j) _ z) fun t ω => ?_
  rw [hom_vc a1 (W t) (h.diag t)]
  ring
variable (opt : Moments (Fin 2) (Fin 2) → Option (Matrix (Fin 2) (Fin 2) ℝ) → Py ℝ)

theorem hom_neg (h : ErrorModel P n W x y v e beta lam fun _ _ => s) (hm : HomLimits P n W v e s a1 G Psi mu4) (hneg : G 1 0 < 0 ∨ G 1 1 < 0)
    (d : ∀ t, Ω t → k → ℝ) (hd : ∀ l, ConvP P (fun t ω => d t ω l) 0) :
    Tendsto (fun t => P t {ω | ¬ ((mh a1 (W t) (v t ω - x t *ᵥ d t ω)).G 1 0 < 0 ∨ (mh a1 (W t) (v t ω - x t *ᵥ d t ω)).G 1 1 < 0)})
      atTop (𝓝 0) := by
  have key : ∀ j, G 1 j < 0 → Tendsto (fun t => P t {ω | ¬ (mh a1 (W t) (v t ω - x t *ᵥ d t ω)).G 1 j < 0}) atTop (𝓝 0) := fun j hj =>
    nhds_conv (P := P) (fun t ω (_ : Unit) => (mh a1 (W t) (v t ω - x t *ᵥ d t ω)).G 1 j) (fun _ => G 1 j) (fun _ => hom_G h hm d hd 1 j) {v | v () < 0}
      ((continuous_apply (A := fun _ : Unit => ℝ) ()).continuousAt.eventually_lt continuousAt_const hj)
  rcases hneg with hj | hj
  · exact tendsto_of_tendsto_of_tendsto_of_le_of_le tendsto_const_nhds (key 0 hj) (fun _ => zero_le) fun t => measure_mono fun ω hω hcon => hω (Or.inl hcon)
  · exact tendsto_of_tendsto_of_tendsto_of_le_of_le tendsto_const_nhds (key 1 hj) (fun _ => zero_le) fun t => measure_mono fun ω hω hcon => hω (Or.inr hcon)

variable {opt}

/-- Lambda from unweighted moments. -/
theorem hom_first (h : ErrorModel P n W x y v e beta lam fun _ _ => s) (hm : HomLimits P n W v e s a1 G Psi mu4) (hdet : G.det ≠ 0) (hneg : G 1 0 < 0 ∨ G 1 1 < 0)
    (hopt : Minimises2 opt) (d : ∀ t, Ω t → k → ℝ) (hd : ∀ l, ConvP P (fun t ω => d t ω l) 0) :
    ∃ (bad : ∀ t, Set (Ω t)) (l : ∀ t, Ω t → ℝ), Tendsto (fun t => P t (bad t)) atTop (𝓝 0) ∧ ConvP P l lam ∧
      ∀ t ω, ω ∉ bad t → opt (mh a1 (W t) (v t ω - x t *ᵥ d t ω)) none = .ok (l t ω) := by
  have hpr : ∀ t, IsProbabilityMeasure (P t) := fun t => (h.err t).prob
  have hb := hom_neg h hm hneg d hd
  have hok : ∀ t ω, ω ∉ {ω | ¬ ((mh a1 (W t) (v t ω - x t *ᵥ d t ω)).G 1 0 < 0 ∨ (mh a1 (W t) (v t ω - x t *ᵥ d t ω)).G 1 1 < 0)} →
      opt (mh a1 (W t) (v t ω - x t *ᵥ d t ω)) none = .ok (okVal (opt (mh a1 (W t) (v t ω - x t *ᵥ d t ω)) none)) ∧
      ∀ l', |l'| ≤ 0.99 → ∑ i, dev (mh a1 (W t) (v t ω - x t *ᵥ d t ω)) (okVal (opt (mh a1 (W t) (v t ω - x t *ᵥ d t ω)) none)) i ^ 2 ≤
        ∑ i, dev (mh a1 (W t) (v t ω - x t *ᵥ d t ω)) l' i ^ 2 := by
    intro t ω hω
    simp only [Set.mem_ofPred_eq, not_not] at hω
    obtain ⟨l, h1, -, h2⟩ := (hopt _ hω).1
    rw [h1]
    exact ⟨rfl, h2⟩
  refine ⟨_, fun t ω => okVal (opt (mh a1 (W t) (v t ω - x t *ᵥ d t ω)) none), hb, ?_, fun t ω hω => (hok t ω hω).1⟩
  refine conv_opt2 (fun t ω => mh a1 (W t) (v t ω - x t *ᵥ d t ω)) G hdet (hom_G h hm d hd) (fun _ _ => 1) 1 PosDef.one
    (fun i j => conv_const _ _ tendsto_const_nhds) lam h.box (hom_res a1 h d hd) _ _ hb fun t ω hω => ⟨PosDef.one, fun l' hl' => ?_⟩
  have := (hok t ω hω).2 l' hl'
  rw [inv_one, one_mulVec, one_mulVec]
  simpa only [dotProduct, ← sq] using this

/-- Lambda from weighted moments. -/
theorem hom_weighted (h : ErrorModel P n W x y v e beta lam fun _ _ => s) (hq : SquaredErrors P n e fun _ _ => s) (hm : HomLimits P n W v e s a1 G Psi mu4) (hdet : G.det ≠ 0)
    (hneg : G 1 0 < 0 ∨ G 1 1 < 0) (hPsi : Psi.PosDef) (hopt : Minimises2 opt) (d : ∀ t, Ω t → k → ℝ) (hd : ∀ l, ConvP P (fun t ω => d t ω l) 0)
    (lo : ∀ t, Ω t → ℝ) (hlo : ConvP P lo lam) :
    ∃ (bad : ∀ t, Set (Ω t)) (l : ∀ t, Ω t → ℝ), Tendsto (fun t => P t (bad t)) atTop (𝓝 0) ∧ ConvP P l lam ∧
      ∀ t ω, ω ∉ bad t → opt (mh a1 (W t) (v t ω - x t *ᵥ d t ω))
        (some (vh a1 (W t) (v t ω - x t *ᵥ d t ω) (lo t ω))) = .ok (l t ω) := by
  have hpr : ∀ t, IsProbabilityMeasure (P t) := fun t => (h.err t).prob
  have cV := hom_V h hq hm lo hlo d hd
  have hb2 := conv_posdef (fun t ω => vh a1 (W t) (v t ω - x t *ᵥ d t ω) (lo t ω)) (fun t ω => vh_sym _ _ _ _) Psi hPsi cV
  have hb := (hom_neg h hm hneg d hd).add hb2
  rw [add_zero] at hb
  have hb := tendsto_of_tendsto_of_tendsto_of_le_of_le tendsto_const_nhds hb (fun _ => zero_le) fun t => measure_union_le (μ := P t) _ _
  have hok : ∀ t ω, ω ∉ {ω | ¬ ((mh a1 (W t) (v t ω - x t *ᵥ d t ω)).G 1 0 < 0 ∨ (mh a1 (W t) (v t ω - x t *ᵥ d t ω)).G 1 1 < 0)} ∪
        {ω | ¬ (vh a1 (W t) (v t ω - x t *ᵥ d t ω) (lo t ω)).PosDef} →
      opt (mh a1 (W t) (v t ω - x t *ᵥ d t ω)) (some (vh a1 (W t) (v t ω - x t *ᵥ d t ω) (lo t ω))) =
        .ok (okVal (opt (mh a1 (W t) (v t ω - x t *ᵥ d t ω)) (some (vh a1 (W t) (v t ω - x t *ᵥ d t ω) (lo t ω))))) ∧
      (vh a1 (W t) (v t ω - x t *ᵥ d t ω) (lo t ω)).PosDef ∧
      ∀ l', |l'| ≤ 0.99 →
        dev (mh a1 (W t) (v t ω - x t *ᵥ d t ω)) (okVal (opt (mh a1 (W t) (v t ω - x t *ᵥ d t ω))
          (some (vh a1 (W t) (v t ω - x t *ᵥ d t ω) (lo t ω))))) ⬝ᵥ
          ((vh a1 (W t) (v t ω - x t *ᵥ d t ω) (lo t ω))⁻¹ *ᵥ
            dev (mh a1 (W t) (v t ω - x t *ᵥ d t ω)) (okVal (opt (mh a1 (W t) (v t ω - x t *ᵥ d t ω))
              (some (vh a1 (W t) (v t ω - x t *ᵥ d t ω) (lo t ω)))))) ≤
        dev (mh a1 (W t) (v t ω - x t *ᵥ d t ω)) l' ⬝ᵥ
          ((vh a1 (W t) (v t ω - x t *ᵥ d t ω) (lo t ω))⁻¹ *ᵥ dev (mh a1 (W t) (v t ω - x t *ᵥ d t ω)) l') := by
    intro t ω hω
    simp only [Set.mem_union, Set.mem_ofPred_eq, not_or, not_not] at hω
    obtain ⟨l, h1, -, h2⟩ := (hopt _ ((not_and_or.1 hω.1).imp not_not.1 not_not.1)).2 _ hω.2
    rw [h1]
    exact ⟨rfl, hω.2, h2⟩
  refine ⟨_, fun t ω => okVal (opt (mh a1 (W t) (v t ω - x t *ᵥ d t ω)) (some (vh a1 (W t) (v t ω - x t *ᵥ d t ω) (lo t ω)))),
    hb, ?_, fun t ω hω => (hok t ω hω).1⟩
  exact conv_opt2 (fun t ω => mh a1 (W t) (v t ω - x t *ᵥ d t ω)) G hdet (hom_G h hm d hd) _ Psi hPsi cV lam h.box (hom_res a1 h d hd) _ _ hb
    fun t ω hω => (hok t ω hω).2

/-- What a pass of the loop leaves behind. -/
noncomputable def stepOfH (a1 : String) {m : Type} [Fintype m] [DecidableEq m] (W : Matrix m m ℝ) (x : Matrix m k ℝ) (v : m → ℝ) (beta d : k → ℝ) (l : ℝ) : Step m k :=
  ⟨beta + d, x *ᵥ (beta + d), v - x *ᵥ d, mh a1 W (v - x *ᵥ d), l⟩

/-- One pass of the loop. -/
theorem hom_pass (h : ErrorModel P n W x y v e beta lam fun _ _ => s) (hq : SquaredErrors P n e fun _ _ => s) (hm : HomLimits P n W v e s a1 G Psi mu4) (hdet : G.det ≠ 0)
    (hneg : G 1 0 < 0 ∨ G 1 1 < 0) (hPsi : Psi.PosDef) {q : Fin 2 → Fin 2 → Matrix k k ℝ} (hreg : RegLimits n W x q) (hqs : (limitS q lam).det ≠ 0)
    (hopt : Minimises2 opt) (lo : ∀ t, Ω t → ℝ) (hlo : ConvP P lo lam) :
    ∃ (bad : ∀ t, Set (Ω t)) (d : ∀ t, Ω t → k → ℝ) (l : ∀ t, Ω t → ℝ), Tendsto (fun t => P t (bad t)) atTop (𝓝 0) ∧ (∀ j, ConvP P (fun t ω => d t ω j) 0) ∧
      ConvP P l lam ∧ ∀ t ω, ω ∉ bad t → homStep opt (W t) (homA a1 (W t) 0) (homA a1 (W t) 1) (x t) (y t ω) (lo t ω) = .ok (stepOfH a1 (W t) (x t) (v t ω) beta (d t ω) (l t ω)) := by
  have hc : ∀ t, (Fintype.card (n t) : ℝ) ≠ 0 := fun t => by exact_mod_cast (h.pos t).ne'
  set S : ∀ t, Ω t → Matrix k k ℝ := fun t ω => (Fintype.card (n t) : ℝ)⁻¹ • ((spFilterM (W t) (lo t ω) (x t))ᵀ * spFilterM (W t) (lo t ω) (x t)) with hSd
  have cS : ∀ i j, ConvP P (fun t ω => S t ω i j) (limitS q lam i j) := em_S h hreg lo hlo
  set d : ∀ t, Ω t → k → ℝ := fun t ω => (S t ω)⁻¹ *ᵥ ((Fintype.card (n t) : ℝ)⁻¹ • ((spFilterM (W t) (lo t ω) (x t))ᵀ *ᵥ spFilter (W t) (lo t ω) (v t ω))) with hd
  have cd : ∀ l, ConvP P (fun t ω => d t ω l) 0 := conv_solve _ _ hqs cS _ (em_w h lo hlo)
  obtain ⟨bad, l, hb, cl, hl⟩ := hom_weighted h hq hm hdet hneg hPsi hopt d cd lo hlo
  refine ⟨fun t => bad t ∪ {ω | (S t ω).det = 0}, d, l, ?_, cd, cl, fun t ω hω => ?_⟩
  · have b1 := hb.add (conv_det _ _ hqs cS)
    rw [add_zero] at b1
    exact tendsto_of_tendsto_of_tendsto_of_le_of_le tendsto_const_nhds b1 (fun _ => zero_le) fun t => measure_union_le _ _
  · simp only [Set.mem_union, Set.mem_ofPred_eq, not_or] at hω
    obtain ⟨f, g, gb, -, -⟩ := ols_scaled (spFilterM (W t) (lo t ω) (x t)) beta (spFilter (W t) (lo t ω) (v t ω)) _ (hc t) hω.2
    have hys : spFilter (W t) (lo t ω) (y t ω) = spFilterM (W t) (lo t ω) (x t) *ᵥ beta + spFilter (W t) (lo t ω) (v t ω) := by
      rw [(em_v h t ω).2.2]
      simp only [spFilter, spFilterM, mulVec_add, sub_mulVec, smul_mulVec, smul_add, mulVec_mulVec]
      abel
    have gb' : f.betas = beta + d t ω := gb
    have hu : y t ω - x t *ᵥ (beta + d t ω) = v t ω - x t *ᵥ d t ω := by
      rw [(em_v h t ω).2.2, mulVec_add]
      abel
    have e1 : homStep opt (W t) (homA a1 (W t) 0) (homA a1 (W t) 1) (x t) (y t ω) (lo t ω) = (do
        let lam ← opt (mh a1 (W t) (y t ω - x t *ᵥ f.betas)) (some (vh a1 (W t) (y t ω - x t *ᵥ f.betas) (lo t ω)))
        return ⟨f.betas, x t *ᵥ f.betas, y t ω - x t *ᵥ f.betas, mh a1 (W t) (y t ω - x t *ᵥ f.betas), lam⟩ : Py (Step (n t) k)) := by
      rw [homStep, hys, olsE_ok g]
      rfl
    rw [e1, gb', hu, hl t ω hω.1]
    rfl

/-- The rest of the loop. -/
theorem hom_loop (h : ErrorModel P n W x y v e beta lam fun _ _ => s) (hq : SquaredErrors P n e fun _ _ => s) (hm : HomLimits P n W v e s a1 G Psi mu4) (hdet : G.det ≠ 0)
    (hneg : G 1 0 < 0 ∨ G 1 1 < 0) (hPsi : Psi.PosDef) {q : Fin 2 → Fin 2 → Matrix k k ℝ} (hreg : RegLimits n W x q) (hqs : (limitS q lam).det ≠ 0)
    (hopt : Minimises2 opt) (epsilon : ℝ) (r : ℕ) : ∀ (lo : ∀ t, Ω t → ℝ), ConvP P lo lam → ∀ (eps : ∀ t, Ω t → ℝ) (d0 : ∀ t, Ω t → k → ℝ),
    (∀ j, ConvP P (fun t ω => d0 t ω j) 0) → ∀ (l0 : ∀ t, Ω t → ℝ), ConvP P l0 lam →
    ∃ (bad : ∀ t, Set (Ω t)) (d : ∀ t, Ω t → k → ℝ) (l : ∀ t, Ω t → ℝ) (it : ∀ t, Ω t → ℕ), Tendsto (fun t => P t (bad t)) atTop (𝓝 0) ∧
      (∀ j, ConvP P (fun t ω => d t ω j) 0) ∧ ConvP P l lam ∧ ∀ t ω, ω ∉ bad t →
        gmLoop (homStep opt (W t) (homA a1 (W t) 0) (homA a1 (W t) 1) (x t) (y t ω)) Step.lam epsilon r (lo t ω) (eps t ω) (some (stepOfH a1 (W t) (x t) (v t ω) beta (d0 t ω) (l0 t ω))) =
          .ok (some (stepOfH a1 (W t) (x t) (v t ω) beta (d t ω) (l t ω)), it t ω) := by
  classical
  induction r with
  | zero =>
    intro lo _ eps d0 hd0 l0 hl0
    exact ⟨fun _ => ∅, d0, l0, fun _ _ => 0, by simp, hd0, hl0, fun t ω _ => rfl⟩
  | succ r ih =>
    intro lo hlo eps d0 hd0 l0 hl0
    obtain ⟨b1, d1, l1, hb1, cd1, cl1, hs1⟩ := hom_pass h hq hm hdet hneg hPsi hreg hqs hopt lo hlo
    obtain ⟨b2, d2, l2, it2, hb2, cd2, cl2, hs2⟩ := ih l1 cl1 (fun t ω => |l1 t ω - lo t ω|) d1 cd1 l1 cl1
    refine ⟨fun t => b1 t ∪ b2 t, fun t ω => if epsilon < eps t ω then d2 t ω else d0 t ω, fun t ω => if epsilon < eps t ω then l2 t ω else l0 t ω,
      fun t ω => if epsilon < eps t ω then it2 t ω + 1 else 0, ?_, fun j => ?_, conv_ite cl2 hl0 _, fun t ω hω => ?_⟩
    · have := hb1.add hb2
      rw [add_zero] at this
      exact tendsto_of_tendsto_of_tendsto_of_le_of_le tendsto_const_nhds this (fun _ => zero_le) fun t => measure_union_le _ _
    · refine conv_congr (conv_ite (cd2 j) (hd0 j) fun t ω => epsilon < eps t ω) fun t ω => ?_
      show (if epsilon < eps t ω then d2 t ω else d0 t ω) j = _
      split_ifs <;> rfl
    · simp only [Set.mem_union, not_or] at hω
      by_cases he : epsilon < eps t ω
      · have e1 := hs1 t ω hω.1
        have e2 := hs2 t ω hω.2
        simp only [if_pos he]
        rw [gmLoop, if_pos he, e1]
        show (do
          let (l, it) ← gmLoop (homStep opt (W t) (homA a1 (W t) 0) (homA a1 (W t) 1) (x t) (y t ω)) Step.lam epsilon r (l1 t ω) |l1 t ω - lo t ω| (some (stepOfH a1 (W t) (x t) (v t ω) beta (d1 t ω) (l1 t ω)))
          return (l, it + 1) : Py _) = _
        rw [e2]
        rfl
      · simp only [if_neg he]
        rw [gmLoop, if_neg he]

end model
end Spreg.Consist
