import Verif.Props.QuadLLN
set_option linter.unusedSectionVars false
/-
C184: the generalized moments estimator of the spatial error model is consistent.
-/
namespace Spreg.Consist
open Spreg Spreg.Lin Spreg.GM Spreg.Sampling Matrix MeasureTheory Filter Topology

variable {Ω : ℕ → Type} [∀ t, MeasurableSpace (Ω t)] {P : ∀ t, Measure (Ω t)}

/-- Equality except on events of vanishing probability. -/
theorem conv_except {X Y : ∀ t, Ω t → ℝ} {c : ℝ} (hY : ConvP P Y c) (bad : ∀ t, Set (Ω t)) (hb : Tendsto (fun t => P t (bad t)) atTop (𝓝 0))
    (h : ∀ t ω, ω ∉ bad t → X t ω = Y t ω) : ConvP P X c := by
  intro ε hε
  have := (hY ε hε).add hb
  rw [add_zero] at this
  refine tendsto_of_tendsto_of_tendsto_of_le_of_le tendsto_const_nhds this (fun _ => zero_le) fun t => ?_
  refine (measure_mono (t := {ω | ε ≤ |Y t ω - c|} ∪ bad t) fun ω hω => ?_).trans (measure_union_le _ _)
  by_cases hx : ω ∈ bad t
  · exact Or.inr hx
  · left
    simp only [Set.mem_ofPred_eq] at hω ⊢
    rwa [← h t ω hx]

/-- An estimator that equals numbers that converge, except on events of vanishing probability. -/
theorem consistent_except {k : Type} [Fintype k] {est : ∀ t, Ω t → Option (k → ℝ)} (b : ∀ t, Ω t → k → ℝ) (bad : ∀ t, Set (Ω t))
    (hb : Tendsto (fun t => P t (bad t)) atTop (𝓝 0)) (he : ∀ t ω, ω ∉ bad t → est t ω = some (b t ω)) (th : k → ℝ)
    (h : ∀ j, ConvP P (fun t ω => b t ω j) (th j)) : Consistent P est th := by
  intro ε hε
  have h1 := (consistent_of (P := P) b (fun t ω => rfl) th h ε hε).add hb
  rw [add_zero] at h1
  refine tendsto_of_tendsto_of_tendsto_of_le_of_le tendsto_const_nhds h1 (fun _ => zero_le) fun t => ?_
  refine (measure_mono (t := _ ∪ bad t) fun ω hω => ?_).trans (measure_union_le _ _)
  by_cases hx : ω ∈ bad t
  · exact Or.inr hx
  · left
    simp only [Set.mem_ofPred_eq] at hω ⊢
    rwa [he t ω hx] at hω

/-- An array from its entries. -/
def cM {k : Type} (c : k × k → ℝ) : Matrix k k ℝ := Matrix.of fun i j => c (i, j)

theorem cM_cont {k : Type} : Continuous (cM : (k × k → ℝ) → Matrix k k ℝ) := continuous_matrix fun _ _ => continuous_apply _
theorem cM_eq {k : Type} (S : Matrix k k ℝ) : cM (fun p => S p.1 p.2) = S := rfl

/-- The probability that an array is singular vanishes if its limit is regular. -/
theorem conv_det {k : Type} [Fintype k] [DecidableEq k] (S : ∀ t, Ω t → Matrix k k ℝ) (S0 : Matrix k k ℝ) (h0 : S0.det ≠ 0)
    (h : ∀ i j, ConvP P (fun t ω => S t ω i j) (S0 i j)) : Tendsto (fun t => P t {ω | (S t ω).det = 0}) atTop (𝓝 0) := by
  have hc : Continuous fun c : k × k → ℝ => (cM c).det := cM_cont.matrix_det
  have h1 : ∀ᶠ c in 𝓝 (fun p : k × k => S0 p.1 p.2), (cM c).det ≠ 0 := hc.continuousAt.eventually_ne (by rw [cM_eq]; exact h0)
  have hh : ∀ p : k × k, ConvP P (fun t ω => (fun (t : ℕ) (ω : Ω t) (p : k × k) => S t ω p.1 p.2) t ω p) ((fun p : k × k => S0 p.1 p.2) p) := fun p => h p.1 p.2
  have := nhds_conv (ι := k × k) (P := P) (fun (t : ℕ) (ω : Ω t) (p : k × k) => S t ω p.1 p.2) (fun p => S0 p.1 p.2) hh _ h1
  refine this.congr fun t => ?_
  congr 1
  ext ω
  simp only [Set.mem_ofPred_eq, not_not, cM_eq]

theorem conv_matinv {k : Type} [Fintype k] [DecidableEq k] (S : ∀ t, Ω t → Matrix k k ℝ) (S0 : Matrix k k ℝ) (h0 : S0.det ≠ 0)
    (h : ∀ i j, ConvP P (fun t ω => S t ω i j) (S0 i j)) (i j : k) : ConvP P (fun t ω => (S t ω)⁻¹ i j) (S0⁻¹ i j) := by
  have hi : ContinuousAt (fun c : k × k → ℝ => (cM c)⁻¹) (fun p => S0 p.1 p.2) :=
    inv_contAt cM_cont.continuousAt (by rw [cM_eq]; exact h0)
  have he : ContinuousAt (fun c : k × k → ℝ => (cM c)⁻¹ i j) (fun p => S0 p.1 p.2) :=
    (continuous_id.matrix_elem i j).continuousAt.comp hi
  have hh : ∀ p : k × k, ConvP P (fun t ω => (fun (t : ℕ) (ω : Ω t) (p : k × k) => S t ω p.1 p.2) t ω p) ((fun p : k × k => S0 p.1 p.2) p) := fun p => h p.1 p.2
  have := conv_map (ι := k × k) (P := P) (fun (t : ℕ) (ω : Ω t) (p : k × k) => S t ω p.1 p.2) (fun p => S0 p.1 p.2) hh _ he
  simp only [cM_eq] at this
  exact this

theorem conv_neg {X : ∀ t, Ω t → ℝ} {a : ℝ} (hX : ConvP P X a) : ConvP P (fun t ω => -X t ω) (-a) := by
  refine conv_map (P := P) (fun t ω (_ : Unit) => X t ω) (fun _ => a) (fun _ => hX) (fun v => -v ()) (continuous_apply ()).neg.continuousAt

theorem conv_smul {X : ∀ t, Ω t → ℝ} {a : ℝ} (c : ℝ) (hX : ConvP P X a) : ConvP P (fun t ω => c * X t ω) (c * a) := by
  refine conv_map (P := P) (fun t ω (_ : Unit) => X t ω) (fun _ => a) (fun _ => hX) (fun v => c * v ()) (continuous_const.mul (continuous_apply ())).continuousAt

theorem conv_sub {X Y : ∀ t, Ω t → ℝ} {a b : ℝ} (hX : ConvP P X a) (hY : ConvP P Y b) : ConvP P (fun t ω => X t ω - Y t ω) (a - b) :=
  conv_congr (by rw [sub_eq_add_neg]; exact conv_plus hX (conv_neg hY)) fun t ω => sub_eq_add_neg _ _

theorem conv_le {X Y : ∀ t, Ω t → ℝ} (hY : ConvP P Y 0) (h : ∀ t ω, |X t ω| ≤ |Y t ω|) : ConvP P X 0 := by
  intro ε hε
  refine tendsto_of_tendsto_of_tendsto_of_le_of_le tendsto_const_nhds (hY ε hε) (fun _ => zero_le) fun t => measure_mono fun ω hω => ?_
  simp only [Set.mem_ofPred_eq, sub_zero] at hω ⊢
  exact hω.trans (h t ω)

/-! ### The optimiser -/

/-- What `optim_moments` is meant to do for three moment equations: the first coordinate of a point where the sum of squares is least, over
`-0.99 ≤ lambda ≤ 0.99` and `sigma2 ≥ 0`. It is required only if some moment is negative (otherwise the code divides by a scale that can be zero). -/
def Minimises (opt : Moments (Fin 3) (Fin 3) → ℝ) : Prop :=
  ∀ M : Moments (Fin 3) (Fin 3), M.G 0 1 < 0 → ∃ sig, 0 ≤ sig ∧ |opt M| ≤ 0.99 ∧
    ∀ l sig', |l| ≤ 0.99 → 0 ≤ sig' → ∑ i, (M.g i - (M.G i 0 * opt M + M.G i 1 * opt M ^ 2 + M.G i 2 * sig)) ^ 2 ≤
      ∑ i, (M.g i - (M.G i 0 * l + M.G i 1 * l ^ 2 + M.G i 2 * sig')) ^ 2

/-- Minimisers are consistent if the moment equations hold in the limit and identify the parameters. -/
theorem conv_opt (opt : Moments (Fin 3) (Fin 3) → ℝ) (hopt : Minimises opt) (M : ∀ t, Ω t → Moments (Fin 3) (Fin 3)) (G0 : Matrix (Fin 3) (Fin 3) ℝ)
    (hdet : G0.det ≠ 0) (hneg : G0 0 1 < 0) (hG : ∀ i j, ConvP P (fun t ω => (M t ω).G i j) (G0 i j)) (lam s : ℝ) (hlam : |lam| ≤ 0.99) (hs : 0 ≤ s)
    (hr : ∀ i, ConvP P (fun t ω => (M t ω).g i - ((M t ω).G i 0 * lam + (M t ω).G i 1 * lam ^ 2 + (M t ω).G i 2 * s)) 0) :
    ConvP P (fun t ω => opt (M t ω)) lam := by
  classical
  choose! sg hsg using hopt
  set r0 : ∀ t, Ω t → Fin 3 → ℝ := fun t ω i => (M t ω).g i - ((M t ω).G i 0 * lam + (M t ω).G i 1 * lam ^ 2 + (M t ω).G i 2 * s) with hr0
  set rh : ∀ t, Ω t → Fin 3 → ℝ := fun t ω i => if (M t ω).G 0 1 < 0 then
    (M t ω).g i - ((M t ω).G i 0 * opt (M t ω) + (M t ω).G i 1 * opt (M t ω) ^ 2 + (M t ω).G i 2 * sg (M t ω)) else 0 with hrh
  have hsum : ConvP P (fun t ω => ∑ i, r0 t ω i ^ 2) 0 := by
    have := conv_sum (P := P) (fun t ω i => r0 t ω i ^ 2) (fun _ => 0) fun i => by
      have := conv_mul (hr i) (hr i)
      rw [mul_zero] at this
      exact conv_congr this fun t ω => sq _
    simpa using this
  have hrhat : ∀ i, ConvP P (fun t ω => rh t ω i) 0 := by
    intro i
    refine conv_sqrt (conv_le hsum fun t ω => ?_)
    rw [abs_of_nonneg (sq_nonneg _), abs_of_nonneg (Finset.sum_nonneg fun i _ => sq_nonneg _)]
    by_cases hc : (M t ω).G 0 1 < 0
    · have := (hsg (M t ω) hc).2.2 lam s hlam hs
      refine le_trans ?_ this
      have hle := Finset.single_le_sum (f := fun i => ((M t ω).g i - ((M t ω).G i 0 * opt (M t ω) + (M t ω).G i 1 * opt (M t ω) ^ 2 +
        (M t ω).G i 2 * sg (M t ω))) ^ 2) (fun i _ => sq_nonneg _) (Finset.mem_univ i)
      simp only [hrh, if_pos hc]
      exact hle
    · simp only [hrh, if_neg hc]
      rw [zero_pow two_ne_zero]
      exact Finset.sum_nonneg fun i _ => sq_nonneg _
  have hY : ConvP P (fun t ω => lam + ∑ i, ((M t ω).G⁻¹) 0 i * (r0 t ω i - rh t ω i)) lam := by
    have h1 := conv_sum (P := P) (fun t ω i => ((M t ω).G⁻¹) 0 i * (r0 t ω i - rh t ω i)) (fun i => G0⁻¹ 0 i * (0 - 0)) fun i =>
      conv_mul (conv_matinv (fun t ω => (M t ω).G) G0 hdet hG 0 i) (conv_sub (hr i) (hrhat i))
    simp only [sub_zero, mul_zero, Finset.sum_const_zero] at h1
    have := conv_add (P := P) (fun _ => lam) lam tendsto_const_nhds _ h1
    exact this
  have hbad1 := conv_det (fun t ω => (M t ω).G) G0 hdet hG
  have hbad2 : Tendsto (fun t => P t {ω | ¬ (M t ω).G 0 1 < 0}) atTop (𝓝 0) := by
    have := nhds_conv (P := P) (fun t ω (_ : Unit) => (M t ω).G 0 1) (fun _ => G0 0 1) (fun _ => hG 0 1) {v | v () < 0}
      ((continuous_apply (A := fun _ : Unit => ℝ) ()).continuousAt.eventually_lt continuousAt_const hneg)
    exact this
  refine conv_except hY (fun t => {ω | (M t ω).G.det = 0} ∪ {ω | ¬ (M t ω).G 0 1 < 0}) ?_ fun t ω hω => ?_
  · have := hbad1.add hbad2
    rw [add_zero] at this
    exact tendsto_of_tendsto_of_tendsto_of_le_of_le tendsto_const_nhds this (fun _ => zero_le) fun t => measure_union_le _ _
  · simp only [Set.mem_union, Set.mem_ofPred_eq, not_or, not_not] at hω
    obtain ⟨h1, h2⟩ := hω
    have hd : (fun i => r0 t ω i - rh t ω i) = (M t ω).G *ᵥ ![opt (M t ω) - lam, opt (M t ω) ^ 2 - lam ^ 2, sg (M t ω) - s] := by
      funext i
      have e1 : ∀ w : Fin 3 → ℝ, ((M t ω).G *ᵥ w) i = (M t ω).G i 0 * w 0 + (M t ω).G i 1 * w 1 + (M t ω).G i 2 * w 2 := fun w => by
        rw [mulVec, dotProduct, Fin.sum_univ_three]
      rw [e1]
      simp only [hr0, hrh, if_pos h2, Matrix.cons_val_zero, Matrix.cons_val_one, Matrix.cons_val]
      ring
    have h3 : (∑ i, ((M t ω).G⁻¹) 0 i * (r0 t ω i - rh t ω i)) = ((M t ω).G⁻¹ *ᵥ fun i => r0 t ω i - rh t ω i) 0 := rfl
    rw [h3, hd, mulVec_mulVec, nonsing_inv_mul _ (isUnit_iff_ne_zero.2 h1), one_mulVec]
    simp

section model
variable {k : Type} [Fintype k] [DecidableEq k] {n : ℕ → Type} [∀ t, Fintype (n t)] [∀ t, DecidableEq (n t)]
  {W : ∀ t, Matrix (n t) (n t) ℝ} {x : ∀ t, Matrix (n t) k ℝ} {y v e : ∀ t, Ω t → n t → ℝ} {beta : k → ℝ} {lam : ℝ} {s : ∀ t, n t → ℝ}

theorem em_v (h : ErrorModel P n W x y v e beta lam s) (t : ℕ) (ω : Ω t) :
    e t ω = (1 - lam • W t) *ᵥ v t ω ∧ v t ω = (1 - lam • W t)⁻¹ *ᵥ e t ω ∧ y t ω = x t *ᵥ beta + v t ω := by
  have h1 : e t ω = (1 - lam • W t) *ᵥ v t ω := by
    rw [sub_mulVec, one_mulVec, smul_mulVec]
    funext i
    have := h.v_eq t ω i
    have e1 : (W t *ᵥ v t ω) i = ∑ j, W t i j * v t ω j := rfl
    rw [Pi.sub_apply, Pi.smul_apply, smul_eq_mul, e1]
    linarith
  refine ⟨h1, ?_, ?_⟩
  · rw [h1, mulVec_mulVec, nonsing_inv_mul _ (h.reg t), one_mulVec]
  · funext i
    exact h.y_eq t ω i

/-- Averages of products of bounded numbers with spatial lags of the disturbances vanish. -/
theorem em_lin (h : ErrorModel P n W x y v e beta lam s) (A B : ∀ t, Matrix (n t) (n t) ℝ) (a b : ℝ) (hA : ∀ t, Sums (A t) a) (hB : ∀ t, Sums (B t) b) (l : k) :
    ConvP P (fun t ω => ((A t * x t)ᵀ *ᵥ (B t *ᵥ v t ω)) l / Fintype.card (n t)) 0 := by
  obtain ⟨rR, hR⟩ := h.sumsR
  obtain ⟨C, hC⟩ := h.bdd
  obtain ⟨S, hS⟩ := h.var
  have hne : ∀ t, Nonempty (n t) := fun t => Fintype.card_pos_iff.1 (h.pos t)
  have hax : ∀ t i l, |(A t * x t) i l| ≤ a * C := fun t => (hA t).entry (x t) C (hC t)
  have h0 : 0 ≤ a * C := (abs_nonneg _).trans (hax 0 (hne 0).some l)
  refine conv_congr (avg_bdd h.err hS h.size h.pos (fun t => ((A t * x t)ᵀ * (B t * (1 - lam • W t)⁻¹)) l) (a * C * (b * rR))
    fun t i => bdd_prod _ _ _ _ h0 (hax t) ((hB t).mul (hR t)) l i) fun t ω => ?_
  rw [(em_v h t ω).2.1, mulVec_mulVec, mulVec_mulVec, Matrix.mul_assoc]
  rfl

/-- The law of large numbers for quadratic forms of residuals whose coefficients are consistent. -/
theorem em_quad (h : ErrorModel P n W x y v e beta lam s) (A B : ∀ t, Matrix (n t) (n t) ℝ) (a b : ℝ) (hA : ∀ t, Sums (A t) a) (hB : ∀ t, Sums (B t) b)
    (d : ∀ t, Ω t → k → ℝ) (hd : ∀ l, ConvP P (fun t ω => d t ω l) 0) :
    ConvP P (fun t ω => ((A t *ᵥ (v t ω - x t *ᵥ d t ω)) ⬝ᵥ (B t *ᵥ (v t ω - x t *ᵥ d t ω)) -
      ∑ i, s t i * ((A t * (1 - lam • W t)⁻¹)ᵀ * (B t * (1 - lam • W t)⁻¹)) i i) / Fintype.card (n t)) 0 := by
  have hpr : ∀ t, IsProbabilityMeasure (P t) := fun t => (h.err t).prob
  obtain ⟨rR, hR⟩ := h.sumsR
  obtain ⟨C, hC⟩ := h.bdd
  obtain ⟨V, hV⟩ := h.pairs
  have hne : ∀ t, Nonempty (n t) := fun t => Fintype.card_pos_iff.1 (h.pos t)
  have c1 := quad_llnH hV h.size h.pos (fun t => (A t * (1 - lam • W t)⁻¹)ᵀ * (B t * (1 - lam • W t)⁻¹)) (a * rR * (b * rR))
    fun t => (((hA t).mul (hR t)).tr).mul ((hB t).mul (hR t))
  have c2 : ConvP P (fun t ω => ∑ l, d t ω l * (((B t * x t)ᵀ *ᵥ (A t *ᵥ v t ω)) l / Fintype.card (n t))) 0 := by
    have := conv_sum (P := P) (fun t ω l => d t ω l * (((B t * x t)ᵀ *ᵥ (A t *ᵥ v t ω)) l / Fintype.card (n t))) (fun _ => 0 * 0)
      fun l => conv_mul (hd l) (em_lin h B A b a hB hA l)
    simpa using this
  have c3 : ConvP P (fun t ω => ∑ l, d t ω l * (((A t * x t)ᵀ *ᵥ (B t *ᵥ v t ω)) l / Fintype.card (n t))) 0 := by
    have := conv_sum (P := P) (fun t ω l => d t ω l * (((A t * x t)ᵀ *ᵥ (B t *ᵥ v t ω)) l / Fintype.card (n t))) (fun _ => 0 * 0)
      fun l => conv_mul (hd l) (em_lin h A B a b hA hB l)
    simpa using this
  have c4 : ConvP P (fun t ω => ∑ l, ∑ p, (((A t * x t)ᵀ * (B t * x t)) l p / Fintype.card (n t)) * (d t ω l * d t ω p)) 0 := by
    have := conv_sum (P := P) (fun t ω l => ∑ p, (((A t * x t)ᵀ * (B t * x t)) l p / Fintype.card (n t)) * (d t ω l * d t ω p)) (fun _ => 0) fun l => by
      have := conv_sum (P := P) (fun t ω p => (((A t * x t)ᵀ * (B t * x t)) l p / Fintype.card (n t)) * (d t ω l * d t ω p)) (fun _ => 0) fun p => by
        have hz := conv_mul (hd l) (hd p)
        rw [mul_zero] at hz
        have h0 : 0 ≤ a * C := (abs_nonneg _).trans ((hA 0).entry (x 0) C (hC 0) (hne 0).some l)
        exact conv_bdd (fun t => ((A t * x t)ᵀ * (B t * x t)) l p / Fintype.card (n t)) (a * C * (b * C)) (fun t => by
          have := hne t
          exact bdd_cross _ _ _ _ h0 ((hA t).entry (x t) C (hC t)) ((hB t).entry (x t) C (hC t)) l p) hz
      simpa using this
    simpa using this
  have c5 := conv_plus (conv_sub (conv_sub c1 c2) c3) c4
  simp only [sub_zero, add_zero] at c5
  refine conv_congr c5 fun t ω => ?_
  rw [(em_v h t ω).2.1, expand]
  have hc : (Fintype.card (n t) : ℝ) ≠ 0 := by exact_mod_cast (h.pos t).ne'
  have g : ∀ (A B : Matrix (n t) (n t) ℝ) l, ∑ p, ((A * x t)ᵀ * (B * (1 - lam • W t)⁻¹)) l p * e t ω p = ((A * x t)ᵀ *ᵥ (B *ᵥ ((1 - lam • W t)⁻¹ *ᵥ e t ω))) l := by
    intro A B l
    rw [mulVec_mulVec, mulVec_mulVec, Matrix.mul_assoc]
    rfl
  simp only [g, mul_div_assoc']
  rw [← Finset.sum_div, ← Finset.sum_div]
  have g2 : ∀ l p, ((A t * x t)ᵀ * (B t * x t)) l p / (Fintype.card (n t) : ℝ) * (d t ω l * d t ω p) =
    d t ω l * d t ω p * ((A t * x t)ᵀ * (B t * x t)) l p / (Fintype.card (n t) : ℝ) := fun l p => by ring
  simp only [g2]
  simp only [← Finset.sum_div]
  ring

/-- The same for equal variances. -/
theorem em_quad_const {s : ℝ} (h : ErrorModel P n W x y v e beta lam fun _ _ => s) (A B : ∀ t, Matrix (n t) (n t) ℝ) (a b : ℝ) (hA : ∀ t, Sums (A t) a)
    (hB : ∀ t, Sums (B t) b) (d : ∀ t, Ω t → k → ℝ) (hd : ∀ l, ConvP P (fun t ω => d t ω l) 0) :
    ConvP P (fun t ω => ((A t *ᵥ (v t ω - x t *ᵥ d t ω)) ⬝ᵥ (B t *ᵥ (v t ω - x t *ᵥ d t ω)) -
      s * ∑ i, ((A t * (1 - lam • W t)⁻¹)ᵀ * (B t * (1 - lam • W t)⁻¹)) i i) / Fintype.card (n t)) 0 := by
  have := em_quad h A B a b hA hB d hd
  simp only [← Finset.mul_sum] at this
  exact this

end model
end Spreg.Consist
