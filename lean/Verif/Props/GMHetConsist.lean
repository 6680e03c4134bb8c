import Verif.Props.HetConv
set_option linter.unusedSectionVars false
set_option linter.unusedSimpArgs false
/-
C187: the generalized moments estimator for heteroskedastic errors is consistent.
-/
namespace Spreg.Consist
open Spreg Spreg.Lin Spreg.GM Spreg.Sampling Matrix MeasureTheory Filter Topology

variable {Ω : ℕ → Type} [∀ t, MeasurableSpace (Ω t)] {P : ∀ t, Measure (Ω t)}

section det
variable {m : Type} [Fintype m] [DecidableEq m]

/-- The moments in terms of the two arrays. -/
theorem het_mom (W : Matrix m m ℝ) (u : m → ℝ) (a : Fin 2) :
    (moments2eqs (A1het W) W u).g a = (u ⬝ᵥ (hetA W a *ᵥ u)) / Fintype.card m ∧
    (moments2eqs (A1het W) W u).G a 0 = (u ⬝ᵥ ((hetA W a + (hetA W a)ᵀ) *ᵥ (W *ᵥ u))) / Fintype.card m ∧
    (moments2eqs (A1het W) W u).G a 1 = -((W *ᵥ u) ⬝ᵥ (hetA W a *ᵥ (W *ᵥ u))) / Fintype.card m := by
  obtain ⟨h0, h1⟩ := hetA_eq W
  fin_cases a
  · simp only [Fin.zero_eta, Fin.isValue, h0]
    exact ⟨rfl, rfl, by rw [dotProduct_mulVec]; rfl⟩
  · simp only [Fin.mk_one, Fin.isValue, h1]
    exact ⟨rfl, rfl, rfl⟩

theorem het_dev (W : Matrix m m ℝ) (u : m → ℝ) (lam : ℝ) (a : Fin 2) :
    dev (moments2eqs (A1het W) W u) lam a = (((1 - lam • W) *ᵥ u) ⬝ᵥ ((hetA W a * (1 - lam • W)) *ᵥ u)) / Fintype.card m := by
  obtain ⟨h0, h1, h2⟩ := het_mom W u a
  rw [dev, h0, h1, h2]
  generalize hetA W a = A
  have f1 : (1 - lam • W) *ᵥ u = u - lam • (W *ᵥ u) := by rw [sub_mulVec, one_mulVec, smul_mulVec]
  rw [← mulVec_mulVec, f1]
  have tr : u ⬝ᵥ (Aᵀ *ᵥ (W *ᵥ u)) = (W *ᵥ u) ⬝ᵥ (A *ᵥ u) := by rw [dotProduct_mulVec, vecMul_transpose, dotProduct_comm]
  simp only [add_mulVec, mulVec_sub, mulVec_smul, dotProduct_sub, sub_dotProduct, smul_dotProduct, dotProduct_smul, dotProduct_add, smul_eq_mul, tr]
  ring

/-- Products of the elements of the symmetrised arrays. -/
def hetK (W : Matrix m m ℝ) (a b : Fin 2) : Matrix m m ℝ :=
  Matrix.of fun i j => (hetA W a i j + hetA W a j i) * (hetA W b i j + hetA W b j i)

theorem hetK_sums {W : Matrix m m ℝ} {r : ℝ} (hW : Sums W r) (a b : Fin 2) :
    Sums (hetK W a b) (((if a = 0 then r * r else r) + if a = 0 then r * r else r) * ((if b = 0 then r * r else r) + if b = 0 then r * r else r)) := by
  obtain ⟨q, h1, e1⟩ := hetA_sums hW a
  obtain ⟨p, h2, e2⟩ := hetA_sums hW b
  rw [← e1, ← e2]
  exact sums_had (sums_add h1 h1.tr) (sums_add h2 h2.tr)

/-- The elements of the array of weights. -/
theorem het_vc (W : Matrix m m ℝ) (u : m → ℝ) (l : ℝ) (a b : Fin 2) :
    vcHet W (A1het W) (psiSigma W u l) a b =
      (∑ i, ∑ j, hetK W a b i j * (spFilter W l u i ^ 2 * spFilter W l u j ^ 2)) / (2 * Fintype.card m) := by
  obtain ⟨h0, h1⟩ := hetA_eq W
  have hs : ∀ i j, A1het W i j = A1het W j i := fun i j => by
    rw [← h0, hetA, if_pos rfl, of_apply, of_apply]
    by_cases h : i = j
    · rw [if_pos h, if_pos h.symm]
    · rw [if_neg h, if_neg (Ne.symm h)]
      exact Finset.sum_congr rfl fun o _ => mul_comm _ _
  have hE : psiSigma W u l = diagonal fun i => spFilter W l u i ^ 2 := rfl
  have key : ∀ A B : Matrix m m ℝ, (∀ i j, B i j = B j i) → ∑ i, ((A * psiSigma W u l) * (B * psiSigma W u l)) i i =
      ∑ i, ∑ j, A i j * B i j * (spFilter W l u i ^ 2 * spFilter W l u j ^ 2) := by
    intro A B hB
    refine Finset.sum_congr rfl fun i _ => ?_
    rw [mul_apply]
    refine Finset.sum_congr rfl fun j _ => ?_
    rw [hE, mul_diagonal, mul_diagonal, hB i j]
    ring
  have s2 : ∀ i j, ((2 : ℝ) • A1het W) i j = ((2 : ℝ) • A1het W) j i := fun i j => by rw [Matrix.smul_apply, Matrix.smul_apply, hs]
  have sw : ∀ i j, (W + Wᵀ) i j = (W + Wᵀ) j i := fun i j => by
    rw [Matrix.add_apply, Matrix.add_apply, transpose_apply, transpose_apply, add_comm]
  have d2 : ∀ i j, hetA W 0 i j + hetA W 0 j i = ((2 : ℝ) • A1het W) i j := fun i j => by
    rw [h0, hs j i, Matrix.smul_apply, smul_eq_mul, two_mul]
  have dw : ∀ i j, hetA W 1 i j + hetA W 1 j i = (W + Wᵀ) i j := fun i j => by rw [h1]; rfl
  have vc : ∀ a b, vcHet W (A1het W) (psiSigma W u l) a b = (![![∑ i, (((2 : ℝ) • A1het W * psiSigma W u l) * ((2 : ℝ) • A1het W * psiSigma W u l)) i i,
      ∑ i, (((2 : ℝ) • A1het W * psiSigma W u l) * ((W + Wᵀ) * psiSigma W u l)) i i],
      ![∑ i, (((2 : ℝ) • A1het W * psiSigma W u l) * ((W + Wᵀ) * psiSigma W u l)) i i,
        ∑ i, (((W + Wᵀ) * psiSigma W u l) * ((W + Wᵀ) * psiSigma W u l)) i i]] a b) / (2 * Fintype.card m) := fun a b => rfl
  rw [vc, key _ _ s2, key _ _ sw, key _ _ sw]
  congr 1
  fin_cases a <;> fin_cases b
  · simp only [hetK, of_apply, Fin.zero_eta, Fin.isValue, d2]; rfl
  · simp only [hetK, of_apply, Fin.zero_eta, Fin.mk_one, Fin.isValue, d2, dw]; rfl
  · simp only [hetK, of_apply, Fin.zero_eta, Fin.mk_one, Fin.isValue, d2, dw]
    simp only [Matrix.cons_val_zero, Matrix.cons_val_one]
    exact Finset.sum_congr rfl fun i _ => Finset.sum_congr rfl fun j _ => by ring
  · simp only [hetK, of_apply, Fin.mk_one, Fin.isValue, dw]; rfl

theorem vc_sym (W A E : Matrix m m ℝ) : vcHet W A E 0 1 = vcHet W A E 1 0 := rfl

theorem invE_ok {k : Type} [Fintype k] [DecidableEq k] {A : Matrix k k ℝ} (h : A.det ≠ 0) : invE A = .ok A⁻¹ := by
  rw [invE, inv?_of_isUnit (isUnit_iff_ne_zero.2 h)]

theorem olsE_ok {k : Type} [Fintype k] [DecidableEq k] {x : Matrix m k ℝ} {y : m → ℝ} {o : OLSFit m k} (h : ols x y = some o) : olsE x y = .ok o := by
  rw [olsE, h]

/-- The number returned. -/
def okVal (p : Py ℝ) : ℝ :=
  match p with
  | .ok l => l
  | .error _ => 0
end det

section model
variable {k : Type} [Fintype k] [DecidableEq k] {n : ℕ → Type} [∀ t, Fintype (n t)] [∀ t, DecidableEq (n t)]
  {W : ∀ t, Matrix (n t) (n t) ℝ} {x : ∀ t, Matrix (n t) k ℝ} {y v e : ∀ t, Ω t → n t → ℝ} {beta : k → ℝ} {lam : ℝ} {s : ∀ t, n t → ℝ}
  {G Psi : Matrix (Fin 2) (Fin 2) ℝ} {L : Fin 2 → Fin 2 → Matrix k k ℝ}

theorem em_mean (h : ErrorModel P n W x y v e beta lam s) (t : ℕ) (A B : Matrix (n t) (n t) ℝ) :
    ∫ ω, (A *ᵥ v t ω) ⬝ᵥ (B *ᵥ v t ω) ∂P t = ∑ i, s t i * ((A * (1 - lam • W t)⁻¹)ᵀ * (B * (1 - lam • W t)⁻¹)) i i := by
  rw [← (bilin_mean (h.err t) ((A * (1 - lam • W t)⁻¹)ᵀ * (B * (1 - lam • W t)⁻¹))).2]
  congr 1
  funext ω
  rw [(em_v h t ω).2.1, mulVec_mulVec (e t ω) A, mulVec_mulVec (e t ω) B, ← mulVec_mulVec (e t ω) (A * (1 - lam • W t)⁻¹)ᵀ, dotProduct_mulVec (e t ω),
    vecMul_transpose]

/-- Averages of bilinear forms of residuals. -/
theorem em_form (h : ErrorModel P n W x y v e beta lam s) (A B : ∀ t, Matrix (n t) (n t) ℝ) (a b : ℝ) (hA : ∀ t, Sums (A t) a) (hB : ∀ t, Sums (B t) b)
    (d : ∀ t, Ω t → k → ℝ) (hd : ∀ l, ConvP P (fun t ω => d t ω l) 0) (g : ℝ)
    (hg : Tendsto (fun t => (∫ ω, (A t *ᵥ v t ω) ⬝ᵥ (B t *ᵥ v t ω) ∂P t) / Fintype.card (n t)) atTop (𝓝 g)) :
    ConvP P (fun t ω => ((A t *ᵥ (v t ω - x t *ᵥ d t ω)) ⬝ᵥ (B t *ᵥ (v t ω - x t *ᵥ d t ω))) / Fintype.card (n t)) g := by
  refine conv_congr (conv_add _ _ hg _ (em_quad h A B a b hA hB d hd)) fun t ω => ?_
  rw [em_mean h]
  ring

theorem het_G (h : ErrorModel P n W x y v e beta lam s) (hm : HetLimits P n W x v s G Psi L) (d : ∀ t, Ω t → k → ℝ) (hd : ∀ l, ConvP P (fun t ω => d t ω l) 0)
    (i j : Fin 2) : ConvP P (fun t ω => (moments2eqs (A1het (W t)) (W t) (v t ω - x t *ᵥ d t ω)).G i j) (G i j) := by
  obtain ⟨r, hr⟩ := h.sumsW
  have hA : ∀ t, Sums (hetA (W t) i) (if i = 0 then r * r else r) := fun t => by
    obtain ⟨q, h1, e1⟩ := hetA_sums (hr t) i
    rw [← e1]; exact h1
  have hj : j = 0 ∨ j = 1 := by fin_cases j; exacts [Or.inl rfl, Or.inr rfl]
  rcases hj with rfl | rfl
  · have := em_form h (fun t => 1) (fun t => (hetA (W t) i + (hetA (W t) i)ᵀ) * W t) _ _ (fun t => Sums.one) (fun t => (sums_add (hA t) (hA t).tr).mul (hr t)) d hd (G i 0) (by
      refine (hm.lin i).congr fun t => ?_
      simp only [one_mulVec, ← mulVec_mulVec]
      rfl)
    refine conv_congr this fun t ω => ?_
    rw [(het_mom _ _ i).2.1, one_mulVec, ← mulVec_mulVec _ _ (W t)]
  · have := em_form h W (fun t => -(hetA (W t) i * W t)) r ((if i = 0 then r * r else r) * r) hr (fun t => by
      have := (hA t).mul (hr t)
      exact sums_le this fun a b => by rw [Matrix.neg_apply, abs_neg]) d hd (G i 1) (by
      refine (hm.quad i).congr fun t => ?_
      simp only [neg_mulVec, dotProduct_neg, ← mulVec_mulVec, integral_neg]
      rfl)
    refine conv_congr this fun t ω => ?_
    rw [(het_mom _ _ i).2.2, neg_mulVec, dotProduct_neg, ← mulVec_mulVec _ _ (W t)]

theorem het_res (h : ErrorModel P n W x y v e beta lam s) (d : ∀ t, Ω t → k → ℝ) (hd : ∀ l, ConvP P (fun t ω => d t ω l) 0) (i : Fin 2) :
    ConvP P (fun t ω => dev (moments2eqs (A1het (W t)) (W t) (v t ω - x t *ᵥ d t ω)) lam i) 0 := by
  obtain ⟨r, hr⟩ := h.sumsW
  have hA : ∀ t, Sums (hetA (W t) i) (if i = 0 then r * r else r) := fun t => by
    obtain ⟨q, h1, e1⟩ := hetA_sums (hr t) i
    rw [← e1]; exact h1
  have h1 := em_quad h (fun t => 1 - lam • W t) (fun t => hetA (W t) i * (1 - lam • W t)) _ _ (fun t => (hr t).filter lam) (fun t => (hA t).mul ((hr t).filter lam)) d hd
  have e1 : ∀ t, (1 - lam • W t) * (1 - lam • W t)⁻¹ = 1 := fun t => mul_nonsing_inv _ (h.reg t)
  have e2 : ∀ t, hetA (W t) i * (1 - lam • W t) * (1 - lam • W t)⁻¹ = hetA (W t) i := fun t => by rw [Matrix.mul_assoc, e1, Matrix.mul_one]
  simp only [e1, e2, transpose_one, Matrix.one_mul, hetA_diag (h.diag _), mul_zero, Finset.sum_const_zero, sub_zero] at h1
  exact conv_congr h1 fun t ω => het_dev _ _ _ _

theorem het_V (h : ErrorModel P n W x y v e beta lam s) (hq : SquaredErrors P n e s) (hm : HetLimits P n W x v s G Psi L) (lh : ∀ t, Ω t → ℝ) (hl : ConvP P lh lam)
    (d : ∀ t, Ω t → k → ℝ) (hd : ∀ l, ConvP P (fun t ω => d t ω l) 0) (i j : Fin 2) :
    ConvP P (fun t ω => vcHet (W t) (A1het (W t)) (psiSigma (W t) (v t ω - x t *ᵥ d t ω) (lh t ω)) i j) (Psi i j) := by
  obtain ⟨r, hr⟩ := h.sumsW
  have h1 := conv_smul (1 / 2) (het_sqquad h hq lh hl d hd (fun t => hetK (W t) i j) _ (fun t => hetK_sums (hr t) i j) fun t o => by
    rw [hetK, of_apply, hetA_diag (h.diag t)]; simp)
  rw [mul_zero] at h1
  refine conv_congr (conv_add _ _ (hm.psi i j) _ h1) fun t ω => ?_
  rw [het_vc]
  have hc : (Fintype.card (n t) : ℝ) ≠ 0 := by exact_mod_cast (h.pos t).ne'
  have e1 : ∑ a, ∑ b, (hetA (W t) i a b + hetA (W t) i b a) * (hetA (W t) j a b + hetA (W t) j b a) * (s t a * s t b) =
    ∑ a, ∑ b, hetK (W t) i j a b * (s t a * s t b) := rfl
  rw [e1]
  field_simp
  ring

variable (opt : Moments (Fin 2) (Fin 2) → Option (Matrix (Fin 2) (Fin 2) ℝ) → Py ℝ)

theorem het_neg (h : ErrorModel P n W x y v e beta lam s) (hm : HetLimits P n W x v s G Psi L) (hneg : G 1 0 < 0 ∨ G 1 1 < 0)
    (d : ∀ t, Ω t → k → ℝ) (hd : ∀ l, ConvP P (fun t ω => d t ω l) 0) :
    Tendsto (fun t => P t {ω | ¬ ((moments2eqs (A1het (W t)) (W t) (v t ω - x t *ᵥ d t ω)).G 1 0 < 0 ∨ (moments2eqs (A1het (W t)) (W t) (v t ω - x t *ᵥ d t ω)).G 1 1 < 0)})
      atTop (𝓝 0) := by
  have key : ∀ j, G 1 j < 0 → Tendsto (fun t => P t {ω | ¬ (moments2eqs (A1het (W t)) (W t) (v t ω - x t *ᵥ d t ω)).G 1 j < 0}) atTop (𝓝 0) := fun j hj =>
    nhds_conv (P := P) (fun t ω (_ : Unit) => (moments2eqs (A1het (W t)) (W t) (v t ω - x t *ᵥ d t ω)).G 1 j) (fun _ => G 1 j) (fun _ => het_G h hm d hd 1 j) {v | v () < 0}
      ((continuous_apply (A := fun _ : Unit => ℝ) ()).continuousAt.eventually_lt continuousAt_const hj)
  rcases hneg with hj | hj
  · exact tendsto_of_tendsto_of_tendsto_of_le_of_le tendsto_const_nhds (key 0 hj) (fun _ => zero_le) fun t => measure_mono fun ω hω hcon => hω (Or.inl hcon)
  · exact tendsto_of_tendsto_of_tendsto_of_le_of_le tendsto_const_nhds (key 1 hj) (fun _ => zero_le) fun t => measure_mono fun ω hω hcon => hω (Or.inr hcon)

variable {opt}

/-- Lambda from unweighted moments. -/
theorem het_first (h : ErrorModel P n W x y v e beta lam s) (hm : HetLimits P n W x v s G Psi L) (hdet : G.det ≠ 0) (hneg : G 1 0 < 0 ∨ G 1 1 < 0)
    (hopt : Minimises2 opt) (d : ∀ t, Ω t → k → ℝ) (hd : ∀ l, ConvP P (fun t ω => d t ω l) 0) :
    ∃ (bad : ∀ t, Set (Ω t)) (l : ∀ t, Ω t → ℝ), Tendsto (fun t => P t (bad t)) atTop (𝓝 0) ∧ ConvP P l lam ∧
      ∀ t ω, ω ∉ bad t → opt (moments2eqs (A1het (W t)) (W t) (v t ω - x t *ᵥ d t ω)) none = .ok (l t ω) := by
  have hpr : ∀ t, IsProbabilityMeasure (P t) := fun t => (h.err t).prob
  have hb := het_neg h hm hneg d hd
  have hok : ∀ t ω, ω ∉ {ω | ¬ ((moments2eqs (A1het (W t)) (W t) (v t ω - x t *ᵥ d t ω)).G 1 0 < 0 ∨ (moments2eqs (A1het (W t)) (W t) (v t ω - x t *ᵥ d t ω)).G 1 1 < 0)} →
      opt (moments2eqs (A1het (W t)) (W t) (v t ω - x t *ᵥ d t ω)) none = .ok (okVal (opt (moments2eqs (A1het (W t)) (W t) (v t ω - x t *ᵥ d t ω)) none)) ∧
      ∀ l', |l'| ≤ 0.99 → ∑ i, dev (moments2eqs (A1het (W t)) (W t) (v t ω - x t *ᵥ d t ω)) (okVal (opt (moments2eqs (A1het (W t)) (W t) (v t ω - x t *ᵥ d t ω)) none)) i ^ 2 ≤
        ∑ i, dev (moments2eqs (A1het (W t)) (W t) (v t ω - x t *ᵥ d t ω)) l' i ^ 2 := by
    intro t ω hω
    simp only [Set.mem_ofPred_eq, not_not] at hω
    obtain ⟨l, h1, -, h2⟩ := (hopt _ hω).1
    rw [h1]
    exact ⟨rfl, h2⟩
  refine ⟨_, fun t ω => okVal (opt (moments2eqs (A1het (W t)) (W t) (v t ω - x t *ᵥ d t ω)) none), hb, ?_, fun t ω hω => (hok t ω hω).1⟩
  refine conv_opt2 (fun t ω => moments2eqs (A1het (W t)) (W t) (v t ω - x t *ᵥ d t ω)) G hdet (het_G h hm d hd) (fun _ _ => 1) 1 PosDef.one
    (fun i j => conv_const _ _ tendsto_const_nhds) lam h.box (het_res h d hd) _ _ hb fun t ω hω => ⟨PosDef.one, fun l' hl' => ?_⟩
  have := (hok t ω hω).2 l' hl'
  rw [inv_one, one_mulVec, one_mulVec]
  simpa only [dotProduct, ← sq] using this

/-- Lambda from weighted moments. -/
theorem het_weighted (h : ErrorModel P n W x y v e beta lam s) (hq : SquaredErrors P n e s) (hm : HetLimits P n W x v s G Psi L) (hdet : G.det ≠ 0)
    (hneg : G 1 0 < 0 ∨ G 1 1 < 0) (hPsi : Psi.PosDef) (hopt : Minimises2 opt) (d : ∀ t, Ω t → k → ℝ) (hd : ∀ l, ConvP P (fun t ω => d t ω l) 0)
    (lo : ∀ t, Ω t → ℝ) (hlo : ConvP P lo lam) :
    ∃ (bad : ∀ t, Set (Ω t)) (l : ∀ t, Ω t → ℝ), Tendsto (fun t => P t (bad t)) atTop (𝓝 0) ∧ ConvP P l lam ∧
      ∀ t ω, ω ∉ bad t → opt (moments2eqs (A1het (W t)) (W t) (v t ω - x t *ᵥ d t ω))
        (some (vcHet (W t) (A1het (W t)) (psiSigma (W t) (v t ω - x t *ᵥ d t ω) (lo t ω)))) = .ok (l t ω) := by
  have hpr : ∀ t, IsProbabilityMeasure (P t) := fun t => (h.err t).prob
  have cV := het_V h hq hm lo hlo d hd
  have hb2 := conv_posdef (fun t ω => vcHet (W t) (A1het (W t)) (psiSigma (W t) (v t ω - x t *ᵥ d t ω) (lo t ω))) (fun t ω => vc_sym _ _ _) Psi hPsi cV
  have hb := (het_neg h hm hneg d hd).add hb2
  rw [add_zero] at hb
  have hb := tendsto_of_tendsto_of_tendsto_of_le_of_le tendsto_const_nhds hb (fun _ => zero_le) fun t => measure_union_le (μ := P t) _ _
  have hok : ∀ t ω, ω ∉ {ω | ¬ ((moments2eqs (A1het (W t)) (W t) (v t ω - x t *ᵥ d t ω)).G 1 0 < 0 ∨ (moments2eqs (A1het (W t)) (W t) (v t ω - x t *ᵥ d t ω)).G 1 1 < 0)} ∪
        {ω | ¬ (vcHet (W t) (A1het (W t)) (psiSigma (W t) (v t ω - x t *ᵥ d t ω) (lo t ω))).PosDef} →
      opt (moments2eqs (A1het (W t)) (W t) (v t ω - x t *ᵥ d t ω)) (some (vcHet (W t) (A1het (W t)) (psiSigma (W t) (v t ω - x t *ᵥ d t ω) (lo t ω)))) =
        .ok (okVal (opt (moments2eqs (A1het (W t)) (W t) (v t ω - x t *ᵥ d t ω)) (some (vcHet (W t) (A1het (W t)) (psiSigma (W t) (v t ω - x t *ᵥ d t ω) (lo t ω)))))) ∧
      (vcHet (W t) (A1het (W t)) (psiSigma (W t) (v t ω - x t *ᵥ d t ω) (lo t ω))).PosDef ∧
      ∀ l', |l'| ≤ 0.99 →
        dev (moments2eqs (A1het (W t)) (W t) (v t ω - x t *ᵥ d t ω)) (okVal (opt (moments2eqs (A1het (W t)) (W t) (v t ω - x t *ᵥ d t ω))
          (some (vcHet (W t) (A1het (W t)) (psiSigma (W t) (v t ω - x t *ᵥ d t ω) (lo t ω)))))) ⬝ᵥ
          ((vcHet (W t) (A1het (W t)) (psiSigma (W t) (v t ω - x t *ᵥ d t ω) (lo t ω)))⁻¹ *ᵥ
            dev (moments2eqs (A1het (W t)) (W t) (v t ω - x t *ᵥ d t ω)) (okVal (opt (moments2eqs (A1het (W t)) (W t) (v t ω - x t *ᵥ d t ω))
              (some (vcHet (W t) (A1het (W t)) (psiSigma (W t) (v t ω - x t *ᵥ d t ω) (lo t ω))))))) ≤
        dev (moments2eqs (A1het (W t)) (W t) (v t ω - x t *ᵥ d t ω)) l' ⬝ᵥ
          ((vcHet (W t) (A1het (W t)) (psiSigma (W t) (v t ω - x t *ᵥ d t ω) (lo t ω)))⁻¹ *ᵥ dev (moments2eqs (A1het (W t)) (W t) (v t ω - x t *ᵥ d t ω)) l') := by
    intro t ω hω
    simp only [Set.mem_union, Set.mem_ofPred_eq, not_or, not_not] at hω
    obtain ⟨l, h1, -, h2⟩ := (hopt _ ((not_and_or.1 hω.1).imp not_not.1 not_not.1)).2 _ hω.2
    rw [h1]
    exact ⟨rfl, hω.2, h2⟩
  refine ⟨_, fun t ω => okVal (opt (moments2eqs (A1het (W t)) (W t) (v t ω - x t *ᵥ d t ω)) (some (vcHet (W t) (A1het (W t)) (psiSigma (W t) (v t ω - x t *ᵥ d t ω) (lo t ω))))),
    hb, ?_, fun t ω hω => (hok t ω hω).1⟩
  exact conv_opt2 (fun t ω => moments2eqs (A1het (W t)) (W t) (v t ω - x t *ᵥ d t ω)) G hdet (het_G h hm d hd) _ Psi hPsi cV lam h.box (het_res h d hd) _ _ hb
    fun t ω hω => (hok t ω hω).2

/-- What a pass of the loop leaves behind. -/
noncomputable def stepOf {m : Type} [Fintype m] [DecidableEq m] (W : Matrix m m ℝ) (x : Matrix m k ℝ) (v : m → ℝ) (beta d : k → ℝ) (l : ℝ) : Step m k :=
  ⟨beta + d, x *ᵥ (beta + d), v - x *ᵥ d, moments2eqs (A1het W) W (v - x *ᵥ d), l⟩

/-- One pass of the loop. -/
theorem het_pass (h : ErrorModel P n W x y v e beta lam s) (hq : SquaredErrors P n e s) (hm : HetLimits P n W x v s G Psi L) (hdet : G.det ≠ 0)
    (hneg : G 1 0 < 0 ∨ G 1 1 < 0) (hPsi : Psi.PosDef) {q : Fin 2 → Fin 2 → Matrix k k ℝ} (hreg : RegLimits n W x q) (hqs : (limitS q lam).det ≠ 0)
    (hopt : Minimises2 opt) (lo : ∀ t, Ω t → ℝ) (hlo : ConvP P lo lam) :
    ∃ (bad : ∀ t, Set (Ω t)) (d : ∀ t, Ω t → k → ℝ) (l : ∀ t, Ω t → ℝ), Tendsto (fun t => P t (bad t)) atTop (𝓝 0) ∧ (∀ j, ConvP P (fun t ω => d t ω j) 0) ∧
      ConvP P l lam ∧ ∀ t ω, ω ∉ bad t → hetStep opt (W t) (x t) (y t ω) (lo t ω) = .ok (stepOf (W t) (x t) (v t ω) beta (d t ω) (l t ω)) := by
  have hc : ∀ t, (Fintype.card (n t) : ℝ) ≠ 0 := fun t => by exact_mod_cast (h.pos t).ne'
  set S : ∀ t, Ω t → Matrix k k ℝ := fun t ω => (Fintype.card (n t) : ℝ)⁻¹ • ((spFilterM (W t) (lo t ω) (x t))ᵀ * spFilterM (W t) (lo t ω) (x t)) with hSd
  have cS : ∀ i j, ConvP P (fun t ω => S t ω i j) (limitS q lam i j) := em_S h hreg lo hlo
  set d : ∀ t, Ω t → k → ℝ := fun t ω => (S t ω)⁻¹ *ᵥ ((Fintype.card (n t) : ℝ)⁻¹ • ((spFilterM (W t) (lo t ω) (x t))ᵀ *ᵥ spFilter (W t) (lo t ω) (v t ω))) with hd
  have cd : ∀ l, ConvP P (fun t ω => d t ω l) 0 := conv_solve _ _ hqs cS _ (em_w h lo hlo)
  obtain ⟨bad, l, hb, cl, hl⟩ := het_weighted h hq hm hdet hneg hPsi hopt d cd lo hlo
  refine ⟨fun t => bad t ∪ {ω | (S t ω).det = 0}, d, l, ?_, cd, cl, fun t ω hω => ?_⟩
  · have b1 := hb.add (conv_det _ _ hqs cS)
    rw [add_zero] at b1
    exact tendsto_of_tendsto_of_tendsto_of_le_of_le tendsto_const_nhds b1 (fun _ => zero_le) fun t => measure_union_le _ _
  · simp only [Set.mem_union, Set.mem_ofPred_eq, not_or] at hω
    obtain ⟨f, g, gb, -, -⟩ := ols_scaled (spFilterM (W t) (lo t ω) (x t)) beta (spFilter (W t) (lo t ω) (v t ω)) _ (hc t) hω.2
    have hys : spFilter (W t) (lo t ω) (y t ω) = spFilterM (W t) (lo t ω) (x t) *ᵥ beta + spFilter (W t) (lo t ω) (v t ω) := by
      rw [(em_v h t ω).2.2]
      simp only [spFilter, spFilterM, mulVec_add, sub_mulVec, smul_mulVec, smul_add, mulVec_mulVec]
      abel
    have gb' : f.betas = beta + d t ω := gb
    have hu : y t ω - x t *ᵥ (beta + d t ω) = v t ω - x t *ᵥ d t ω := by
      rw [(em_v h t ω).2.2, mulVec_add]
      abel
    have e1 : hetStep opt (W t) (x t) (y t ω) (lo t ω) = (do
        let lam ← opt (moments2eqs (A1het (W t)) (W t) (y t ω - x t *ᵥ f.betas)) (some (vcHet (W t) (A1het (W t)) (psiSigma (W t) (y t ω - x t *ᵥ f.betas) (lo t ω))))
        return ⟨f.betas, x t *ᵥ f.betas, y t ω - x t *ᵥ f.betas, moments2eqs (A1het (W t)) (W t) (y t ω - x t *ᵥ f.betas), lam⟩ : Py (Step (n t) k)) := by
      rw [hetStep, hys, olsE_ok g]
      rfl
    rw [e1, gb', hu, hl t ω hω.1]
    rfl

/-- The rest of the loop. -/
theorem het_loop (h : ErrorModel P n W x y v e beta lam s) (hq : SquaredErrors P n e s) (hm : HetLimits P n W x v s G Psi L) (hdet : G.det ≠ 0)
    (hneg : G 1 0 < 0 ∨ G 1 1 < 0) (hPsi : Psi.PosDef) {q : Fin 2 → Fin 2 → Matrix k k ℝ} (hreg : RegLimits n W x q) (hqs : (limitS q lam).det ≠ 0)
    (hopt : Minimises2 opt) (epsilon : ℝ) (r : ℕ) : ∀ (lo : ∀ t, Ω t → ℝ), ConvP P lo lam → ∀ (eps : ∀ t, Ω t → ℝ) (d0 : ∀ t, Ω t → k → ℝ),
    (∀ j, ConvP P (fun t ω => d0 t ω j) 0) → ∀ (l0 : ∀ t, Ω t → ℝ), ConvP P l0 lam →
    ∃ (bad : ∀ t, Set (Ω t)) (d : ∀ t, Ω t → k → ℝ) (l : ∀ t, Ω t → ℝ) (it : ∀ t, Ω t → ℕ), Tendsto (fun t => P t (bad t)) atTop (𝓝 0) ∧
      (∀ j, ConvP P (fun t ω => d t ω j) 0) ∧ ConvP P l lam ∧ ∀ t ω, ω ∉ bad t →
        gmLoop (hetStep opt (W t) (x t) (y t ω)) Step.lam epsilon r (lo t ω) (eps t ω) (some (stepOf (W t) (x t) (v t ω) beta (d0 t ω) (l0 t ω))) =
          .ok (some (stepOf (W t) (x t) (v t ω) beta (d t ω) (l t ω)), it t ω) := by
  classical
  induction r with
  | zero =>
    intro lo _ eps d0 hd0 l0 hl0
    exact ⟨fun _ => ∅, d0, l0, fun _ _ => 0, by simp, hd0, hl0, fun t ω _ => rfl⟩
  | succ r ih =>
    intro lo hlo eps d0 hd0 l0 hl0
    obtain ⟨b1, d1, l1, hb1, cd1, cl1, hs1⟩ := het_pass h hq hm hdet hneg hPsi hreg hqs hopt lo hlo
    obtain ⟨b2, d2, l2, it2, hb2, cd2, cl2, hs2⟩ := ih l1 cl1 (fun t ω => |l1 t ω - lo t ω|) d1 cd1 l1 cl1
    refine ⟨fun t => b1 t ∪ b2 t, fun t ω => if epsilon < eps t ω then d2 t ω else d0 t ω, fun t ω => if epsilon < eps t ω then l2 t ω else l0 t ω,
      fun t ω => if epsilon < eps t ω then it2 t ω + 1 else 0, ?_, fun j => ?_, conv_ite cl2 hl0 _, fun t ω hω => ?_⟩
    · have := hb1.add hb2
      rw [add_zero] at this
      exact tendsto_of_tendsto_of_tendsto_of_le_of_le tendsto_const_nhds this (fun _ => zero_le) fun t => measure_union_le _ _
    · refine conv_congr (conv_ite (cd2 j) (hd0 j) fun t ω => epsilon < eps t ω) fun t ω => ?_
      show (if epsilon < eps t ω then d2 t ω else d0 t ω) j = _
      split_ifs <;> rfl
    · simp only [Set.mem_union, not_or] at hω
      by_cases he : epsilon < eps t ω
      · have e1 := hs1 t ω hω.1
        have e2 := hs2 t ω hω.2
        simp only [if_pos he]
        rw [gmLoop, if_pos he, e1]
        show (do
          let (l, it) ← gmLoop (hetStep opt (W t) (x t) (y t ω)) Step.lam epsilon r (l1 t ω) |l1 t ω - lo t ω| (some (stepOf (W t) (x t) (v t ω) beta (d1 t ω) (l1 t ω)))
          return (l, it + 1) : Py _) = _
        rw [e2]
        rfl
      · simp only [if_neg he]
        rw [gmLoop, if_neg he]

/-- Limit of the variance of the moment conditions of the coefficients. -/
def limitL (L : Fin 2 → Fin 2 → Matrix k k ℝ) (lam : ℝ) : Matrix k k ℝ := L 0 0 - lam • L 0 1 - lam • L 1 0 + lam ^ 2 • L 1 1

/-- Cross products of the filtered regressors weighted by the squared filtered residuals. -/
theorem het_mid (h : ErrorModel P n W x y v e beta lam s) (hq : SquaredErrors P n e s) (hm : HetLimits P n W x v s G Psi L) (lh : ∀ t, Ω t → ℝ) (hl : ConvP P lh lam)
    (d : ∀ t, Ω t → k → ℝ) (hd : ∀ l, ConvP P (fun t ω => d t ω l) 0) (i j : k) :
    ConvP P (fun t ω => ((Fintype.card (n t) : ℝ)⁻¹ • (((spFilterM (W t) (lh t ω) (x t))ᵀ * psiSigma (W t) (v t ω - x t *ᵥ d t ω) (lh t ω)) *
      spFilterM (W t) (lh t ω) (x t)) : Matrix k k ℝ) i j) (limitL L lam i j) := by
  have hpr : ∀ t, IsProbabilityMeasure (P t) := fun t => (h.err t).prob
  obtain ⟨C, hC⟩ := h.bdd
  have hne : ∀ t, Nonempty (n t) := fun t => Fintype.card_pos_iff.1 (h.pos t)
  have c : ∀ a b : Fin 2, ConvP P (fun t ω => (∑ o, ((W t ^ a.1 * x t : Matrix (n t) k ℝ) o i * (W t ^ b.1 * x t : Matrix (n t) k ℝ) o j) *
      spFilter (W t) (lh t ω) (v t ω - x t *ᵥ d t ω) o ^ 2) / (Fintype.card (n t) : ℝ)) (L a b i j) := fun a b => by
    obtain ⟨ra, ha⟩ := sums_pow h.sumsW a.1
    obtain ⟨rb, hb⟩ := sums_pow h.sumsW b.1
    have h0 : 0 ≤ ra * C := (abs_nonneg _).trans ((ha 0).entry (x 0) C (hC 0) (hne 0).some i)
    have h1 := het_lin h hq lh hl d hd (fun t o => (W t ^ a.1 * x t : Matrix (n t) k ℝ) o i * (W t ^ b.1 * x t : Matrix (n t) k ℝ) o j) (ra * C * (rb * C)) fun t o => by
      rw [abs_mul]
      exact mul_le_mul ((ha t).entry (x t) C (hC t) o i) ((hb t).entry (x t) C (hC t) o j) (abs_nonneg _) h0
    refine conv_congr (conv_add _ _ (hm.reg a b i j) _ h1) fun t ω => ?_
    ring
  have := conv_plus (conv_sub (conv_sub (c 0 0) (conv_mul hl (c 0 1))) (conv_mul hl (c 1 0))) (conv_mul (conv_mul hl hl) (c 1 1))
  rw [← sq] at this
  refine conv_congr this fun t ω => ?_
  have hE : psiSigma (W t) (v t ω - x t *ᵥ d t ω) (lh t ω) = diagonal fun o => spFilter (W t) (lh t ω) (v t ω - x t *ᵥ d t ω) o ^ 2 := rfl
  rw [Matrix.smul_apply, mul_apply, smul_eq_mul, hE]
  simp only [mul_diagonal, transpose_apply]
  generalize (fun o => spFilter (W t) (lh t ω) (v t ω - x t *ᵥ d t ω) o ^ 2) = E
  have hp : ∀ o, spFilter (W t) (lh t ω) (v t ω - x t *ᵥ d t ω) o ^ 2 = spFilter (W t) (lh t ω) (v t ω - x t *ᵥ d t ω) o ^ 2 := fun o => rfl
  generalize spFilter (W t) (lh t ω) (v t ω - x t *ᵥ d t ω) = f
  simp only [spFilterM, Matrix.sub_apply, Matrix.smul_apply, smul_eq_mul, Fin.val_zero, Fin.val_one, pow_zero, pow_one, Matrix.one_mul,
    Fin.isValue, Fin.coe_ofNat_eq_mod, Nat.zero_mod, Nat.one_mod, div_eq_inv_mul]
  simp only [Finset.mul_sum]
  rw [← Finset.sum_sub_distrib, ← Finset.sum_sub_distrib, ← Finset.sum_add_distrib]
  exact Finset.sum_congr rfl fun o _ => by ring

theorem vmHet_ok {m : Type} [Fintype m] [DecidableEq m] (G : Matrix (Fin 2) (Fin 2) ℝ) (l : ℝ) (x : Matrix m k ℝ) (u : m → ℝ) (W : Matrix m m ℝ) (psi : Matrix (Fin 2) (Fin 2) ℝ)
    (h1 : ((spFilterM W l x)ᵀ * spFilterM W l x).det ≠ 0) (h2 : psi.det ≠ 0) (h3 : ((jac G l)ᵀ * psi⁻¹ * jac G l).det ≠ 0) :
    vmHet G l x u W psi = .ok ((1 / N m) • fromBlocks (N m • ((((spFilterM W l x)ᵀ * spFilterM W l x)⁻¹ *
      (((spFilterM W l x)ᵀ * psiSigma W u l) * spFilterM W l x)) * ((spFilterM W l x)ᵀ * spFilterM W l x)⁻¹)) 0 0 ((jac G l)ᵀ * psi⁻¹ * jac G l)⁻¹) := by
  rw [vmHet, invE_ok h1, invE_ok h2]
  show (do
    let om22 ← invE (((jac G l)ᵀ * psi⁻¹) * jac G l)
    return (1 / N m) • fromBlocks _ 0 0 om22 : Py _) = _
  rw [invE_ok h3]
  rfl

/-- Derivative of the moments with respect to lambda. -/
def jac0 (G : Matrix (Fin 2) (Fin 2) ℝ) (lam : ℝ) : Matrix (Fin 2) Unit ℝ := Matrix.of fun a _ => G a 0 + 2 * lam * G a 1

theorem jac_eq (G : Matrix (Fin 2) (Fin 2) ℝ) (lam : ℝ) : jac G lam = jac0 G lam := by
  ext a u
  rw [jac, mul_apply, Fin.sum_univ_two, jac0]
  simp only [of_apply, Matrix.cons_val_zero, Matrix.cons_val_one]
  ring

theorem jac_pos (G Psi : Matrix (Fin 2) (Fin 2) ℝ) (lam : ℝ) (hdet : G.det ≠ 0) (hPsi : Psi.PosDef) : ((jac0 G lam)ᵀ * Psi⁻¹ * jac0 G lam).det ≠ 0 := by
  have h0 : (fun a => jac0 G lam a ()) ≠ 0 := by
    intro hz
    have h1 : G *ᵥ ![1, 2 * lam] = 0 := by
      funext a
      have := congrFun hz a
      rw [mulVec, dotProduct, Fin.sum_univ_two]
      simp only [jac0, of_apply, Pi.zero_apply, Matrix.cons_val_zero, Matrix.cons_val_one] at this ⊢
      linarith
    have h2 : G⁻¹ *ᵥ (G *ᵥ ![1, 2 * lam]) = 0 := by rw [h1, mulVec_zero]
    rw [mulVec_mulVec, nonsing_inv_mul _ (isUnit_iff_ne_zero.2 hdet), one_mulVec] at h2
    have := congrFun h2 0
    simp at this
  have h1 := hPsi.inv.dotProduct_mulVec_pos h0
  rw [star_trivial, dotProduct_mulVec] at h1
  rw [det_unique, mul_apply]
  exact h1.ne'

theorem het_fit {m : Type} [Fintype m] [DecidableEq m] (W : Matrix m m ℝ) (x : Matrix m k ℝ) (y v : m → ℝ) (beta d : k → ℝ) (maxIter it : ℕ) (epsilon lam1 lam2 l : ℝ)
    (step1c hardBound : Bool) (o : OLSFit m k) (ho : ols x y = some o) (h1 : opt (moments2eqs (A1het W) W o.u) none = .ok lam1)
    (h2 : step1cLam opt W (moments2eqs (A1het W) W o.u) o.u lam1 step1c = .ok lam2)
    (h3 : gmLoop (hetStep opt W x y) Step.lam epsilon maxIter lam2 1 none = .ok (some (stepOf W x v beta d l), it))
    (h4 : ¬ (hardBound = true ∧ (99 / 100 : ℝ) ≤ |l|)) (vm : Matrix (k ⊕ Unit) (k ⊕ Unit) ℝ)
    (h5 : vmHet (moments2eqs (A1het W) W (v - x *ᵥ d)).G l x (v - x *ᵥ d) W (vcHet W (A1het W) (psiSigma W (v - x *ᵥ d) l)) = .ok vm) :
    ∃ f, (gmErrorHet opt W x y maxIter epsilon step1c hardBound).toOption = some f ∧ f.betas = beta + d ∧ f.lam = l ∧ f.vm = vm := by
  refine ⟨⟨beta + d, l, x *ᵥ (beta + d), v - x *ᵥ d, (v - x *ᵥ d) - l • (W *ᵥ (v - x *ᵥ d)), vm, it, iterMsg it maxIter⟩, ?_, rfl, rfl, rfl⟩
  have e : gmErrorHet opt W x y maxIter epsilon step1c hardBound = .ok ⟨beta + d, l, x *ᵥ (beta + d), v - x *ᵥ d, (v - x *ᵥ d) - l • (W *ᵥ (v - x *ᵥ d)), vm, it, iterMsg it maxIter⟩ := by
    rw [gmErrorHet, olsE_ok ho]
    show (do
      let lam1 ← opt (moments2eqs (A1het W) W o.u) none
      let lam2 ← step1cLam opt W (moments2eqs (A1het W) W o.u) o.u lam1 step1c
      let (last, it) ← gmLoop (hetStep opt W x y) Step.lam epsilon maxIter lam2 1 none
      let s ← bound last
      if hardBound ∧ (99 / 100 : ℝ) ≤ |s.lam| then .error .exception
      else do
        let vm ← vmHet s.moments.G s.lam x s.u W (vcHet W (A1het W) (psiSigma W s.u s.lam))
        return ⟨s.betas, s.lam, s.predy, s.u, s.u - s.lam • (W *ᵥ s.u), vm, it, iterMsg it maxIter⟩ : Py (IterFit m k)) = _
    rw [h1]
    show (do
      let lam2 ← step1cLam opt W (moments2eqs (A1het W) W o.u) o.u lam1 step1c
      let (last, it) ← gmLoop (hetStep opt W x y) Step.lam epsilon maxIter lam2 1 none
      let s ← bound last
      if hardBound ∧ (99 / 100 : ℝ) ≤ |s.lam| then .error .exception
      else do
        let vm ← vmHet s.moments.G s.lam x s.u W (vcHet W (A1het W) (psiSigma W s.u s.lam))
        return ⟨s.betas, s.lam, s.predy, s.u, s.u - s.lam • (W *ᵥ s.u), vm, it, iterMsg it maxIter⟩ : Py (IterFit m k)) = _
    rw [h2]
    show (do
      let (last, it) ← gmLoop (hetStep opt W x y) Step.lam epsilon maxIter lam2 1 none
      let s ← bound last
      if hardBound ∧ (99 / 100 : ℝ) ≤ |s.lam| then .error .exception
      else do
        let vm ← vmHet s.moments.G s.lam x s.u W (vcHet W (A1het W) (psiSigma W s.u s.lam))
        return ⟨s.betas, s.lam, s.predy, s.u, s.u - s.lam • (W *ᵥ s.u), vm, it, iterMsg it maxIter⟩ : Py (IterFit m k)) = _
    rw [h3]
    show (if hardBound ∧ (99 / 100 : ℝ) ≤ |l| then .error .exception
      else do
        let vm ← vmHet (moments2eqs (A1het W) W (v - x *ᵥ d)).G l x (v - x *ᵥ d) W (vcHet W (A1het W) (psiSigma W (v - x *ᵥ d) l))
        return ⟨beta + d, l, x *ᵥ (beta + d), v - x *ᵥ d, (v - x *ᵥ d) - l • (W *ᵥ (v - x *ᵥ d)), vm, it, iterMsg it maxIter⟩ : Py (IterFit m k)) = _
    rw [if_neg h4, h5]
    rfl
  rw [e]
  rfl

theorem union_zero {A B : ∀ t, Set (Ω t)} (hA : Tendsto (fun t => P t (A t)) atTop (𝓝 0)) (hB : Tendsto (fun t => P t (B t)) atTop (𝓝 0)) :
    Tendsto (fun t => P t (A t ∪ B t)) atTop (𝓝 0) := by
  have := hA.add hB
  rw [add_zero] at this
  exact tendsto_of_tendsto_of_tendsto_of_le_of_le tendsto_const_nhds this (fun _ => zero_le) fun t => measure_union_le _ _

theorem het_core (h : ErrorModel P n W x y v e beta lam s) (hq : SquaredErrors P n e s) (hm : HetLimits P n W x v s G Psi L) (hdet : G.det ≠ 0)
    (hneg : G 1 0 < 0 ∨ G 1 1 < 0) (hPsi : Psi.PosDef) {q : Fin 2 → Fin 2 → Matrix k k ℝ} (hreg : RegLimits n W x q) (hq0 : (q 0 0).det ≠ 0)
    (hqs : (limitS q lam).det ≠ 0) (hopt : Minimises2 opt) (maxIter : ℕ) (hmax : 0 < maxIter) (epsilon : ℝ) (heps : epsilon < 1)
    (step1c hardBound : Bool) (hbound : hardBound = true → |lam| < 0.99) :
    ∃ (bad : ∀ t, Set (Ω t)) (l : ∀ t, Ω t → ℝ) (d : ∀ t, Ω t → k → ℝ) (vm : ∀ t, Ω t → Matrix (k ⊕ Unit) (k ⊕ Unit) ℝ), Tendsto (fun t => P t (bad t)) atTop (𝓝 0) ∧
      ConvP P l lam ∧ (∀ j, ConvP P (fun t ω => d t ω j) 0) ∧
      (∀ i j, ConvP P (fun t ω => vm t ω i j) (fromBlocks ((limitS q lam)⁻¹ * limitL L lam * (limitS q lam)⁻¹) 0 0 (((jac0 G lam)ᵀ * Psi⁻¹ * jac0 G lam)⁻¹) i j)) ∧
      ∀ t ω, ω ∉ bad t → ∃ f, (gmErrorHet opt (W t) (x t) (y t ω) maxIter epsilon step1c hardBound).toOption = some f ∧ f.betas = beta + d t ω ∧ f.lam = l t ω ∧
        f.vm = (1 / (Fintype.card (n t) : ℝ)) • vm t ω := by
  have hpr : ∀ t, IsProbabilityMeasure (P t) := fun t => (h.err t).prob
  have hc : ∀ t, (Fintype.card (n t) : ℝ) ≠ 0 := fun t => by exact_mod_cast (h.pos t).ne'
  -- OLS
  have hS1 : ∀ i j, ConvP P (fun t _ => ((Fintype.card (n t) : ℝ)⁻¹ • ((x t)ᵀ * x t) : Matrix k k ℝ) i j) (q 0 0 i j) := fun i j =>
    conv_congr (conv_const _ _ (hreg 0 0 i j)) fun t ω => by
      rw [Matrix.smul_apply, mul_apply, div_eq_inv_mul, smul_eq_mul]
      simp
  have hw1 : ∀ l, ConvP P (fun t ω => ((Fintype.card (n t) : ℝ)⁻¹ • ((x t)ᵀ *ᵥ v t ω)) l) 0 := fun l =>
    conv_congr (em_lin h (fun t => 1) (fun t => 1) 1 1 (fun t => Sums.one) (fun t => Sums.one) l) fun t ω => by
      rw [Pi.smul_apply, Matrix.one_mul, one_mulVec, smul_eq_mul, div_eq_inv_mul]
  set d1 : ∀ t, Ω t → k → ℝ := fun t ω => ((Fintype.card (n t) : ℝ)⁻¹ • ((x t)ᵀ * x t))⁻¹ *ᵥ ((Fintype.card (n t) : ℝ)⁻¹ • ((x t)ᵀ *ᵥ v t ω)) with hd1
  have cd1 : ∀ l, ConvP P (fun t ω => d1 t ω l) 0 := conv_solve _ _ hq0 hS1 _ hw1
  -- lambda
  obtain ⟨b1, l1, hb1, cl1, h1⟩ := het_first h hm hdet hneg hopt d1 cd1
  obtain ⟨b2, l2, hb2, cl2, h2⟩ := het_weighted h hq hm hdet hneg hPsi hopt d1 cd1 l1 cl1
  set l2' : ∀ t, Ω t → ℝ := fun t ω => if step1c then l2 t ω else l1 t ω with hl2'
  have cl2' : ConvP P l2' lam := conv_ite cl2 cl1 fun _ _ => step1c = true
  -- loop
  obtain ⟨r, rfl⟩ : ∃ r, maxIter = r + 1 := ⟨maxIter - 1, by omega⟩
  obtain ⟨b3, d3, l3, hb3, cd3, cl3, h3⟩ := het_pass h hq hm hdet hneg hPsi hreg hqs hopt l2' cl2'
  obtain ⟨b4, d, l, it, hb4, cd, cl, h4⟩ := het_loop h hq hm hdet hneg hPsi hreg hqs hopt epsilon r l3 cl3 (fun t ω => |l3 t ω - l2' t ω|) d3 cd3 l3 cl3
  -- variance matrix
  set S : ∀ t, Ω t → Matrix k k ℝ := fun t ω => (Fintype.card (n t) : ℝ)⁻¹ • ((spFilterM (W t) (l t ω) (x t))ᵀ * spFilterM (W t) (l t ω) (x t)) with hSd
  have cS : ∀ i j, ConvP P (fun t ω => S t ω i j) (limitS q lam i j) := em_S h hreg l cl
  set M : ∀ t, Ω t → Matrix k k ℝ := fun t ω => (Fintype.card (n t) : ℝ)⁻¹ • (((spFilterM (W t) (l t ω) (x t))ᵀ * psiSigma (W t) (v t ω - x t *ᵥ d t ω) (l t ω)) *
      spFilterM (W t) (l t ω) (x t)) with hMd
  have cM' : ∀ i j, ConvP P (fun t ω => M t ω i j) (limitL L lam i j) := het_mid h hq hm l cl d cd
  set V : ∀ t, Ω t → Matrix (Fin 2) (Fin 2) ℝ := fun t ω => vcHet (W t) (A1het (W t)) (psiSigma (W t) (v t ω - x t *ᵥ d t ω) (l t ω)) with hVd
  have cV : ∀ i j, ConvP P (fun t ω => V t ω i j) (Psi i j) := het_V h hq hm l cl d cd
  set J : ∀ t, Ω t → Matrix (Fin 2) Unit ℝ := fun t ω => jac0 (moments2eqs (A1het (W t)) (W t) (v t ω - x t *ᵥ d t ω)).G (l t ω) with hJd
  have cJ : ∀ i j, ConvP P (fun t ω => J t ω i j) (jac0 G lam i j) := fun i _ =>
    conv_plus (het_G h hm d cd i 0) (conv_mul (conv_smul 2 cl) (het_G h hm d cd i 1))
  have cV' := conv_matinv V Psi hPsi.det_pos.ne' cV
  have cO : ∀ i j, ConvP P (fun t ω => ((J t ω)ᵀ * (V t ω)⁻¹ * J t ω) i j) (((jac0 G lam)ᵀ * Psi⁻¹ * jac0 G lam) i j) :=
    conv_matmul (conv_matmul (X := fun t ω => (J t ω)ᵀ) (A := (jac0 G lam)ᵀ) (fun i j => cJ j i) cV') cJ
  have hO := jac_pos G Psi lam hdet hPsi
  have cSi := conv_matinv S (limitS q lam) hqs cS
  have hb5 : Tendsto (fun t => P t {ω | hardBound = true ∧ (99 / 100 : ℝ) ≤ |l t ω|}) atTop (𝓝 0) := by
    by_cases hh : hardBound = true
    · have := nhds_conv (P := P) (fun t ω (_ : Unit) => l t ω) (fun _ => lam) (fun _ => cl) {v | |v ()| < 99 / 100}
        ((continuous_apply (A := fun _ : Unit => ℝ) ()).abs.continuousAt.eventually_lt continuousAt_const (by have := hbound hh; norm_num at this ⊢; exact this))
      refine tendsto_of_tendsto_of_tendsto_of_le_of_le tendsto_const_nhds this (fun _ => zero_le) fun t => measure_mono fun ω hω => ?_
      simp only [Set.mem_ofPred_eq, not_lt] at hω ⊢
      exact hω.2
    · simp [hh]
  refine ⟨fun t => ({_ω | ((Fintype.card (n t) : ℝ)⁻¹ • ((x t)ᵀ * x t)).det = 0} ∪ b1 t) ∪ (b2 t ∪ (b3 t ∪ b4 t)) ∪ ({ω | hardBound = true ∧ (99 / 100 : ℝ) ≤ |l t ω|} ∪
      ({ω | (S t ω).det = 0} ∪ ({ω | (V t ω).det = 0} ∪ {ω | ((J t ω)ᵀ * (V t ω)⁻¹ * J t ω).det = 0}))), l, d,
    fun t ω => fromBlocks ((S t ω)⁻¹ * M t ω * (S t ω)⁻¹) 0 0 (((J t ω)ᵀ * (V t ω)⁻¹ * J t ω)⁻¹), ?_, cl, cd, ?_, ?_⟩
  · exact union_zero (union_zero (union_zero (conv_det _ _ hq0 hS1) hb1) (union_zero hb2 (union_zero hb3 hb4)))
      (union_zero hb5 (union_zero (conv_det _ _ hqs cS) (union_zero (conv_det _ _ hPsi.det_pos.ne' cV) (conv_det _ _ hO cO))))
  · intro i j
    rcases i with i | i <;> rcases j with j | j
    · exact conv_matmul (conv_matmul cSi cM') cSi i j
    · exact conv_const _ _ tendsto_const_nhds
    · exact conv_const _ _ tendsto_const_nhds
    · exact conv_matinv _ _ hO cO i j
  · intro t ω hω
    simp only [Set.mem_union, Set.mem_ofPred_eq, not_or] at hω
    obtain ⟨⟨⟨g0, g1⟩, g2, g3, g4⟩, g5, g6, g7, g8⟩ := hω
    obtain ⟨o, ho, -, hou, -⟩ := ols_scaled (x t) beta (v t ω) _ (hc t) g0
    have hou' : o.u = v t ω - x t *ᵥ d1 t ω := hou
    have hy : y t ω = x t *ᵥ beta + v t ω := (em_v h t ω).2.2
    have hdS : ((spFilterM (W t) (l t ω) (x t))ᵀ * spFilterM (W t) (l t ω) (x t)).det ≠ 0 := by
      intro hz
      apply g6
      show ((Fintype.card (n t) : ℝ)⁻¹ • ((spFilterM (W t) (l t ω) (x t))ᵀ * spFilterM (W t) (l t ω) (x t))).det = 0
      rw [det_smul, hz, mul_zero]
    have hvm := vmHet_ok (moments2eqs (A1het (W t)) (W t) (v t ω - x t *ᵥ d t ω)).G (l t ω) (x t) (v t ω - x t *ᵥ d t ω) (W t) (V t ω) hdS g7 (by rw [jac_eq]; exact g8)
    refine het_fit (opt := opt) (W t) (x t) (y t ω) (v t ω) beta (d t ω) (r + 1) (it t ω + 1) epsilon (l1 t ω) (l2' t ω) (l t ω) step1c hardBound o (hy ▸ ho)
      (by rw [hou']; exact h1 t ω g1) ?_ ?_ g5 _ (hvm.trans ?_)
    · rw [step1cLam, hou', h2 t ω g2]
      simp only [hl2']
      cases step1c <;> rfl
    · rw [gmLoop, if_pos heps, h3 t ω g3]
      show (do
        let (l, it) ← gmLoop (hetStep opt (W t) (x t) (y t ω)) Step.lam epsilon r (l3 t ω) |l3 t ω - l2' t ω| (some (stepOf (W t) (x t) (v t ω) beta (d3 t ω) (l3 t ω)))
        return (l, it + 1) : Py _) = _
      rw [h4 t ω g4]
      rfl
    · congr 2
      rw [jac_eq]
      congr 1
      have hinv : ((spFilterM (W t) (l t ω) (x t))ᵀ * spFilterM (W t) (l t ω) (x t))⁻¹ = (Fintype.card (n t) : ℝ)⁻¹ • (S t ω)⁻¹ := by
        refine inv_eq_right_inv ?_
        rw [Matrix.mul_smul, ← Matrix.smul_mul]
        exact mul_nonsing_inv _ (isUnit_iff_ne_zero.2 g6)
      have hmid : ((spFilterM (W t) (l t ω) (x t))ᵀ * psiSigma (W t) (v t ω - x t *ᵥ d t ω) (l t ω)) * spFilterM (W t) (l t ω) (x t) = (Fintype.card (n t) : ℝ) • M t ω := by
        show _ = (Fintype.card (n t) : ℝ) • ((Fintype.card (n t) : ℝ)⁻¹ • _)
        rw [smul_smul, mul_inv_cancel₀ (hc t), one_smul]
      rw [hinv, hmid]
      show (Fintype.card (n t) : ℝ) • _ = _
      rw [Matrix.smul_mul, Matrix.mul_smul, smul_smul, mul_inv_cancel₀ (hc t), one_smul]
      simp only [Matrix.mul_smul, Matrix.smul_mul, smul_smul, inv_mul_cancel₀ (hc t), one_smul]

/-- **C187.** `GM_Error_Het` is consistent when the errors have different, unknown variances: for any number of iterations, with or without step 1c, the coefficients and
lambda converge in probability to their true values, and `n` times the reported variance matrix converges to `S⁻¹ Λ S⁻¹` for the coefficients, where `S` and `Λ` are the
limits of the cross products of the filtered regressors, without and with the variances of the errors, and to `(J' Psi⁻¹ J)⁻¹` with `J = G (1, 2 lambda)'` for lambda. The estimator
exists with a probability that goes to one. The optimiser is any that minimises the weighted sum of squared moments over the admissible values. -/
theorem C187_gmErrorHet (h : ErrorModel P n W x y v e beta lam s) (hq : SquaredErrors P n e s) (hm : HetLimits P n W x v s G Psi L) (hdet : G.det ≠ 0)
    (hneg : G 1 0 < 0 ∨ G 1 1 < 0) (hPsi : Psi.PosDef) {q : Fin 2 → Fin 2 → Matrix k k ℝ} (hreg : RegLimits n W x q) (hq0 : (q 0 0).det ≠ 0)
    (hqs : (q 0 0 - lam • q 0 1 - lam • q 1 0 + lam ^ 2 • q 1 1).det ≠ 0) (hopt : Minimises2 opt) (maxIter : ℕ) (hmax : 0 < maxIter) (epsilon : ℝ) (heps : epsilon < 1)
    (step1c hardBound : Bool) (hbound : hardBound = true → |lam| < 0.99) :
    Consistent P (fun t ω => (gmErrorHet opt (W t) (x t) (y t ω) maxIter epsilon step1c hardBound).toOption.map fun f => f.betas) beta ∧
    Consistent P (fun t ω => (gmErrorHet opt (W t) (x t) (y t ω) maxIter epsilon step1c hardBound).toOption.map fun f (_ : Unit) => f.lam) (fun _ => lam) ∧
    Consistent P (fun t ω => (gmErrorHet opt (W t) (x t) (y t ω) maxIter epsilon step1c hardBound).toOption.map fun f (p : (k ⊕ Unit) × (k ⊕ Unit)) =>
        Fintype.card (n t) * f.vm p.1 p.2) (fun p => fromBlocks
      ((q 0 0 - lam • q 0 1 - lam • q 1 0 + lam ^ 2 • q 1 1)⁻¹ * (L 0 0 - lam • L 0 1 - lam • L 1 0 + lam ^ 2 • L 1 1) *
        (q 0 0 - lam • q 0 1 - lam • q 1 0 + lam ^ 2 • q 1 1)⁻¹) 0 0
      (((Matrix.of fun a (_ : Unit) => G a 0 + 2 * lam * G a 1)ᵀ * Psi⁻¹ * (Matrix.of fun a (_ : Unit) => G a 0 + 2 * lam * G a 1))⁻¹) p.1 p.2) := by
  obtain ⟨bad, l, d, vm, hbad, cl, cd, cv, hf⟩ := het_core h hq hm hdet hneg hPsi hreg hq0 hqs hopt maxIter hmax epsilon heps step1c hardBound hbound
  refine ⟨?_, ?_, ?_⟩
  · refine consistent_except (fun t ω => beta + d t ω) bad hbad (fun t ω hω => ?_) _ fun j => ?_
    · obtain ⟨f, e1, e2, -⟩ := hf t ω hω
      rw [e1, Option.map_some, e2]
    · exact conv_add (fun _ => beta j) (beta j) tendsto_const_nhds _ (cd j)
  · refine consistent_except (fun t ω _ => l t ω) bad hbad (fun t ω hω => ?_) _ fun _ => cl
    obtain ⟨f, e1, -, e2, -⟩ := hf t ω hω
    rw [e1, Option.map_some, e2]
  · refine consistent_except (k := (k ⊕ Unit) × (k ⊕ Unit)) (fun t ω (p : (k ⊕ Unit) × (k ⊕ Unit)) => vm t ω p.1 p.2) bad hbad (fun t ω hω => ?_) _ fun p => cv p.1 p.2
    obtain ⟨f, e1, -, -, e2⟩ := hf t ω hω
    have hc : (Fintype.card (n t) : ℝ) ≠ 0 := by exact_mod_cast (h.pos t).ne'
    rw [e1, Option.map_some, e2]
    congr 1
    funext p
    rw [Matrix.smul_apply, smul_eq_mul, ← mul_assoc, mul_one_div_cancel hc, one_mul]
end model
end Spreg.Consist
