import Verif.Props.HetOpt
set_option linter.unusedSectionVars false
/-
C187: averages of squared filtered residuals.
-/
namespace Spreg.Consist
open Spreg Spreg.Lin Spreg.GM Spreg.Sampling Matrix MeasureTheory Filter Topology

section det
variable {m : Type} [Fintype m] [DecidableEq m]

theorem sums_norm {K : Matrix m m ℝ} {r : ℝ} (h : Sums K r) (y : m → ℝ) : ∑ i, (K *ᵥ y) i ^ 2 ≤ r ^ 2 * ∑ i, y i ^ 2 := by
  by_cases hn : Nonempty m
  swap
  · rw [not_nonempty_iff] at hn; simp
  have hr := h.nonneg
  have h1 : ∀ i, (K *ᵥ y) i ^ 2 ≤ r * ∑ j, |K i j| * y j ^ 2 := fun i => by
    have := Finset.sum_sq_le_sum_mul_sum_of_sq_eq_mul Finset.univ (f := fun j => |K i j|) (g := fun j => |K i j| * y j ^ 2) (r := fun j => K i j * y j)
      (fun j _ => abs_nonneg _) (fun j _ => by positivity) (fun j _ => by rw [mul_pow, ← sq_abs (K i j)]; ring)
    refine this.trans (mul_le_mul_of_nonneg_right (h.1 i) (Finset.sum_nonneg fun j _ => by positivity))
  calc ∑ i, (K *ᵥ y) i ^ 2 ≤ ∑ i, r * ∑ j, |K i j| * y j ^ 2 := Finset.sum_le_sum fun i _ => h1 i
    _ = r * ∑ j, (∑ i, |K i j|) * y j ^ 2 := by
      rw [← Finset.mul_sum, Finset.sum_comm]
      simp only [Finset.sum_mul]
    _ ≤ r * ∑ j, r * y j ^ 2 := mul_le_mul_of_nonneg_left (Finset.sum_le_sum fun j _ => mul_le_mul_of_nonneg_right (h.2 j) (sq_nonneg _)) hr
    _ = _ := by rw [← Finset.mul_sum]; ring

theorem sums_four {K : Matrix m m ℝ} {r : ℝ} (h : Sums K r) (y : m → ℝ) : ∑ i, (K *ᵥ y) i ^ 4 ≤ r ^ 4 * ∑ i, y i ^ 4 := by
  by_cases hn : Nonempty m
  swap
  · rw [not_nonempty_iff] at hn; simp
  have hr := h.nonneg
  have hk : Sums (Matrix.of fun i j => |K i j|) r := ⟨fun i => by simpa using h.1 i, fun j => by simpa using h.2 j⟩
  have h1 : ∀ i, (K *ᵥ y) i ^ 4 ≤ r ^ 2 * ((Matrix.of fun i j => |K i j|) *ᵥ fun j => y j ^ 2) i ^ 2 := fun i => by
    have := Finset.sum_sq_le_sum_mul_sum_of_sq_eq_mul Finset.univ (f := fun j => |K i j|) (g := fun j => |K i j| * y j ^ 2) (r := fun j => K i j * y j)
      (fun j _ => abs_nonneg _) (fun j _ => by positivity) (fun j _ => by rw [mul_pow, ← sq_abs (K i j)]; ring)
    have h0 : 0 ≤ ∑ j, |K i j| * y j ^ 2 := Finset.sum_nonneg fun j _ => by positivity
    have h2 : (K *ᵥ y) i ^ 2 ≤ r * ∑ j, |K i j| * y j ^ 2 := this.trans (mul_le_mul_of_nonneg_right (h.1 i) h0)
    calc (K *ᵥ y) i ^ 4 = ((K *ᵥ y) i ^ 2) ^ 2 := by ring
      _ ≤ (r * ∑ j, |K i j| * y j ^ 2) ^ 2 := pow_le_pow_left₀ (sq_nonneg _) h2 2
      _ = _ := by rw [mul_pow]; rfl
  calc ∑ i, (K *ᵥ y) i ^ 4 ≤ ∑ i, r ^ 2 * ((Matrix.of fun i j => |K i j|) *ᵥ fun j => y j ^ 2) i ^ 2 := Finset.sum_le_sum fun i _ => h1 i
    _ ≤ r ^ 2 * (r ^ 2 * ∑ i, (y i ^ 2) ^ 2) := by
      rw [← Finset.mul_sum]
      exact mul_le_mul_of_nonneg_left (sums_norm hk _) (sq_nonneg _)
    _ = _ := by rw [← mul_assoc]; congr 1; · ring
                exact Finset.sum_congr rfl fun i _ => by ring

theorem sums_bil {K : Matrix m m ℝ} {r : ℝ} (h : Sums K r) (a y : m → ℝ) : (a ⬝ᵥ (K *ᵥ y)) ^ 2 ≤ r ^ 2 * ((∑ i, a i ^ 2) * ∑ i, y i ^ 2) := by
  have h1 := Finset.sum_mul_sq_le_sq_mul_sq Finset.univ a (K *ᵥ y)
  refine h1.trans ?_
  rw [mul_left_comm]
  exact mul_le_mul_of_nonneg_left (sums_norm h y) (Finset.sum_nonneg fun i _ => sq_nonneg _)

theorem sums_add {A B : Matrix m m ℝ} {a b : ℝ} (hA : Sums A a) (hB : Sums B b) : Sums (A + B) (a + b) := by
  constructor
  · intro i
    refine (Finset.sum_le_sum fun j _ => abs_add_le (A i j) (B i j)).trans ?_
    rw [Finset.sum_add_distrib]; exact add_le_add (hA.1 i) (hB.1 i)
  · intro j
    refine (Finset.sum_le_sum fun i _ => abs_add_le (A i j) (B i j)).trans ?_
    rw [Finset.sum_add_distrib]; exact add_le_add (hA.2 j) (hB.2 j)

theorem sums_le {A B : Matrix m m ℝ} {b : ℝ} (hB : Sums B b) (h : ∀ i j, |A i j| ≤ |B i j|) : Sums A b :=
  ⟨fun i => (Finset.sum_le_sum fun j _ => h i j).trans (hB.1 i), fun j => (Finset.sum_le_sum fun i _ => h i j).trans (hB.2 j)⟩

theorem sums_get {A : Matrix m m ℝ} {a : ℝ} (hA : Sums A a) (i j : m) : |A i j| ≤ a :=
  (Finset.single_le_sum (f := fun j => |A i j|) (fun _ _ => abs_nonneg _) (Finset.mem_univ j)).trans (hA.1 i)

/-- Products element by element. -/
theorem sums_had {A B : Matrix m m ℝ} {a b : ℝ} (hA : Sums A a) (hB : Sums B b) : Sums (Matrix.of fun i j => A i j * B i j) (a * b) := by
  by_cases hn : Nonempty m
  swap
  · rw [not_nonempty_iff] at hn; exact ⟨fun i => (hn.false i).elim, fun i => (hn.false i).elim⟩
  have ha := hA.nonneg
  constructor
  · intro i
    calc ∑ j, |A i j * B i j| ≤ ∑ j, a * |B i j| := Finset.sum_le_sum fun j _ => by
          rw [abs_mul]; exact mul_le_mul_of_nonneg_right (sums_get hA i j) (abs_nonneg _)
      _ ≤ a * b := by rw [← Finset.mul_sum]; exact mul_le_mul_of_nonneg_left (hB.1 i) ha
  · intro j
    calc ∑ i, |A i j * B i j| ≤ ∑ i, a * |B i j| := Finset.sum_le_sum fun i _ => by
          rw [abs_mul]; exact mul_le_mul_of_nonneg_right (sums_get hA i j) (abs_nonneg _)
      _ ≤ a * b := by rw [← Finset.mul_sum]; exact mul_le_mul_of_nonneg_left (hB.2 j) ha

theorem hetA_eq (W : Matrix m m ℝ) : hetA W 0 = A1het W ∧ hetA W 1 = W := by
  refine ⟨?_, if_neg (by decide)⟩
  rw [hetA, if_pos rfl]
  ext i j
  rw [A1het, Matrix.sub_apply, diagonal_apply, of_apply]
  by_cases h : i = j
  · rw [if_pos h, if_pos h, h, sub_self]
  · rw [if_neg h, if_neg h, sub_zero, mul_apply]; rfl

theorem hetA_sums {W : Matrix m m ℝ} {r : ℝ} (hW : Sums W r) (a : Fin 2) : ∃ q, Sums (hetA W a) q ∧ q = if a = 0 then r * r else r := by
  by_cases h : a = 0
  · refine ⟨r * r, ?_, (if_pos h).symm⟩
    refine sums_le (hW.tr.mul hW) fun i j => ?_
    rw [hetA, if_pos h, of_apply]
    by_cases hij : i = j
    · rw [if_pos hij, abs_zero]; exact abs_nonneg _
    · rw [if_neg hij, mul_apply]; rfl
  · exact ⟨r, by rw [hetA, if_neg h]; exact hW, (if_neg h).symm⟩

theorem hetA_diag {W : Matrix m m ℝ} (hW : ∀ i, W i i = 0) (a : Fin 2) (i : m) : hetA W a i i = 0 := by
  rw [hetA]
  split_ifs
  · rw [of_apply, if_pos rfl]
  · exact hW i
end det

variable {Ω : ℕ → Type} [∀ t, MeasurableSpace (Ω t)] {P : ∀ t, Measure (Ω t)}

theorem conv_abs {X : ∀ t, Ω t → ℝ} {a : ℝ} (hX : ConvP P X a) : ConvP P (fun t ω => |X t ω|) |a| :=
  conv_map (P := P) (fun t ω (_ : Unit) => X t ω) (fun _ => a) (fun _ => hX) (fun v => |v ()|) (continuous_apply ()).abs.continuousAt

theorem conv_pow {X : ∀ t, Ω t → ℝ} {a : ℝ} (hX : ConvP P X a) (p : ℕ) : ConvP P (fun t ω => X t ω ^ p) (a ^ p) :=
  conv_map (P := P) (fun t ω (_ : Unit) => X t ω) (fun _ => a) (fun _ => hX) (fun v => v () ^ p) ((continuous_apply ()).pow p).continuousAt

theorem conv_mul_le {X F Y : ∀ t, Ω t → ℝ} (hX : ConvP P X 0) (hY : MeanBdd P Y) (hF : ∀ t ω, 0 ≤ F t ω ∧ F t ω ≤ Y t ω) : ConvP P (fun t ω => X t ω * F t ω) 0 := by
  refine conv_le (conv_mbdd hX hY) fun t ω => ?_
  rw [abs_mul, abs_mul]
  refine mul_le_mul_of_nonneg_left ?_ (abs_nonneg _)
  rw [abs_of_nonneg (hF t ω).1]
  exact (hF t ω).2.trans (le_abs_self _)

section model
variable {k : Type} [Fintype k] [DecidableEq k] {n : ℕ → Type} [∀ t, Fintype (n t)] [∀ t, DecidableEq (n t)]
  {W : ∀ t, Matrix (n t) (n t) ℝ} {x : ∀ t, Matrix (n t) k ℝ} {y v e : ∀ t, Ω t → n t → ℝ} {beta : k → ℝ} {lam : ℝ} {s : ∀ t, n t → ℝ}

theorem het_s (h : ErrorModel P n W x y v e beta lam s) : ∃ S, 0 ≤ S ∧ ∀ t i, |s t i| ≤ S := by
  obtain ⟨S, hS⟩ := h.var
  refine ⟨|S|, abs_nonneg _, fun t i => ?_⟩
  have h0 : 0 ≤ s t i := by
    have := (h.err t).cov i i
    rw [if_pos rfl] at this
    rw [← this]
    exact integral_nonneg fun ω => mul_self_nonneg _
  rw [abs_of_nonneg h0]
  exact (hS t i).trans (le_abs_self _)

/-- Average fourth powers of the errors do not grow. -/
theorem het_four (h : ErrorModel P n W x y v e beta lam s) (hq : SquaredErrors P n e s) :
    ∃ Y, MeanBdd P Y ∧ ∀ t ω, 0 ≤ (∑ i, e t ω i ^ 4) / Fintype.card (n t) ∧ (∑ i, e t ω i ^ 4) / Fintype.card (n t) ≤ Y t ω := by
  obtain ⟨κ, K, V, hκ, he, hp⟩ := hq
  obtain ⟨S, hS0, hS⟩ := het_s h
  have hc : ∀ t, (0 : ℝ) < Fintype.card (n t) := fun t => by exact_mod_cast h.pos t
  have c1 := quad_llnH hp h.size h.pos (fun t => 1) 1 fun t => Sums.one
  refine ⟨fun t ω => 2 * ((∑ i, (e t ω i ^ 2 - s t i) ^ 2) / Fintype.card (n t)) + 2 * S ^ 2,
    ⟨fun t => 2 * ((∑ i, κ t i) / Fintype.card (n t)) + 2 * S ^ 2, 2 * K + 2 * S ^ 2, fun t => ?_, ?_⟩, fun t ω => ⟨?_, ?_⟩⟩
  · have h1 : 0 ≤ (∑ i, κ t i) / Fintype.card (n t) := div_nonneg (Finset.sum_nonneg fun i _ => (hκ t i).1) (hc t).le
    have h2 : (∑ i, κ t i) / Fintype.card (n t) ≤ K := by
      rw [div_le_iff₀ (hc t)]
      refine (Finset.sum_le_sum fun i _ => (hκ t i).2).trans ?_
      rw [Finset.sum_const, Finset.card_univ, nsmul_eq_mul, mul_comm]
    rw [abs_of_nonneg (by positivity)]
    linarith
  · have := conv_smul 2 c1
    rw [mul_zero] at this
    refine conv_congr this fun t ω => ?_
    simp only [one_mulVec, one_apply_eq, mul_one, dotProduct, ← sq]
    ring
  · exact div_nonneg (Finset.sum_nonneg fun i _ => by positivity) (hc t).le
  · rw [div_le_iff₀ (hc t)]
    have : ∀ i, e t ω i ^ 4 ≤ 2 * (e t ω i ^ 2 - s t i) ^ 2 + 2 * S ^ 2 := fun i => by
      have h1 : s t i ^ 2 ≤ S ^ 2 := by
        rw [← sq_abs]; exact pow_le_pow_left₀ (abs_nonneg _) (hS t i) 2
      nlinarith [sq_nonneg (e t ω i ^ 2 - 2 * s t i)]
    refine (Finset.sum_le_sum fun i _ => this i).trans (le_of_eq ?_)
    rw [Finset.sum_add_distrib, ← Finset.mul_sum, Finset.sum_const, Finset.card_univ, nsmul_eq_mul]
    have := (hc t).ne'
    field_simp

/-- The squares of the filtered residuals are close to the squared errors. -/
theorem het_close (h : ErrorModel P n W x y v e beta lam s) (hq : SquaredErrors P n e s) (lh : ∀ t, Ω t → ℝ) (hl : ConvP P lh lam)
    (d : ∀ t, Ω t → k → ℝ) (hd : ∀ l, ConvP P (fun t ω => d t ω l) 0) :
    ConvP P (fun t ω => (∑ i, (spFilter (W t) (lh t ω) (v t ω - x t *ᵥ d t ω) i ^ 2 - e t ω i ^ 2) ^ 2) / Fintype.card (n t)) 0 := by
  have hpr : ∀ t, IsProbabilityMeasure (P t) := fun t => (h.err t).prob
  have hc : ∀ t, (0 : ℝ) < Fintype.card (n t) := fun t => by exact_mod_cast h.pos t
  obtain ⟨Y, hY, hF⟩ := het_four h hq
  obtain ⟨r, hr⟩ := h.sumsW
  obtain ⟨rR, hR⟩ := h.sumsR
  obtain ⟨C, hC⟩ := h.bdd
  set δ : ∀ t, Ω t → n t → ℝ := fun t ω i => spFilter (W t) (lh t ω) (v t ω - x t *ᵥ d t ω) i - e t ω i with hδ
  set c : ∀ t, Ω t → ℝ := fun t ω => (C + |lh t ω| * (r * C)) * ∑ l, |d t ω l| with hcdef
  have hδe : ∀ t ω i, δ t ω i = (lam - lh t ω) * ((W t * (1 - lam • W t)⁻¹) *ᵥ e t ω) i - (spFilterM (W t) (lh t ω) (x t) *ᵥ d t ω) i := by
    intro t ω i
    have e1 : (W t * (1 - lam • W t)⁻¹) *ᵥ e t ω = W t *ᵥ v t ω := by rw [← mulVec_mulVec, ← (em_v h t ω).2.1]
    have e2 : e t ω = v t ω - lam • (W t *ᵥ v t ω) := by
      have := (em_v h t ω).1
      rwa [sub_mulVec, one_mulVec, smul_mulVec] at this
    have e3 := congrFun (spFilter_resid (W t) (lh t ω) (x t) (v t ω) (d t ω)) i
    have e4 := congrFun e2 i
    simp only [hδ]
    rw [← e3, e1, e4]
    simp only [spFilter, Pi.sub_apply, Pi.smul_apply, smul_eq_mul]
    ring
  have hw : ∀ t ω i, |(spFilterM (W t) (lh t ω) (x t) *ᵥ d t ω) i| ≤ c t ω := by
    intro t ω i
    have hz : ∀ l, |spFilterM (W t) (lh t ω) (x t) i l| ≤ C + |lh t ω| * (r * C) := fun l => by
      rw [spFilterM, Matrix.sub_apply, Matrix.smul_apply, smul_eq_mul]
      refine (abs_sub _ _).trans (add_le_add (hC t i l) ?_)
      rw [abs_mul]
      exact mul_le_mul_of_nonneg_left ((hr t).entry (x t) C (hC t) i l) (abs_nonneg _)
    refine (Finset.abs_sum_le_sum_abs _ _).trans ?_
    simp only [hcdef]
    rw [Finset.mul_sum]
    exact Finset.sum_le_sum fun l _ => by rw [abs_mul]; exact mul_le_mul_of_nonneg_right (hz l) (abs_nonneg _)
  have cc : ConvP P c 0 := by
    have h1 := conv_sum (P := P) (fun t ω l => |d t ω l|) (fun _ => |0|) fun l => conv_abs (hd l)
    simp only [abs_zero, Finset.sum_const_zero] at h1
    have h2 := conv_mul (conv_plus (conv_const (P := P) (fun _ => C) C tendsto_const_nhds) (conv_mul (conv_abs hl) (conv_const (P := P) (fun _ => r * C) _ tendsto_const_nhds))) h1
    rw [mul_zero] at h2
    exact h2
  have cl : ConvP P (fun t ω => 8 * (rR * r) ^ 4 * (lam - lh t ω) ^ 4) 0 := by
    have h1 := conv_sub (conv_const (P := P) (fun _ => lam) lam tendsto_const_nhds) hl
    rw [sub_self] at h1
    have h2 := conv_smul (8 * (rR * r) ^ 4) (conv_pow h1 4)
    simpa using h2
  have cD : ConvP P (fun t ω => (∑ i, δ t ω i ^ 4) / Fintype.card (n t)) 0 := by
    have h1 := conv_plus (conv_mul_le cl hY hF) (conv_smul 8 (conv_pow cc 4))
    simp only [ne_eq, OfNat.ofNat_ne_zero, not_false_eq_true, zero_pow, mul_zero, add_zero] at h1
    refine conv_le h1 fun t ω => ?_
    rw [abs_of_nonneg (div_nonneg (Finset.sum_nonneg fun i _ => by positivity) (hc t).le)]
    refine le_trans ?_ (le_abs_self _)
    have k1 : ∀ i, δ t ω i ^ 4 ≤ 8 * (lam - lh t ω) ^ 4 * ((W t * (1 - lam • W t)⁻¹) *ᵥ e t ω) i ^ 4 + 8 * c t ω ^ 4 := fun i => by
      rw [hδe]
      generalize ((W t * (1 - lam • W t)⁻¹) *ᵥ e t ω) i = p
      have hw4 : (spFilterM (W t) (lh t ω) (x t) *ᵥ d t ω) i ^ 4 ≤ c t ω ^ 4 := by
        have := pow_le_pow_left₀ (abs_nonneg _) (hw t ω i) 4
        rwa [← abs_pow, abs_of_nonneg (by positivity)] at this
      revert hw4
      generalize (spFilterM (W t) (lh t ω) (x t) *ᵥ d t ω) i = w
      generalize (lam - lh t ω) = g
      intro hw4
      have k2 : (g * p - w) ^ 2 ≤ 2 * ((g * p) ^ 2 + w ^ 2) := by nlinarith [sq_nonneg (g * p + w)]
      have k3 : (g * p - w) ^ 4 ≤ (2 * ((g * p) ^ 2 + w ^ 2)) ^ 2 := by
        have := pow_le_pow_left₀ (sq_nonneg _) k2 2
        calc (g * p - w) ^ 4 = ((g * p - w) ^ 2) ^ 2 := by ring
          _ ≤ _ := this
      nlinarith [sq_nonneg ((g * p) ^ 2 - w ^ 2)]
    have k4 := sums_four ((hr t).mul (hR t)) (e t ω)
    rw [div_le_iff₀ (hc t)]
    refine (Finset.sum_le_sum fun i _ => k1 i).trans ?_
    rw [Finset.sum_add_distrib, ← Finset.mul_sum, Finset.sum_const, Finset.card_univ, nsmul_eq_mul]
    have k5 : (8 * (rR * r) ^ 4 * (lam - lh t ω) ^ 4 * ((∑ i, e t ω i ^ 4) / Fintype.card (n t)) + 8 * c t ω ^ 4) * Fintype.card (n t) =
        8 * (lam - lh t ω) ^ 4 * ((r * rR) ^ 4 * ∑ i, e t ω i ^ 4) + Fintype.card (n t) * (8 * c t ω ^ 4) := by
      have := (hc t).ne'
      field_simp
    rw [k5]
    have : 0 ≤ 8 * (lam - lh t ω) ^ 4 := by positivity
    linarith [mul_le_mul_of_nonneg_left k4 this]
  have cX : ConvP P (fun t ω => (∑ i, e t ω i ^ 2 * δ t ω i ^ 2) / Fintype.card (n t)) 0 := by
    refine conv_sqrt (conv_le (conv_mul_le cD hY hF) fun t ω => ?_)
    rw [abs_of_nonneg (sq_nonneg _)]
    refine le_trans ?_ (le_abs_self _)
    have k1 := Finset.sum_mul_sq_le_sq_mul_sq Finset.univ (fun i => e t ω i ^ 2) (fun i => δ t ω i ^ 2)
    simp only [← pow_mul] at k1
    rw [div_pow, div_mul_div_comm, ← sq]
    exact div_le_div_of_nonneg_right (by linarith [k1]) (sq_nonneg _)
  have cA := conv_plus (conv_smul 8 cX) (conv_smul 2 cD)
  simp only [mul_zero, add_zero] at cA
  refine conv_le cA fun t ω => ?_
  rw [abs_of_nonneg (div_nonneg (Finset.sum_nonneg fun i _ => by positivity) (hc t).le)]
  refine le_trans ?_ (le_abs_self _)
  rw [mul_div_assoc', mul_div_assoc', ← add_div]
  refine div_le_div_of_nonneg_right ?_ (hc t).le
  rw [Finset.mul_sum, Finset.mul_sum, ← Finset.sum_add_distrib]
  refine Finset.sum_le_sum fun i _ => ?_
  have : spFilter (W t) (lh t ω) (v t ω - x t *ᵥ d t ω) i = e t ω i + δ t ω i := by simp only [hδ]; ring
  rw [this]
  nlinarith [sq_nonneg (2 * e t ω i * δ t ω i - δ t ω i ^ 2)]

/-- Weighted averages of squared filtered residuals. -/
theorem het_lin (h : ErrorModel P n W x y v e beta lam s) (hq : SquaredErrors P n e s) (lh : ∀ t, Ω t → ℝ) (hl : ConvP P lh lam)
    (d : ∀ t, Ω t → k → ℝ) (hd : ∀ l, ConvP P (fun t ω => d t ω l) 0) (b : ∀ t, n t → ℝ) (B : ℝ) (hb : ∀ t i, |b t i| ≤ B) :
    ConvP P (fun t ω => (∑ i, b t i * spFilter (W t) (lh t ω) (v t ω - x t *ᵥ d t ω) i ^ 2 - ∑ i, s t i * b t i) / Fintype.card (n t)) 0 := by
  have hc : ∀ t, (0 : ℝ) < Fintype.card (n t) := fun t => by exact_mod_cast h.pos t
  have hcl := het_close h hq lh hl d hd
  obtain ⟨κ, K, V, hκ, he, hp⟩ := hq
  have c1 := avg_bdd he (fun t i => (hκ t i).2) h.size h.pos b B hb
  have c2 : ConvP P (fun t ω => (∑ i, b t i * (spFilter (W t) (lh t ω) (v t ω - x t *ᵥ d t ω) i ^ 2 - e t ω i ^ 2)) / Fintype.card (n t)) 0 := by
    have h1 := conv_smul (B ^ 2) hcl
    rw [mul_zero] at h1
    refine conv_sqrt (conv_le h1 fun t ω => ?_)
    rw [abs_of_nonneg (sq_nonneg _)]
    refine le_trans ?_ (le_abs_self _)
    have k1 := Finset.sum_mul_sq_le_sq_mul_sq Finset.univ (b t) (fun i => spFilter (W t) (lh t ω) (v t ω - x t *ᵥ d t ω) i ^ 2 - e t ω i ^ 2)
    have k2 : ∑ i, b t i ^ 2 ≤ Fintype.card (n t) * B ^ 2 := by
      refine (Finset.sum_le_sum fun i _ => (show b t i ^ 2 ≤ B ^ 2 by rw [← sq_abs]; exact pow_le_pow_left₀ (abs_nonneg _) (hb t i) 2)).trans (le_of_eq ?_)
      rw [Finset.sum_const, Finset.card_univ, nsmul_eq_mul]
    have k3 : 0 ≤ ∑ i, (spFilter (W t) (lh t ω) (v t ω - x t *ᵥ d t ω) i ^ 2 - e t ω i ^ 2) ^ 2 := Finset.sum_nonneg fun i _ => sq_nonneg _
    rw [div_pow, mul_div_assoc', div_le_div_iff₀ (by have := hc t; positivity) (hc t)]
    have k4 := k1.trans (mul_le_mul_of_nonneg_right k2 k3)
    nlinarith [mul_le_mul_of_nonneg_right k4 (hc t).le]
  have c3 := conv_plus c1 c2
  rw [add_zero] at c3
  refine conv_congr c3 fun t ω => ?_
  rw [← add_div, ← Finset.sum_add_distrib, ← Finset.sum_sub_distrib]
  congr 1
  exact Finset.sum_congr rfl fun i _ => by ring

/-- Quadratic forms of squared filtered residuals. -/
theorem het_sqquad (h : ErrorModel P n W x y v e beta lam s) (hq : SquaredErrors P n e s) (lh : ∀ t, Ω t → ℝ) (hl : ConvP P lh lam)
    (d : ∀ t, Ω t → k → ℝ) (hd : ∀ l, ConvP P (fun t ω => d t ω l) 0) (K : ∀ t, Matrix (n t) (n t) ℝ) (r : ℝ) (hK : ∀ t, Sums (K t) r)
    (hK0 : ∀ t i, K t i i = 0) :
    ConvP P (fun t ω => (∑ i, ∑ j, K t i j * (spFilter (W t) (lh t ω) (v t ω - x t *ᵥ d t ω) i ^ 2 * spFilter (W t) (lh t ω) (v t ω - x t *ᵥ d t ω) j ^ 2) -
      ∑ i, ∑ j, K t i j * (s t i * s t j)) / Fintype.card (n t)) 0 := by
  have hc : ∀ t, (0 : ℝ) < Fintype.card (n t) := fun t => by exact_mod_cast h.pos t
  have hcl := het_close h hq lh hl d hd
  obtain ⟨Y, hY, hF⟩ := het_four h hq
  obtain ⟨S, hS0, hS⟩ := het_s h
  obtain ⟨κ, Q, V, hκ, he, hp⟩ := hq
  set a : ∀ t, Ω t → n t → ℝ := fun t ω i => spFilter (W t) (lh t ω) (v t ω - x t *ᵥ d t ω) i ^ 2 - e t ω i ^ 2 with ha
  have hKK : ∀ t, Sums (K t + (K t)ᵀ) (r + r) := fun t => sums_add (hK t) (hK t).tr
  have c1 := quad_llnH hp h.size h.pos K r hK
  simp only [hK0, mul_zero, Finset.sum_const_zero, sub_zero] at c1
  have c2 := avg_bdd he (fun t i => (hκ t i).2) h.size h.pos (fun t => (K t + (K t)ᵀ) *ᵥ s t) ((r + r) * S) fun t i => by
    refine (Finset.abs_sum_le_sum_abs _ _).trans ?_
    refine (Finset.sum_le_sum fun j _ => (show |(K t + (K t)ᵀ) i j * s t j| ≤ |(K t + (K t)ᵀ) i j| * S by
      rw [abs_mul]; exact mul_le_mul_of_nonneg_left (hS t j) (abs_nonneg _))).trans ?_
    rw [← Finset.sum_mul]
    exact mul_le_mul_of_nonneg_right ((hKK t).1 i) hS0
  have c3 : ConvP P (fun t ω => (a t ω ⬝ᵥ ((K t + (K t)ᵀ) *ᵥ fun i => e t ω i ^ 2)) / Fintype.card (n t)) 0 := by
    have h1 := conv_smul ((r + r) ^ 2) (conv_mul_le hcl hY hF)
    rw [mul_zero] at h1
    refine conv_sqrt (conv_le h1 fun t ω => ?_)
    rw [abs_of_nonneg (sq_nonneg _)]
    refine le_trans ?_ (le_abs_self _)
    have k1 := sums_bil (hKK t) (a t ω) fun i => e t ω i ^ 2
    simp only [← pow_mul] at k1
    rw [div_pow, div_mul_div_comm, ← sq, mul_div_assoc']
    exact div_le_div_of_nonneg_right (by linarith [k1]) (sq_nonneg _)
  have c4 : ConvP P (fun t ω => (a t ω ⬝ᵥ (K t *ᵥ a t ω)) / Fintype.card (n t)) 0 := by
    have h1 := conv_smul (r ^ 2) (conv_mul hcl hcl)
    simp only [mul_zero] at h1
    refine conv_sqrt (conv_le h1 fun t ω => ?_)
    rw [abs_of_nonneg (sq_nonneg _)]
    refine le_trans ?_ (le_abs_self _)
    have k1 := sums_bil (hK t) (a t ω) (a t ω)
    rw [div_pow, div_mul_div_comm, ← sq (Fintype.card (n t) : ℝ), mul_div_assoc']
    exact div_le_div_of_nonneg_right k1 (sq_nonneg _)
  have c5 := conv_plus (conv_plus (conv_plus c1 c2) c3) c4
  simp only [add_zero] at c5
  refine conv_congr c5 fun t ω => ?_
  rw [← add_div, ← add_div, ← add_div]
  congr 1
  have hdec : ∀ i, spFilter (W t) (lh t ω) (v t ω - x t *ᵥ d t ω) i ^ 2 = (e t ω i ^ 2 - s t i) + s t i + a t ω i := fun i => by simp only [ha]; ring
  simp only [hdec]
  have hp2 : ∀ i, e t ω i ^ 2 = (e t ω i ^ 2 - s t i) + s t i := fun i => by ring
  have g3 : (a t ω ⬝ᵥ ((K t + (K t)ᵀ) *ᵥ fun i => e t ω i ^ 2)) = a t ω ⬝ᵥ ((K t + (K t)ᵀ) *ᵥ fun i => (e t ω i ^ 2 - s t i) + s t i) := by
    congr 2; funext i; exact hp2 i
  rw [g3]
  generalize hqq : (fun i => e t ω i ^ 2 - s t i) = q
  have hqi : ∀ i, e t ω i ^ 2 - s t i = q i := fun i => congrFun hqq i
  simp only [hqi]
  generalize a t ω = a
  generalize s t = s
  have tr : ∀ p w : n t → ℝ, p ⬝ᵥ ((K t)ᵀ *ᵥ w) = w ⬝ᵥ (K t *ᵥ p) := fun p w => by
    rw [dotProduct_mulVec, vecMul_transpose, dotProduct_comm]
  have bil : ∀ p w : n t → ℝ, ∑ i, ∑ j, K t i j * (p i * w j) = p ⬝ᵥ (K t *ᵥ w) := fun p w => by
    simp only [dotProduct, mulVec, Finset.mul_sum]
    exact Finset.sum_congr rfl fun i _ => Finset.sum_congr rfl fun j _ => by ring
  have l1 := bil (q + s + a) (q + s + a)
  simp only [Pi.add_apply] at l1
  rw [l1, bil]
  have l2 : ∑ i, ((K t + (K t)ᵀ) *ᵥ s) i * q i = q ⬝ᵥ ((K t + (K t)ᵀ) *ᵥ s) := dotProduct_comm _ _
  have l3 : (fun i => q i + s i) = q + s := rfl
  rw [l2, l3]
  simp only [add_mulVec, mulVec_add, dotProduct_add, add_dotProduct, tr]
  ring
end model
end Spreg.Consist
