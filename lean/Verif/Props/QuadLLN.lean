import Verif.Spec.Pairs
import Verif.Props.ConsistVar
import Verif.Model.GM
set_option linter.unusedSectionVars false
/-
C184, first part: a law of large numbers for quadratic forms of errors and residuals.
-/
namespace Spreg.Consist
open Spreg Spreg.Lin Spreg.GM Spreg.Sampling Matrix MeasureTheory Filter Topology

section sums
variable {n k : Type} [Fintype n] [DecidableEq n]

theorem _root_.Spreg.Sums.one : Sums (1 : Matrix n n ℝ) 1 := by
  constructor <;> intro i <;> simp [one_apply, apply_ite abs]

theorem _root_.Spreg.Sums.nonneg [Nonempty n] {A : Matrix n n ℝ} {r : ℝ} (h : Sums A r) : 0 ≤ r :=
  (Finset.sum_nonneg fun _ _ => abs_nonneg _).trans (h.1 (Classical.arbitrary n))

theorem _root_.Spreg.Sums.tr {A : Matrix n n ℝ} {r : ℝ} (h : Sums A r) : Sums Aᵀ r := ⟨h.2, h.1⟩

theorem _root_.Spreg.Sums.mul {A B : Matrix n n ℝ} {r q : ℝ} (hA : Sums A r) (hB : Sums B q) : Sums (A * B) (r * q) := by
  by_cases hn : Nonempty n
  swap
  · exact ⟨fun i => (hn ⟨i⟩).elim, fun i => (hn ⟨i⟩).elim⟩
  have hr := hA.nonneg
  have hq := hB.nonneg
  have hb : ∀ i j, |(A * B) i j| ≤ ∑ l, |A i l| * |B l j| := fun i j => by
    rw [mul_apply]
    refine (Finset.abs_sum_le_sum_abs _ _).trans (le_of_eq (Finset.sum_congr rfl fun l _ => abs_mul _ _))
  constructor
  · intro i
    calc ∑ j, |(A * B) i j| ≤ ∑ j, ∑ l, |A i l| * |B l j| := Finset.sum_le_sum fun j _ => hb i j
      _ = ∑ l, |A i l| * ∑ j, |B l j| := by rw [Finset.sum_comm]; simp only [Finset.mul_sum]
      _ ≤ ∑ l, |A i l| * q := Finset.sum_le_sum fun l _ => mul_le_mul_of_nonneg_left (hB.1 l) (abs_nonneg _)
      _ = (∑ l, |A i l|) * q := (Finset.sum_mul _ _ _).symm
      _ ≤ r * q := mul_le_mul_of_nonneg_right (hA.1 i) hq
  · intro j
    calc ∑ i, |(A * B) i j| ≤ ∑ i, ∑ l, |A i l| * |B l j| := Finset.sum_le_sum fun i _ => hb i j
      _ = ∑ l, (∑ i, |A i l|) * |B l j| := by rw [Finset.sum_comm]; simp only [Finset.sum_mul]
      _ ≤ ∑ l, r * |B l j| := Finset.sum_le_sum fun l _ => mul_le_mul_of_nonneg_right (hA.2 l) (abs_nonneg _)
      _ = r * ∑ l, |B l j| := (Finset.mul_sum _ _ _).symm
      _ ≤ r * q := mul_le_mul_of_nonneg_left (hB.2 j) hr

theorem _root_.Spreg.Sums.filter {W : Matrix n n ℝ} {r : ℝ} (hW : Sums W r) (l : ℝ) : Sums (1 - l • W) (1 + |l| * r) := by
  have hb : ∀ i j, |(1 - l • W : Matrix n n ℝ) i j| ≤ |(1 : Matrix n n ℝ) i j| + |l| * |W i j| := fun i j => by
    rw [Matrix.sub_apply, Matrix.smul_apply, smul_eq_mul, ← abs_mul]
    exact abs_sub _ _
  constructor
  · intro i
    refine (Finset.sum_le_sum fun j _ => hb i j).trans ?_
    rw [Finset.sum_add_distrib, ← Finset.mul_sum]
    exact add_le_add (Sums.one.1 i) (mul_le_mul_of_nonneg_left (hW.1 i) (abs_nonneg _))
  · intro j
    refine (Finset.sum_le_sum fun i _ => hb i j).trans ?_
    rw [Finset.sum_add_distrib, ← Finset.mul_sum]
    exact add_le_add (Sums.one.2 j) (mul_le_mul_of_nonneg_left (hW.2 j) (abs_nonneg _))

theorem _root_.Spreg.Sums.entry {A : Matrix n n ℝ} {r : ℝ} (h : Sums A r) (x : Matrix n k ℝ) (C : ℝ) (hx : ∀ i l, |x i l| ≤ C) (i : n) (l : k) :
    |(A * x) i l| ≤ r * C := by
  have hC : 0 ≤ C := (abs_nonneg _).trans (hx i l)
  rw [mul_apply]
  refine (Finset.abs_sum_le_sum_abs _ _).trans ?_
  calc ∑ j, |A i j * x j l| ≤ ∑ j, |A i j| * C := Finset.sum_le_sum fun j _ => by
        rw [abs_mul]; exact mul_le_mul_of_nonneg_left (hx j l) (abs_nonneg _)
    _ = (∑ j, |A i j|) * C := (Finset.sum_mul _ _ _).symm
    _ ≤ r * C := mul_le_mul_of_nonneg_right (h.1 i) hC

theorem _root_.Spreg.Sums.sq_sum {A : Matrix n n ℝ} {r : ℝ} (h : Sums A r) : ∑ i, ∑ j, A i j ^ 2 ≤ r ^ 2 * Fintype.card n := by
  have : ∀ i, ∑ j, A i j ^ 2 ≤ r ^ 2 := by
    intro i
    have h0 : 0 ≤ ∑ j, |A i j| := Finset.sum_nonneg fun _ _ => abs_nonneg _
    calc ∑ j, A i j ^ 2 = ∑ j, |A i j| ^ 2 := Finset.sum_congr rfl fun j _ => (sq_abs _).symm
      _ ≤ (∑ j, |A i j|) ^ 2 := Finset.sum_sq_le_sq_sum_of_nonneg fun j _ => abs_nonneg _
      _ ≤ r ^ 2 := pow_le_pow_left₀ h0 (h.1 i) 2
  calc _ ≤ ∑ _i : n, r ^ 2 := Finset.sum_le_sum fun i _ => this i
    _ = _ := by rw [Finset.sum_const, Finset.card_univ, nsmul_eq_mul, mul_comm]
end sums

section quad
variable {n O : Type} [Fintype n] [DecidableEq n] [MeasurableSpace O] {Q : Measure O} {e : O → n → ℝ} {s : n → ℝ} {V : ℝ}

/-- The centred quadratic form as a sum over pairs. -/
theorem quad_pairs (M : Matrix n n ℝ) (v : n → ℝ) :
    v ⬝ᵥ (M *ᵥ v) - ∑ i, s i * M i i = ∑ p : n × n, M p.1 p.2 * (v p.1 * v p.2 - covOf s p.1 p.2) := by
  rw [Fintype.sum_prod_type]
  simp only [mul_sub, Finset.sum_sub_distrib, covOf, mul_ite, mul_zero, Finset.sum_ite_eq, Finset.mem_univ, if_true]
  congr 1
  · simp only [dotProduct, mulVec, Finset.mul_sum]
    exact Finset.sum_congr rfl fun i _ => Finset.sum_congr rfl fun j _ => by ring
  · exact Finset.sum_congr rfl fun i _ => mul_comm _ _

/-- Its second moment. -/
theorem quad_var (h : PairErrors Q e s V) (M : Matrix n n ℝ) :
    Integrable (fun ω => (e ω ⬝ᵥ (M *ᵥ e ω) - ∑ i, s i * M i i) ^ 2) Q ∧
    ∫ ω, (e ω ⬝ᵥ (M *ᵥ e ω) - ∑ i, s i * M i i) ^ 2 ∂Q ≤ 2 * V * ∑ i, ∑ j, M i j ^ 2 := by
  set X : n × n → O → ℝ := fun p ω => e ω p.1 * e ω p.2 - covOf s p.1 p.2 with hX
  have hsw : ∀ p, X p.swap = X p := by
    intro p; funext ω
    simp only [hX, Prod.fst_swap, Prod.snd_swap, covOf, mul_comm (e ω p.2)]
    by_cases hp : p.2 = p.1
    · rw [hp]
    · rw [if_neg hp, if_neg (Ne.symm hp)]
  have hL : ∀ p, MemLp (X p) 2 Q := fun p => h.sq p.1 p.2
  have hint : ∀ p q, Integrable (fun ω => M p.1 p.2 * M q.1 q.2 * (X p ω * X q ω)) Q := fun p q => ((hL p).integrable_mul (hL q)).const_mul _
  have hsq : ∀ ω, (e ω ⬝ᵥ (M *ᵥ e ω) - ∑ i, s i * M i i) ^ 2 = ∑ p, ∑ q, M p.1 p.2 * M q.1 q.2 * (X p ω * X q ω) := by
    intro ω
    rw [quad_pairs, sq, Finset.sum_mul_sum]
    exact Finset.sum_congr rfl fun p _ => Finset.sum_congr rfl fun q _ => by simp only [hX]; ring
  simp only [hsq]
  have hV0 : ∀ p, ∫ ω, X p ω * X p ω ∂Q ≤ V := fun p => by
    have := h.var p.1 p.2
    simp only [sq] at this
    exact this
  have hV1 : ∀ p, 0 ≤ ∫ ω, X p ω * X p ω ∂Q := fun p => integral_nonneg fun ω => mul_self_nonneg _
  refine ⟨integrable_finsetSum _ fun p _ => integrable_finsetSum _ fun q _ => hint p q, ?_⟩
  rw [integral_finsetSum _ fun p _ => integrable_finsetSum _ fun q _ => hint p q]
  have key : ∀ p, ∫ ω, ∑ q, M p.1 p.2 * M q.1 q.2 * (X p ω * X q ω) ∂Q ≤ V * M p.1 p.2 ^ 2 + V * (|M p.1 p.2| * |M p.2 p.1|) := by
    intro p
    have hVn : 0 ≤ V := (hV1 p).trans (hV0 p)
    rw [integral_finsetSum _ fun q _ => hint p q]
    have : ∀ q ∈ Finset.univ, ∫ ω, M p.1 p.2 * M q.1 q.2 * (X p ω * X q ω) ∂Q ≤
        (if q = p then V * M p.1 p.2 ^ 2 else 0) + (if q = p.swap then V * (|M p.1 p.2| * |M p.2 p.1|) else 0) := by
      intro q _
      rw [integral_const_mul]
      by_cases h1 : q = p
      · subst h1
        rw [if_pos rfl]
        have a0 : 0 ≤ (if q = q.swap then V * (|M q.1 q.2| * |M q.2 q.1|) else 0) := by
          split
          · exact mul_nonneg hVn (mul_nonneg (abs_nonneg _) (abs_nonneg _))
          · exact le_refl _
        have : M q.1 q.2 * M q.1 q.2 * ∫ ω, X q ω * X q ω ∂Q ≤ V * M q.1 q.2 ^ 2 := by
          rw [← sq, mul_comm]; exact mul_le_mul_of_nonneg_right (hV0 q) (sq_nonneg _)
        linarith
      · by_cases h2 : q = p.swap
        · subst h2
          rw [if_neg h1, if_pos rfl, zero_add, hsw]
          have h3 : M p.1 p.2 * M p.2 p.1 ≤ |M p.1 p.2| * |M p.2 p.1| := by rw [← abs_mul]; exact le_abs_self _
          calc M p.1 p.2 * M p.2 p.1 * ∫ ω, X p ω * X p ω ∂Q ≤ |M p.1 p.2| * |M p.2 p.1| * ∫ ω, X p ω * X p ω ∂Q := mul_le_mul_of_nonneg_right h3 (hV1 p)
            _ ≤ |M p.1 p.2| * |M p.2 p.1| * V := mul_le_mul_of_nonneg_left (hV0 p) (mul_nonneg (abs_nonneg _) (abs_nonneg _))
            _ = _ := mul_comm _ _
        · rw [if_neg h1, if_neg h2]
          have := h.cov p.1 p.2 q.1 q.2 (by
            rintro (⟨a, b⟩ | ⟨a, b⟩)
            · exact h1 (Prod.ext a b)
            · exact h2 (Prod.ext a b))
          simp only [hX]
          rw [this]; simp
    refine (Finset.sum_le_sum this).trans ?_
    rw [Finset.sum_add_distrib, Finset.sum_ite_eq' Finset.univ p, Finset.sum_ite_eq' Finset.univ p.swap, if_pos (Finset.mem_univ _), if_pos (Finset.mem_univ _)]
  refine (Finset.sum_le_sum fun p _ => key p).trans ?_
  by_cases hn : Nonempty n
  swap
  · rw [not_nonempty_iff] at hn
    simp
  have hVn : 0 ≤ V := (hV1 (Classical.arbitrary n, Classical.arbitrary n)).trans (hV0 _)
  have e1 : ∑ p : n × n, |M p.2 p.1| ^ 2 = ∑ p : n × n, M p.1 p.2 ^ 2 := by
    rw [Fintype.sum_prod_type, Fintype.sum_prod_type, Finset.sum_comm]
    exact Finset.sum_congr rfl fun i _ => Finset.sum_congr rfl fun j _ => sq_abs _
  have e2 : ∑ p : n × n, |M p.1 p.2| ^ 2 = ∑ p : n × n, M p.1 p.2 ^ 2 := Finset.sum_congr rfl fun p _ => sq_abs _
  have e3 : ∑ p : n × n, |M p.1 p.2| * |M p.2 p.1| ≤ ∑ p : n × n, M p.1 p.2 ^ 2 := by
    have : ∑ p : n × n, |M p.1 p.2| * |M p.2 p.1| ≤ ∑ p : n × n, (|M p.1 p.2| ^ 2 + |M p.2 p.1| ^ 2) / 2 :=
      Finset.sum_le_sum fun p _ => by nlinarith [sq_nonneg (|M p.1 p.2| - |M p.2 p.1|)]
    rw [← Finset.sum_div, Finset.sum_add_distrib, e1, e2] at this
    linarith
  have e4 : ∑ i, ∑ j, M i j ^ 2 = ∑ p : n × n, M p.1 p.2 ^ 2 := (Fintype.sum_prod_type (fun p : n × n => M p.1 p.2 ^ 2)).symm
  rw [Finset.sum_add_distrib, ← Finset.mul_sum, ← Finset.mul_sum, e4]
  nlinarith [mul_le_mul_of_nonneg_left e3 hVn]
end quad

variable {Ω : ℕ → Type} [∀ t, MeasurableSpace (Ω t)] {P : ∀ t, Measure (Ω t)}

theorem conv_sqrt {X : ∀ t, Ω t → ℝ} (h : ConvP P (fun t ω => X t ω ^ 2) 0) : ConvP P X 0 := by
  intro ε hε
  refine (h (ε ^ 2) (by positivity)).congr fun t => ?_
  congr 1
  ext ω
  simp only [Set.mem_ofPred_eq, sub_zero, abs_pow]
  exact ⟨fun a => (pow_le_pow_iff_left₀ hε.le (abs_nonneg _) two_ne_zero).1 a, fun a => pow_le_pow_left₀ hε.le a 2⟩

section lln
variable {k : Type} [Fintype k] [DecidableEq k] {n : ℕ → Type} [∀ t, Fintype (n t)] [∀ t, DecidableEq (n t)]
  {e : ∀ t, Ω t → n t → ℝ} {s V : ℝ}

/-- Law of large numbers for quadratic forms, any variances. -/
theorem quad_llnH {s : ∀ t, n t → ℝ} (h : ∀ t, PairErrors (P t) (e t) (s t) V)
    (hn : Tendsto (fun t => (Fintype.card (n t) : ℝ)) atTop atTop) (hpos : ∀ t, 0 < Fintype.card (n t)) (M : ∀ t, Matrix (n t) (n t) ℝ) (r : ℝ)
    (hM : ∀ t, Sums (M t) r) :
    ConvP P (fun t ω => (e t ω ⬝ᵥ (M t *ᵥ e t ω) - ∑ i, s t i * M t i i) / Fintype.card (n t)) 0 := by
  have hc : ∀ t, (0 : ℝ) < Fintype.card (n t) := fun t => by exact_mod_cast hpos t
  have hV : 0 ≤ V := by
    obtain ⟨i⟩ := Fintype.card_pos_iff.1 (hpos 0)
    exact (integral_nonneg fun ω => sq_nonneg _).trans ((h 0).var i i)
  refine conv_sqrt (conv_markov _ (fun t ω => sq_nonneg _) (fun t => ?_) ?_)
  · simp only [div_pow]
    exact (quad_var (h t) (M t)).1.div_const _
  · have h0 : Tendsto (fun t => 2 * V * r ^ 2 / (Fintype.card (n t) : ℝ)) atTop (𝓝 0) := tendsto_const_nhds.div_atTop hn
    refine tendsto_of_tendsto_of_tendsto_of_le_of_le tendsto_const_nhds h0 (fun t => integral_nonneg fun ω => sq_nonneg _) fun t => ?_
    simp only [div_pow, integral_div]
    rw [div_le_div_iff₀ (pow_pos (hc t) 2) (hc t)]
    have h1 := (quad_var (h t) (M t)).2
    have h2 := (hM t).sq_sum
    have h3 : 2 * V * ∑ i, ∑ j, M t i j ^ 2 ≤ 2 * V * (r ^ 2 * Fintype.card (n t)) := mul_le_mul_of_nonneg_left h2 (by positivity)
    calc _ ≤ (2 * V * (r ^ 2 * Fintype.card (n t))) * Fintype.card (n t) := mul_le_mul_of_nonneg_right (h1.trans h3) (hc t).le
      _ = _ := by ring

theorem bdd_prod {m : Type} [Fintype m] [DecidableEq m] {p : Type} (B : Matrix m p ℝ) (a : Matrix m m ℝ) (b r : ℝ) (hb : 0 ≤ b) (hB : ∀ i l, |B i l| ≤ b) (ha : Sums a r)
    (l : p) (j : m) : |(Bᵀ * a) l j| ≤ b * r := by
  rw [mul_apply]
  refine (Finset.abs_sum_le_sum_abs _ _).trans ?_
  calc ∑ i, |Bᵀ l i * a i j| ≤ ∑ i, b * |a i j| := Finset.sum_le_sum fun i _ => by
        rw [abs_mul]; exact mul_le_mul_of_nonneg_right (hB i l) (abs_nonneg _)
    _ = b * ∑ i, |a i j| := (Finset.mul_sum _ _ _).symm
    _ ≤ b * r := mul_le_mul_of_nonneg_left (ha.2 j) hb

theorem bdd_cross {m p q : Type} [Fintype m] [Nonempty m] (A : Matrix m p ℝ) (B : Matrix m q ℝ) (a b : ℝ) (ha : 0 ≤ a) (hA : ∀ i l, |A i l| ≤ a)
    (hB : ∀ i l, |B i l| ≤ b) (l : p) (j : q) : |(Aᵀ * B) l j / Fintype.card m| ≤ a * b := by
  have hc : (0 : ℝ) < Fintype.card m := by exact_mod_cast Fintype.card_pos
  rw [abs_div, abs_of_pos hc, div_le_iff₀ hc, mul_apply]
  refine (Finset.abs_sum_le_sum_abs _ _).trans ?_
  calc ∑ i, |Aᵀ l i * B i j| ≤ ∑ _i : m, a * b := Finset.sum_le_sum fun i _ => by
        rw [abs_mul]; exact mul_le_mul (hA i l) (hB i j) (abs_nonneg _) ha
    _ = _ := by rw [Finset.sum_const, Finset.card_univ, nsmul_eq_mul, mul_comm]

theorem expand {m : Type} [Fintype m] [DecidableEq m] (A B R : Matrix m m ℝ) (x : Matrix m k ℝ) (v : m → ℝ) (d : k → ℝ) :
    (A *ᵥ (R *ᵥ v - x *ᵥ d)) ⬝ᵥ (B *ᵥ (R *ᵥ v - x *ᵥ d)) = v ⬝ᵥ (((A * R)ᵀ * (B * R)) *ᵥ v) -
      (∑ l, d l * ∑ p, ((B * x)ᵀ * (A * R)) l p * v p) - (∑ l, d l * ∑ p, ((A * x)ᵀ * (B * R)) l p * v p) +
      ∑ l, ∑ p, d l * d p * ((A * x)ᵀ * (B * x)) l p := by
  have e1 : ∀ (C : Matrix m m ℝ), C *ᵥ (R *ᵥ v - x *ᵥ d) = (C * R) *ᵥ v - (C * x) *ᵥ d := fun C => by
    rw [mulVec_sub, mulVec_mulVec, mulVec_mulVec]
  rw [e1, e1, sub_dotProduct, dotProduct_sub, dotProduct_sub]
  have e2 : ∀ {p q : Type} [Fintype p] [Fintype q] (C : Matrix m p ℝ) (D : Matrix m q ℝ) (a : p → ℝ) (b : q → ℝ),
      (C *ᵥ a) ⬝ᵥ (D *ᵥ b) = a ⬝ᵥ ((Cᵀ * D) *ᵥ b) := fun C D a b => by
    rw [← mulVec_mulVec, dotProduct_mulVec a, vecMul_transpose]
  rw [e2 (A * R) (B * R), dotProduct_comm ((A * R) *ᵥ v), e2 (B * x) (A * R), e2 (A * x) (B * R), e2 (A * x) (B * x)]
  have e3 : d ⬝ᵥ (((A * x)ᵀ * (B * x)) *ᵥ d) = ∑ l, ∑ p, d l * d p * ((A * x)ᵀ * (B * x)) l p := by
    simp only [dotProduct, mulVec, Finset.mul_sum]
    exact Finset.sum_congr rfl fun i _ => Finset.sum_congr rfl fun j _ => by ring
  rw [e3]
  simp only [dotProduct, mulVec]
  ring
/-- Law of large numbers for quadratic forms. -/
theorem quad_lln (h : ∀ t, PairErrors (P t) (e t) (fun _ => s) V)
    (hn : Tendsto (fun t => (Fintype.card (n t) : ℝ)) atTop atTop) (hpos : ∀ t, 0 < Fintype.card (n t)) (M : ∀ t, Matrix (n t) (n t) ℝ) (r : ℝ)
    (hM : ∀ t, Sums (M t) r) :
    ConvP P (fun t ω => (e t ω ⬝ᵥ (M t *ᵥ e t ω) - s * ∑ i, M t i i) / Fintype.card (n t)) 0 := by
  simp only [Finset.mul_sum]
  exact quad_llnH h hn hpos M r hM
end lln
end Spreg.Consist
