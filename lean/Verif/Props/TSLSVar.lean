import Verif.Props.QuadLLN
import Verif.Props.ErrConsist
import Verif.Spec.MeanBdd
import Verif.Spec.LagModel
set_option linter.unusedSectionVars false
/-
C186: the variance estimates of two-stage least squares, and of the spatial lag model estimated with it, are consistent.
-/
namespace Spreg.Consist
open Spreg Spreg.Lin Spreg.LagReg Spreg.Sampling Matrix MeasureTheory Filter Topology

variable {Ω : ℕ → Type} [∀ t, MeasurableSpace (Ω t)] {P : ∀ t, Measure (Ω t)}

theorem mbdd_of_conv [∀ t, IsProbabilityMeasure (P t)] {X : ∀ t, Ω t → ℝ} {a : ℝ} (h : ConvP P X a) : MeanBdd P X := by
  refine ⟨fun _ => a, |a|, fun _ => le_rfl, ?_⟩
  have := conv_plus h (conv_const (fun _ => -a) (-a) tendsto_const_nhds)
  rw [add_neg_cancel] at this
  exact conv_congr this fun t ω => sub_eq_add_neg _ _

/-- A vanishing factor makes the product vanish. -/
theorem conv_mbdd {X Y : ∀ t, Ω t → ℝ} (hX : ConvP P X 0) (hY : MeanBdd P Y) : ConvP P (fun t ω => X t ω * Y t ω) 0 := by
  obtain ⟨a, C, ha, hc⟩ := hY
  have := conv_plus (conv_bdd a C ha hX) (conv_mul hX hc)
  simp only [mul_zero, add_zero] at this
  exact conv_congr this fun t ω => by ring

section tsls
variable {k l : Type} [Fintype k] [Fintype l] [DecidableEq k] [DecidableEq l] {n : ℕ → Type} [∀ t, Fintype (n t)]

/-- Scaled cross products. -/
noncomputable def sc {m a b : Type} [Fintype m] (c : ℝ) (h : Matrix m a ℝ) (z : Matrix m b ℝ) : Matrix a b ℝ := c⁻¹ • (hᵀ * z)
noncomputable def scv {m a : Type} [Fintype m] (c : ℝ) (h : Matrix m a ℝ) (u : m → ℝ) : a → ℝ := c⁻¹ • (hᵀ *ᵥ u)

theorem sc_apply {m a b : Type} [Fintype m] (c : ℝ) (h : Matrix m a ℝ) (z : Matrix m b ℝ) (i : a) (j : b) : sc c h z i j = (∑ o, h o i * z o j) / c := by
  show c⁻¹ * (hᵀ * z) i j = _
  rw [mul_apply, div_eq_inv_mul]; rfl

/-- With probability tending to one the estimate exists and its error is small. -/
theorem tsls_good (z : ∀ t, Ω t → Matrix (n t) k ℝ) (h : ∀ t, Ω t → Matrix (n t) l ℝ) (u : ∀ t, Ω t → n t → ℝ)
    (c : ℕ → ℝ) (Q : Matrix l k ℝ) (B : Matrix l l ℝ) (hB : B.det ≠ 0)
    (hQ : (Qᵀ * B⁻¹ * Q).det ≠ 0)
    (cA' : ∀ i j, ConvP P (fun t ω => (∑ a, h t ω a i * z t ω a j) / c t) (Q i j))
    (cB' : ∀ i j, ConvP P (fun t ω => (∑ a, h t ω a i * h t ω a j) / c t) (B i j))
    (cv' : ∀ i, ConvP P (fun t ω => (∑ a, h t ω a i * u t ω a) / c t) 0) (ε : ℝ) (hε : 0 < ε) :
    Tendsto (fun t => P t {ω | ¬ ((sc (c t) (h t ω) (h t ω)).det ≠ 0 ∧
      ((sc (c t) (h t ω) (z t ω))ᵀ * (sc (c t) (h t ω) (h t ω))⁻¹ * sc (c t) (h t ω) (z t ω)).det ≠ 0 ∧
      ∀ j, |err (sc (c t) (h t ω) (z t ω)) (sc (c t) (h t ω) (h t ω)) (scv (c t) (h t ω) (u t ω)) j| < ε)}) atTop (𝓝 0) := by
  let X : ∀ t, Ω t → Coord k l → ℝ := fun t ω s => match s with
    | .inl (i, j) => sc (c t) (h t ω) (z t ω) i j
    | .inr (.inl (i, j)) => sc (c t) (h t ω) (h t ω) i j
    | .inr (.inr i) => scv (c t) (h t ω) (u t ω) i
  let L : Coord k l → ℝ := fun s => match s with
    | .inl (i, j) => Q i j
    | .inr (.inl (i, j)) => B i j
    | .inr (.inr _) => 0
  have hX : ∀ s, ConvP P (fun t ω => X t ω s) (L s) := by
    rintro (⟨i, j⟩ | ⟨i, j⟩ | i)
    · exact conv_congr (cA' i j) fun t ω => sc_apply _ _ _ _ _
    · exact conv_congr (cB' i j) fun t ω => sc_apply _ _ _ _ _
    · exact conv_congr (cv' i) fun t ω => by
        show (c t)⁻¹ * ((h t ω)ᵀ *ᵥ u t ω) i = _
        rw [div_eq_inv_mul]; rfl
  exact nhds_conv X L hX _ (good_nhds Q B hB hQ ε hε L rfl rfl rfl)

/-- What 2SLS returns, in terms of scaled cross products. -/
theorem tsls_all {n : Type} [Fintype n] (z : Matrix n k ℝ) (h : Matrix n l ℝ) (u : n → ℝ) (th : k → ℝ) (c : ℝ) (hc : c ≠ 0)
    (h1 : (sc c h h).det ≠ 0) (h2 : ((sc c h z)ᵀ * (sc c h h)⁻¹ * sc c h z).det ≠ 0) :
    ∃ f, tslsZH z h (z *ᵥ th + u) = some f ∧ f.u = u - z *ᵥ err (sc c h z) (sc c h h) (scv c h u) ∧
      c • f.varb = ((sc c h z)ᵀ * (sc c h h)⁻¹ * sc c h z)⁻¹ ∧ f.zthhthi = (sc c h z)ᵀ * (sc c h h)⁻¹ := by
  obtain ⟨f, hf, hb⟩ := tsls_err z h u th c hc h1 h2
  refine ⟨f, hf, ?_, ?_⟩
  · obtain ⟨-, -, -, -, -, -, hp, hu⟩ := tslsZH_facts hf
    have hb' : f.betas = th + err (sc c h z) (sc c h h) (scv c h u) := by
      rw [show err (sc c h z) (sc c h h) (scv c h u) = f.betas - th from hb.symm]; abel
    rw [hu, hp, hb', mulVec_add]
    abel
  · have hci : c⁻¹ ≠ 0 := inv_ne_zero hc
    obtain ⟨hu, hh, hz', hv, hvb, -, -, -⟩ := tslsZH_facts hf
    have hinv : (sc c h h)⁻¹ = c • (hᵀ * h)⁻¹ := by
      refine inv_eq_right_inv ?_
      rw [sc, smul_mul_smul_comm, inv_mul_cancel₀ hc, one_smul, mul_nonsing_inv _ hu]
    have hM : (sc c h z)ᵀ * (sc c h h)⁻¹ = zᵀ * h * (hᵀ * h)⁻¹ := by
      rw [hinv, sc, transpose_smul, transpose_mul, transpose_transpose, Matrix.smul_mul, Matrix.mul_smul, smul_smul, inv_mul_cancel₀ hc, one_smul]
    have hzh : (zᵀ * h)ᵀ = hᵀ * z := by rw [transpose_mul, transpose_transpose]
    refine ⟨?_, by rw [hM, hz']⟩
    symm
    rw [hM, hvb]
    rw [hzh] at hv ⊢
    refine inv_eq_right_inv ?_
    rw [sc]
    simp only [Matrix.mul_smul, Matrix.smul_mul, smul_smul]
    rw [mul_inv_cancel₀ hc, one_smul, mul_nonsing_inv _ hv]


/-- A weighted sum of squares of `u - z d`. -/
theorem wsq {m : Type} [Fintype m] (w u : m → ℝ) (z : Matrix m k ℝ) (d : k → ℝ) (c : ℝ) :
    (∑ o, w o * (u - z *ᵥ d) o ^ 2) / c = (∑ o, w o * u o ^ 2) / c + (∑ j, d j * (-2 * ((∑ o, w o * z o j * u o) / c)) +
      ∑ j, d j * ∑ i, d i * ((∑ o, w o * z o i * z o j) / c)) := by
  have h1 : ∀ o, w o * (u - z *ᵥ d) o ^ 2 = w o * u o ^ 2 + (∑ j, d j * (-2 * (w o * z o j * u o)) + ∑ j, d j * ∑ i, d i * (w o * z o i * z o j)) := by
    intro o
    have e1 : (u - z *ᵥ d) o = u o - ∑ j, z o j * d j := rfl
    have e2 : (∑ j, z o j * d j) ^ 2 = ∑ j, ∑ i, (z o j * d j) * (z o i * d i) := by rw [sq, Finset.sum_mul_sum]
    rw [e1, sub_sq, e2, mul_add, mul_sub, Finset.mul_sum, Finset.mul_sum, Finset.mul_sum, sub_eq_add_neg, ← Finset.sum_neg_distrib, add_assoc]
    congr 2
    · exact Finset.sum_congr rfl fun j _ => by ring
    · refine Finset.sum_congr rfl fun j _ => ?_
      rw [Finset.mul_sum, Finset.mul_sum]
      exact Finset.sum_congr rfl fun i _ => by ring
  simp only [h1, Finset.sum_add_distrib, add_div]
  congr 2
  · rw [Finset.sum_comm, Finset.sum_div]
    refine Finset.sum_congr rfl fun j _ => ?_
    rw [← Finset.mul_sum, ← Finset.mul_sum, mul_div_assoc, mul_div_assoc]
  · rw [Finset.sum_comm, Finset.sum_div]
    refine Finset.sum_congr rfl fun j _ => ?_
    rw [← Finset.mul_sum, mul_div_assoc, Finset.sum_comm, Finset.sum_div]
    congr 1
    refine Finset.sum_congr rfl fun i _ => ?_
    rw [← Finset.mul_sum, mul_div_assoc]

/-- Weighted averages of squared residuals converge to those of the errors. -/
theorem conv_wsq (w u : ∀ t, Ω t → n t → ℝ) (z : ∀ t, Ω t → Matrix (n t) k ℝ) (d : ∀ t, Ω t → k → ℝ) (c : ℕ → ℝ) (hd : ∀ j, ConvP P (fun t ω => d t ω j) 0)
    (s : ℝ) (h1 : ConvP P (fun t ω => (∑ o, w t ω o * u t ω o ^ 2) / c t) s)
    (h2 : ∀ j, MeanBdd P fun t ω => (∑ o, w t ω o * z t ω o j * u t ω o) / c t)
    (h3 : ∀ i j, MeanBdd P fun t ω => (∑ o, w t ω o * z t ω o i * z t ω o j) / c t) :
    ConvP P (fun t ω => (∑ o, w t ω o * (u t ω - z t ω *ᵥ d t ω) o ^ 2) / c t) s := by
  have k2 : ConvP P (fun t ω => ∑ j, d t ω j * (-2 * ((∑ o, w t ω o * z t ω o j * u t ω o) / c t))) 0 := by
    have := conv_sum (P := P) (fun t ω j => d t ω j * (-2 * ((∑ o, w t ω o * z t ω o j * u t ω o) / c t))) (fun _ => 0) fun j => by
      have := conv_smul (-2) (conv_mbdd (hd j) (h2 j))
      rw [mul_zero] at this
      exact conv_congr this fun t ω => by ring
    rwa [Finset.sum_const_zero] at this
  have k3 : ConvP P (fun t ω => ∑ j, d t ω j * ∑ i, d t ω i * ((∑ o, w t ω o * z t ω o i * z t ω o j) / c t)) 0 := by
    have := conv_sum (P := P) (fun t ω j => d t ω j * ∑ i, d t ω i * ((∑ o, w t ω o * z t ω o i * z t ω o j) / c t)) (fun _ => 0) fun j => by
      have := conv_mul (hd j) (conv_sum (P := P) (fun t ω i => d t ω i * ((∑ o, w t ω o * z t ω o i * z t ω o j) / c t)) (fun _ => 0) fun i => conv_mbdd (hd i) (h3 i j))
      rwa [zero_mul] at this
    rwa [Finset.sum_const_zero] at this
  have := conv_plus h1 (conv_plus k2 k3)
  simp only [add_zero] at this
  exact conv_congr this fun t ω => wsq _ _ _ _ _

/-- Total versions of what 2SLS returns. -/
noncomputable def dd {m : Type} [Fintype m] (z : Matrix m k ℝ) (h : Matrix m l ℝ) (u : m → ℝ) : k → ℝ :=
  err (sc (Fintype.card m : ℝ) h z) (sc (Fintype.card m : ℝ) h h) (scv (Fintype.card m : ℝ) h u)
noncomputable def vv {m : Type} [Fintype m] (z : Matrix m k ℝ) (h : Matrix m l ℝ) : Matrix k l ℝ :=
  (sc (Fintype.card m : ℝ) h z)ᵀ * (sc (Fintype.card m : ℝ) h h)⁻¹

/-- The events on which 2SLS does not exist. -/
def bad (z : ∀ t, Ω t → Matrix (n t) k ℝ) (h : ∀ t, Ω t → Matrix (n t) l ℝ) (t : ℕ) : Set (Ω t) :=
  {ω | ¬ ((sc (Fintype.card (n t) : ℝ) (h t ω) (h t ω)).det ≠ 0 ∧ (vv (z t ω) (h t ω) * sc (Fintype.card (n t) : ℝ) (h t ω) (z t ω)).det ≠ 0)}

theorem vm_scale (c a : ℝ) (M : Matrix k k ℝ) (i j : k) : c * vmClassic a M i j = a * (c • M) i j := mul_left_comm _ _ _

/-- Estimators of arrays. -/
theorem mat_except {est : ∀ t, Ω t → Option (k × k → ℝ)} (b : ∀ t, Ω t → k → k → ℝ) (bd : ∀ t, Set (Ω t)) (hb : Tendsto (fun t => P t (bd t)) atTop (𝓝 0))
    (he : ∀ t ω, ω ∉ bd t → est t ω = some fun p => b t ω p.1 p.2) (A : k → k → ℝ) (h : ∀ i j, ConvP P (fun t ω => b t ω i j) (A i j)) :
    Consistent P est fun p => A p.1 p.2 := by
  have hh : ∀ p : k × k, ConvP P (fun t ω => (fun (t : ℕ) (ω : Ω t) (p : k × k) => b t ω p.1 p.2) t ω p) ((fun p : k × k => A p.1 p.2) p) := fun p => h p.1 p.2
  exact consistent_except (k := k × k) (fun (t : ℕ) (ω : Ω t) (p : k × k) => b t ω p.1 p.2) bd hb he (fun p => A p.1 p.2) hh

theorem sum_wone {m : Type} [Fintype m] (u : m → ℝ) : ∑ i, u i ^ 2 = ∑ i, (1 : ℝ) * u i ^ 2 := Finset.sum_congr rfl fun _ _ => (one_mul _).symm

/-- The parts of a 2SLS fit, except on events of vanishing probability, and their limits. -/
theorem tsls_parts (z : ∀ t, Ω t → Matrix (n t) k ℝ) (h : ∀ t, Ω t → Matrix (n t) l ℝ) (y u : ∀ t, Ω t → n t → ℝ)
    (th : k → ℝ) (hy : ∀ t ω, y t ω = z t ω *ᵥ th + u t ω)
    (hpos : ∀ t, 0 < Fintype.card (n t)) (Q : Matrix l k ℝ) (B : Matrix l l ℝ) (hB : B.det ≠ 0)
    (hQ : (Qᵀ * B⁻¹ * Q).det ≠ 0)
    (cA' : ∀ i j, ConvP P (fun t ω => (∑ a, h t ω a i * z t ω a j) / Fintype.card (n t)) (Q i j))
    (cB' : ∀ i j, ConvP P (fun t ω => (∑ a, h t ω a i * h t ω a j) / Fintype.card (n t)) (B i j))
    (cv' : ∀ i, ConvP P (fun t ω => (∑ a, h t ω a i * u t ω a) / Fintype.card (n t)) 0) :
    Tendsto (fun t => P t (bad z h t)) atTop (𝓝 0) ∧
    (∀ j, ConvP P (fun t ω => dd (z t ω) (h t ω) (u t ω) j) 0) ∧
    (∀ t ω, ω ∉ bad z h t → ∃ f, tslsZH (z t ω) (h t ω) (y t ω) = some f ∧ f.u = u t ω - z t ω *ᵥ dd (z t ω) (h t ω) (u t ω) ∧
      (Fintype.card (n t) : ℝ) • f.varb = (vv (z t ω) (h t ω) * sc (Fintype.card (n t) : ℝ) (h t ω) (z t ω))⁻¹ ∧ f.zthhthi = vv (z t ω) (h t ω)) ∧
    (∀ i j, ConvP P (fun t ω => vv (z t ω) (h t ω) i j) ((Qᵀ * B⁻¹) i j)) ∧
    (∀ i j, ConvP P (fun t ω => (vv (z t ω) (h t ω) * sc (Fintype.card (n t) : ℝ) (h t ω) (z t ω))⁻¹ i j) ((Qᵀ * B⁻¹ * Q)⁻¹ i j)) := by
  have hc : ∀ t, (Fintype.card (n t) : ℝ) ≠ 0 := fun t => by exact_mod_cast (hpos t).ne'
  have hg := tsls_good z h u (fun t => (Fintype.card (n t) : ℝ)) Q B hB hQ cA' cB' cv'
  have hbad : Tendsto (fun t => P t (bad z h t)) atTop (𝓝 0) := by
    refine tendsto_of_tendsto_of_tendsto_of_le_of_le tendsto_const_nhds (hg 1 one_pos) (fun _ => zero_le) fun t => measure_mono fun ω hω hin => hω ⟨hin.1, hin.2.1⟩
  have hd : ∀ j, ConvP P (fun t ω => dd (z t ω) (h t ω) (u t ω) j) 0 := by
    intro j ε hε
    refine tendsto_of_tendsto_of_tendsto_of_le_of_le tendsto_const_nhds (hg ε hε) (fun _ => zero_le) fun t => measure_mono fun ω hω hin => ?_
    have h1 := hin.2.2 j
    simp only [Set.mem_ofPred_eq, sub_zero] at hω
    exact absurd h1 (not_lt.2 hω)
  have key : ∀ t ω, ω ∉ bad z h t → ∃ f, tslsZH (z t ω) (h t ω) (y t ω) = some f ∧ f.u = u t ω - z t ω *ᵥ dd (z t ω) (h t ω) (u t ω) ∧
      (Fintype.card (n t) : ℝ) • f.varb = (vv (z t ω) (h t ω) * sc (Fintype.card (n t) : ℝ) (h t ω) (z t ω))⁻¹ ∧ f.zthhthi = vv (z t ω) (h t ω) := by
    intro t ω hω
    have hω' := not_not.1 hω
    rw [hy]
    exact tsls_all _ _ _ th _ (hc t) hω'.1 hω'.2
  have cA : ∀ i j, ConvP P (fun t ω => sc (Fintype.card (n t) : ℝ) (h t ω) (z t ω) i j) (Q i j) := fun i j =>
    conv_congr (cA' i j) fun t ω => sc_apply _ _ _ _ _
  have cB : ∀ i j, ConvP P (fun t ω => sc (Fintype.card (n t) : ℝ) (h t ω) (h t ω) i j) (B i j) := fun i j =>
    conv_congr (cB' i j) fun t ω => sc_apply _ _ _ _ _
  have cV : ∀ i j, ConvP P (fun t ω => vv (z t ω) (h t ω) i j) ((Qᵀ * B⁻¹) i j) := conv_matmul (fun i j => cA j i) (conv_matinv _ B hB cB)
  exact ⟨hbad, hd, key, cV, conv_matinv _ _ hQ (conv_matmul cV cA)⟩

/-- **C186.** Two-stage least squares with any regressors and instruments, random or not: under the conditions that make the coefficients consistent, if the
average of the squared errors converges to `s` and the averages of products of regressors with regressors and with errors stay bounded, the two estimates of
the error variance (with `n` and with `n - k`) are consistent for `s`, and `n` times the reported variance matrix for `s (Q' B^{-1} Q)^{-1}`. -/
theorem C186_tsls (z : ∀ t, Ω t → Matrix (n t) k ℝ) (h : ∀ t, Ω t → Matrix (n t) l ℝ) (y u : ∀ t, Ω t → n t → ℝ)
    (th : k → ℝ) (hy : ∀ t ω, y t ω = z t ω *ᵥ th + u t ω) (hn : Tendsto (fun t => (Fintype.card (n t) : ℝ)) atTop atTop)
    (hpos : ∀ t, 0 < Fintype.card (n t)) (hpr : ∀ t, IsProbabilityMeasure (P t)) (Q : Matrix l k ℝ) (B : Matrix l l ℝ) (hB : B.det ≠ 0)
    (hQ : (Qᵀ * B⁻¹ * Q).det ≠ 0)
    (cA' : ∀ i j, ConvP P (fun t ω => (∑ a, h t ω a i * z t ω a j) / Fintype.card (n t)) (Q i j))
    (cB' : ∀ i j, ConvP P (fun t ω => (∑ a, h t ω a i * h t ω a j) / Fintype.card (n t)) (B i j))
    (cv' : ∀ i, ConvP P (fun t ω => (∑ a, h t ω a i * u t ω a) / Fintype.card (n t)) 0) (s : ℝ)
    (su : ConvP P (fun t ω => (∑ o, u t ω o ^ 2) / Fintype.card (n t)) s)
    (zu : ∀ j, MeanBdd P fun t ω => (∑ o, z t ω o j * u t ω o) / Fintype.card (n t))
    (zz : ∀ i j, MeanBdd P fun t ω => (∑ o, z t ω o i * z t ω o j) / Fintype.card (n t)) :
    Consistent P (fun t ω => (tslsZH (z t ω) (h t ω) (y t ω)).map fun f (_ : Unit) => sig2n f.u) (fun _ => s) ∧
    Consistent P (fun t ω => (tslsZH (z t ω) (h t ω) (y t ω)).map fun f (_ : Unit) => sig2nk f.u (Fintype.card k)) (fun _ => s) ∧
    Consistent P (fun t ω => (tslsZH (z t ω) (h t ω) (y t ω)).map fun f (p : k × k) =>
      (Fintype.card (n t) : ℝ) * vmClassic (sig2n f.u) f.varb p.1 p.2) (fun p => s * (Qᵀ * B⁻¹ * Q)⁻¹ p.1 p.2) := by
  have hc : ∀ t, (Fintype.card (n t) : ℝ) ≠ 0 := fun t => by exact_mod_cast (hpos t).ne'
  obtain ⟨hbad, hd, key, -, hMi⟩ := tsls_parts z h y u th hy hpos Q B hB hQ cA' cB' cv'
  have hs : ConvP P (fun t ω => sig2n (u t ω - z t ω *ᵥ dd (z t ω) (h t ω) (u t ω))) s := by
    refine conv_congr (conv_wsq (fun _ _ _ => 1) u z (fun t ω => dd (z t ω) (h t ω) (u t ω)) (fun t => (Fintype.card (n t) : ℝ)) hd s ?_ ?_ ?_) fun t ω => ?_
    · simpa only [one_mul] using su
    · simpa only [one_mul] using zu
    · simpa only [one_mul] using zz
    · rw [sig2n, utu, sum_wone]
  refine ⟨?_, ?_, ?_⟩
  · refine consistent_except (fun t ω _ => sig2n (u t ω - z t ω *ᵥ dd (z t ω) (h t ω) (u t ω))) _ hbad (fun t ω hω => ?_) _ fun _ => hs
    obtain ⟨f, hf, hu, -⟩ := key t ω hω
    rw [hf, Option.map_some, hu]
  · have : ∀ t, DecidableEq (n t) := fun _ => Classical.decEq _
    have hs' := conv_mul (conv_const (P := P) _ 1 (dof_ratio hn (Fintype.card k : ℝ))) hs
    rw [one_mul] at hs'
    refine consistent_except (fun t ω _ => sig2nk (u t ω - z t ω *ᵥ dd (z t ω) (h t ω) (u t ω)) (Fintype.card k)) _ hbad (fun t ω hω => ?_) _ fun _ => ?_
    · obtain ⟨f, hf, hu, -⟩ := key t ω hω
      rw [hf, Option.map_some, hu]
    · refine conv_congr hs' fun t ω => ?_
      rw [sig2n, sig2nk, div_mul_div_comm, mul_comm ((Fintype.card (n t) : ℝ) - _), mul_div_mul_left _ _ (hc t)]
  · have hv := fun i j => conv_mul hs (hMi i j)
    generalize (Qᵀ * B⁻¹ * Q)⁻¹ = A at hv ⊢
    refine mat_except _ _ hbad (fun t ω hω => ?_) (fun i j => s * A i j) hv
    obtain ⟨f, hf, hu, hw, -⟩ := key t ω hω
    rw [hf, Option.map_some, hu, ← hw]
    simp only [vm_scale]

theorem white_scale (c : ℝ) (hc : c ≠ 0) (V : Matrix k k ℝ) (Z : Matrix k l ℝ) (S : Matrix l l ℝ) (i j : k) :
    c * sandwichTSLS V Z S i j = ((c • V) * Z * ((c⁻¹ • S) * ((c • V) * Z)ᵀ)) i j := by
  have : c • sandwichTSLS V Z S = (c • V) * Z * ((c⁻¹ • S) * ((c • V) * Z)ᵀ) := by
    simp only [sandwichTSLS, Matrix.smul_mul, Matrix.mul_smul, transpose_smul, smul_smul]
    rw [mul_inv_cancel₀ hc, one_mul]
  rw [← this]
  rfl

theorem psi_entry {m : Type} [Fintype m] (h : Matrix m l ℝ) (r : m → ℝ) (c : ℝ) (i j : l) :
    (c⁻¹ • psi0White h r none) i j = (∑ o, h o i * h o j * r o ^ 2) / c := by
  show c⁻¹ * ((broadcast h r)ᵀ * broadcast h r) i j = _
  rw [mul_apply, div_eq_inv_mul]
  congr 1
  exact Finset.sum_congr rfl fun o _ => by simp only [transpose_apply, broadcast, of_apply]; ring

/-- **C186.** White's variance matrix of two-stage least squares (`robust="white"`): under the conditions that make the coefficients consistent, if the averages
of products of two instruments and the squared error converge to `L`, and those of two instruments with two regressors or with a regressor and the error stay
bounded, `n` times the matrix is consistent for the sandwich of `L`, whatever the variances of the errors. -/
theorem C186_white (z : ∀ t, Ω t → Matrix (n t) k ℝ) (h : ∀ t, Ω t → Matrix (n t) l ℝ) (y u : ∀ t, Ω t → n t → ℝ)
    (th : k → ℝ) (hy : ∀ t ω, y t ω = z t ω *ᵥ th + u t ω)
    (hpos : ∀ t, 0 < Fintype.card (n t)) (Q : Matrix l k ℝ) (B : Matrix l l ℝ) (hB : B.det ≠ 0)
    (hQ : (Qᵀ * B⁻¹ * Q).det ≠ 0)
    (cA' : ∀ i j, ConvP P (fun t ω => (∑ a, h t ω a i * z t ω a j) / Fintype.card (n t)) (Q i j))
    (cB' : ∀ i j, ConvP P (fun t ω => (∑ a, h t ω a i * h t ω a j) / Fintype.card (n t)) (B i j))
    (cv' : ∀ i, ConvP P (fun t ω => (∑ a, h t ω a i * u t ω a) / Fintype.card (n t)) 0) (L : Matrix l l ℝ)
    (su : ∀ i j, ConvP P (fun t ω => (∑ o, h t ω o i * h t ω o j * u t ω o ^ 2) / Fintype.card (n t)) (L i j))
    (zu : ∀ i j a, MeanBdd P fun t ω => (∑ o, h t ω o i * h t ω o j * z t ω o a * u t ω o) / Fintype.card (n t))
    (zz : ∀ i j a b, MeanBdd P fun t ω => (∑ o, h t ω o i * h t ω o j * z t ω o a * z t ω o b) / Fintype.card (n t)) :
    Consistent P (fun t ω => (tslsZH (z t ω) (h t ω) (y t ω)).map fun f (p : k × k) =>
      (Fintype.card (n t) : ℝ) * sandwichTSLS f.varb f.zthhthi (psi0White (h t ω) f.u none) p.1 p.2)
      (fun p => ((Qᵀ * B⁻¹ * Q)⁻¹ * (Qᵀ * B⁻¹) * (L * ((Qᵀ * B⁻¹ * Q)⁻¹ * (Qᵀ * B⁻¹))ᵀ)) p.1 p.2) := by
  have hc : ∀ t, (Fintype.card (n t) : ℝ) ≠ 0 := fun t => by exact_mod_cast (hpos t).ne'
  obtain ⟨hbad, hd, key, cV, hMi⟩ := tsls_parts z h y u th hy hpos Q B hB hQ cA' cB' cv'
  have hs : ∀ i j, ConvP P (fun t ω => ((Fintype.card (n t) : ℝ)⁻¹ • psi0White (h t ω) (u t ω - z t ω *ᵥ dd (z t ω) (h t ω) (u t ω)) none) i j) (L i j) := by
    intro i j
    refine conv_congr (conv_wsq (fun t ω o => h t ω o i * h t ω o j) u z (fun t ω => dd (z t ω) (h t ω) (u t ω)) (fun t => (Fintype.card (n t) : ℝ)) hd _
      (su i j) (zu i j) (zz i j)) fun t ω => psi_entry _ _ _ _ _
  have hG := conv_matmul hMi cV
  have hW := conv_matmul hG (conv_matmul hs (Y := fun t ω => ((vv (z t ω) (h t ω) * sc (Fintype.card (n t) : ℝ) (h t ω) (z t ω))⁻¹ * vv (z t ω) (h t ω))ᵀ)
    (B := ((Qᵀ * B⁻¹ * Q)⁻¹ * (Qᵀ * B⁻¹))ᵀ) fun i j => hG j i)
  generalize (Qᵀ * B⁻¹ * Q)⁻¹ * (Qᵀ * B⁻¹) * (L * ((Qᵀ * B⁻¹ * Q)⁻¹ * (Qᵀ * B⁻¹))ᵀ) = A at hW ⊢
  refine mat_except _ _ hbad (fun t ω hω => ?_) A hW
  obtain ⟨f, hf, hu, hw, hz⟩ := key t ω hω
  rw [hf, Option.map_some, hu, ← hw, ← hz]
  simp only [white_scale _ (hc t)]
end tsls

section lag
variable {n : ℕ → Type} [∀ t, Fintype (n t)] [∀ t, DecidableEq (n t)] {e : ∀ t, Ω t → n t → ℝ} {s : ∀ t, n t → ℝ} {S V : ℝ}

theorem _root_.Spreg.Sums.diagonal {m : Type} [Fintype m] [DecidableEq m] (w : m → ℝ) (C : ℝ) (hw : ∀ i, |w i| ≤ C) : Sums (diagonal w) C := by
  constructor
  · intro i
    rw [Finset.sum_eq_single i (fun j _ h => by rw [diagonal_apply_ne _ (Ne.symm h), abs_zero]) (fun h => absurd (Finset.mem_univ _) h), diagonal_apply_eq]
    exact hw i
  · intro j
    rw [Finset.sum_eq_single j (fun i _ h => by rw [diagonal_apply_ne _ h, abs_zero]) (fun h => absurd (Finset.mem_univ _) h), diagonal_apply_eq]
    exact hw j

theorem sums_vec {m : Type} [Fintype m] (H : Matrix m m ℝ) (r : ℝ) (hH : Sums H r) (v : m → ℝ) (C : ℝ) (hC : 0 ≤ C) (hv : ∀ i, |v i| ≤ C) (p : m) :
    |∑ o, v o * H o p| ≤ C * r := by
  refine (Finset.abs_sum_le_sum_abs _ _).trans ?_
  calc ∑ o, |v o * H o p| ≤ ∑ o, C * |H o p| := Finset.sum_le_sum fun o _ => by
        rw [abs_mul]; exact mul_le_mul_of_nonneg_right (hv o) (abs_nonneg _)
    _ = C * ∑ o, |H o p| := (Finset.mul_sum _ _ _).symm
    _ ≤ C * r := mul_le_mul_of_nonneg_left (hH.2 p) hC

/-- Averages of products of a bounded vector with a spatial lag of the errors vanish. -/
theorem lin_zero (h : ∀ t, Errors (P t) (e t) (s t)) (hS0 : 0 ≤ S) (hS : ∀ t i, s t i ≤ S)
    (hn : Tendsto (fun t => (Fintype.card (n t) : ℝ)) atTop atTop) (hpos : ∀ t, 0 < Fintype.card (n t))
    (μ : ∀ t, n t → ℝ) (C : ℝ) (hμ : ∀ t i, |μ t i| ≤ C) (H : ∀ t, Matrix (n t) (n t) ℝ) (r : ℝ) (hH : ∀ t, Sums (H t) r) :
    ConvP P (fun t ω => (∑ o, μ t o * (H t *ᵥ e t ω) o) / Fintype.card (n t)) 0 := by
  have hc : ∀ t, (0 : ℝ) < Fintype.card (n t) := fun t => by exact_mod_cast hpos t
  have hC : 0 ≤ C := by
    obtain ⟨i⟩ := Fintype.card_pos_iff.1 (hpos 0)
    exact (abs_nonneg _).trans (hμ 0 i)
  have := avg_zero h hS0 hS (fun t p => ∑ o, μ t o * H t o p) (fun t => (Fintype.card (n t) : ℝ)) (fun _ => (C * r) ^ 2) hc hn _ tendsto_const_nhds fun t => by
    calc ∑ i, (∑ o, μ t o * H t o i) ^ 2 ≤ ∑ _i : n t, (C * r) ^ 2 := Finset.sum_le_sum fun i _ =>
          sq_le_sq' (by have := sums_vec _ r (hH t) _ C hC (hμ t) i; rw [abs_le] at this; exact this.1) ((le_abs_self _).trans (sums_vec _ r (hH t) _ C hC (hμ t) i))
      _ = _ := by rw [Finset.sum_const, Finset.card_univ, nsmul_eq_mul, mul_comm]
  refine conv_congr this fun t ω => ?_
  congr 1
  simp only [mulVec, dotProduct, Finset.mul_sum, Finset.sum_mul]
  rw [Finset.sum_comm]
  exact Finset.sum_congr rfl fun _ _ => Finset.sum_congr rfl fun _ _ => by ring

/-- Averages of products of two variables that are a bounded vector plus a spatial lag of the errors. -/
theorem prod_conv (h : ∀ t, Errors (P t) (e t) (s t)) (hS0 : 0 ≤ S) (hS : ∀ t i, s t i ≤ S) (hp : ∀ t, PairErrors (P t) (e t) (s t) V)
    (hn : Tendsto (fun t => (Fintype.card (n t) : ℝ)) atTop atTop) (hpos : ∀ t, 0 < Fintype.card (n t))
    (μ ν : ∀ t, n t → ℝ) (C D : ℝ) (hμ : ∀ t i, |μ t i| ≤ C) (hν : ∀ t i, |ν t i| ≤ D) (G H : ∀ t, Matrix (n t) (n t) ℝ) (r q : ℝ)
    (hG : ∀ t, Sums (G t) r) (hH : ∀ t, Sums (H t) q) :
    ConvP P (fun t ω => (∑ o, (μ t o + (G t *ᵥ e t ω) o) * (ν t o + (H t *ᵥ e t ω) o)) / Fintype.card (n t) -
      (∑ o, μ t o * ν t o + ∑ i, s t i * ((G t)ᵀ * H t) i i) / Fintype.card (n t)) 0 := by
  have c1 := lin_zero h hS0 hS hn hpos μ C hμ H q hH
  have c2 := lin_zero h hS0 hS hn hpos ν D hν G r hG
  have c3 := quad_llnH hp hn hpos (fun t => (G t)ᵀ * H t) _ (fun t => (hG t).tr.mul (hH t))
  have := conv_plus (conv_plus c1 c2) c3
  simp only [add_zero] at this
  refine conv_congr this fun t ω => ?_
  have e1 : e t ω ⬝ᵥ (((G t)ᵀ * H t) *ᵥ e t ω) = ∑ o, (G t *ᵥ e t ω) o * (H t *ᵥ e t ω) o := by
    rw [← mulVec_mulVec, dotProduct_mulVec, vecMul_transpose]
    rfl
  rw [e1, ← sub_div, ← add_div, ← add_div]
  congr 1
  simp only [add_mul, mul_add, Finset.sum_add_distrib]
  have : ∑ o, ν t o * (G t *ᵥ e t ω) o = ∑ o, (G t *ᵥ e t ω) o * ν t o := Finset.sum_congr rfl fun _ _ => mul_comm _ _
  rw [this]
  ring

/-- They stay bounded. -/
theorem prod_mbdd (h : ∀ t, Errors (P t) (e t) (s t)) (hS0 : 0 ≤ S) (hS : ∀ t i, s t i ≤ S) (hs0 : ∀ t i, 0 ≤ s t i) (hp : ∀ t, PairErrors (P t) (e t) (s t) V)
    (hn : Tendsto (fun t => (Fintype.card (n t) : ℝ)) atTop atTop) (hpos : ∀ t, 0 < Fintype.card (n t))
    (μ ν w : ∀ t, n t → ℝ) (C D K : ℝ) (hμ : ∀ t i, |μ t i| ≤ C) (hν : ∀ t i, |ν t i| ≤ D) (hw : ∀ t i, |w t i| ≤ K) (G H : ∀ t, Matrix (n t) (n t) ℝ) (r q : ℝ)
    (hG : ∀ t, Sums (G t) r) (hH : ∀ t, Sums (H t) q) :
    MeanBdd P (fun t ω => (∑ o, w t o * (μ t o + (G t *ᵥ e t ω) o) * (ν t o + (H t *ᵥ e t ω) o)) / Fintype.card (n t)) := by
  obtain ⟨i0⟩ := Fintype.card_pos_iff.1 (hpos 0)
  have hK : 0 ≤ K := (abs_nonneg _).trans (hw 0 i0)
  have hC : 0 ≤ C := (abs_nonneg _).trans (hμ 0 i0)
  have hc : ∀ t, (0 : ℝ) < Fintype.card (n t) := fun t => by exact_mod_cast hpos t
  have hm : ∀ t i, |w t i * μ t i| ≤ K * C := fun t i => by rw [abs_mul]; exact mul_le_mul (hw t i) (hμ t i) (abs_nonneg _) hK
  have hg : ∀ t, Sums (diagonal (w t) * G t) (K * r) := fun t => (Sums.diagonal _ K (hw t)).mul (hG t)
  have := prod_conv h hS0 hS hp hn hpos (fun t i => w t i * μ t i) ν (K * C) D hm hν (fun t => diagonal (w t) * G t) H _ q hg hH
  refine ⟨fun t => (∑ o, w t o * μ t o * ν t o + ∑ i, s t i * ((diagonal (w t) * G t)ᵀ * H t) i i) / Fintype.card (n t),
    K * C * D + S * (K * r * q), fun t => ?_, conv_congr this fun t ω => ?_⟩
  · rw [abs_div, abs_of_pos (hc t), div_le_iff₀ (hc t)]
    have b2 : ∀ i, |s t i * (((diagonal (w t) * G t)ᵀ * H t) i i)| ≤ S * (K * r * q) := fun i => by
      rw [abs_mul, abs_of_nonneg (hs0 t i)]
      have := ((hg t).tr.mul (hH t)).1 i
      exact mul_le_mul (hS t i) ((Finset.single_le_sum (f := fun j => |((diagonal (w t) * G t)ᵀ * H t) i j|) (fun _ _ => abs_nonneg _) (Finset.mem_univ i)).trans this) (abs_nonneg _) hS0
    have b1 : ∀ i, |w t i * μ t i * ν t i| ≤ K * C * D := fun i => by
      rw [abs_mul]; exact mul_le_mul (hm t i) (hν t i) (abs_nonneg _) (mul_nonneg hK hC)
    calc _ ≤ |∑ o, w t o * μ t o * ν t o| + |∑ i, s t i * (((diagonal (w t) * G t)ᵀ * H t) i i)| := abs_add_le _ _
      _ ≤ (∑ _o : n t, K * C * D) + ∑ _o : n t, S * (K * r * q) :=
        add_le_add ((Finset.abs_sum_le_sum_abs _ _).trans (Finset.sum_le_sum fun i _ => b1 i)) ((Finset.abs_sum_le_sum_abs _ _).trans (Finset.sum_le_sum fun i _ => b2 i))
      _ = _ := by simp only [Finset.sum_const, Finset.card_univ, nsmul_eq_mul]; ring
  · dsimp only
    congr 2
    refine Finset.sum_congr rfl fun o _ => ?_
    have : ((diagonal (w t) * G t) *ᵥ e t ω) o = w t o * (G t *ᵥ e t ω) o := by
      rw [← mulVec_mulVec, mulVec_diagonal]
    rw [this]
    ring
end lag

section lagmodel
variable {kx : Type} [Fintype kx] [DecidableEq kx] {n : ℕ → Type} [∀ t, Fintype (n t)] [∀ t, DecidableEq (n t)]
  {W : ∀ t, Matrix (n t) (n t) ℝ} {x : ∀ t, Matrix (n t) kx ℝ} {y e : ∀ t, Ω t → n t → ℝ} {a : ℝ} {b : kx → ℝ} {rho : ℝ} {s : ∀ t, n t → ℝ}

theorem lag_reduced (M : LagModel P n W x y e a b rho s) (t : ℕ) (ω : Ω t) :
    y t ω = ((1 - rho • W t)⁻¹ *ᵥ fun i => a + ∑ j, x t i j * b j) + (1 - rho • W t)⁻¹ *ᵥ e t ω := by
  have : (1 - rho • W t) *ᵥ y t ω = (fun i => a + ∑ j, x t i j * b j) + e t ω := by
    rw [sub_mulVec, one_mulVec, smul_mulVec]
    funext i
    have := M.y_eq t ω i
    simp only [Pi.sub_apply, Pi.smul_apply, Pi.add_apply, smul_eq_mul]
    have e1 : (W t *ᵥ y t ω) i = ∑ i', W t i i' * y t ω i' := rfl
    rw [e1]; linarith
  rw [← mulVec_add, ← this, mulVec_mulVec, nonsing_inv_mul _ (M.reg t), one_mulVec]

theorem lag_truth (M : LagModel P n W x y e a b rho s) (t : ℕ) (ω : Ω t) :
    y t ω = lagZ (W t) (x t) (0 : Matrix (n t) Empty ℝ) (y t ω) *ᵥ lagTruth a b rho + e t ω := by
  funext i
  rw [M.y_eq t ω i, Pi.add_apply]
  congr 1
  show _ = ∑ j, lagZ (W t) (x t) (0 : Matrix (n t) Empty ℝ) (y t ω) i j * lagTruth a b rho j
  simp only [Fintype.sum_sum_type, lagZ, lagTruth, Sum.elim_inl, Sum.elim_inr, fromCols_apply_inl, fromCols_apply_inr, of_apply,
    Finset.univ_unique, Finset.sum_singleton, Finset.univ_eq_empty, Finset.sum_empty, one_mul, zero_add]
  rw [mul_comm rho]
  rfl

/-- Every regressor is a bounded vector plus a spatial lag of the errors. -/
theorem lag_cols (M : LagModel P n W x y e a b rho s) (j : (Unit ⊕ kx) ⊕ (Empty ⊕ Unit)) :
    ∃ (μ : ∀ t, n t → ℝ) (G : ∀ t, Matrix (n t) (n t) ℝ) (C r : ℝ), (∀ t i, |μ t i| ≤ C) ∧ (∀ t, Sums (G t) r) ∧
      ∀ t ω o, lagZ (W t) (x t) (0 : Matrix (n t) Empty ℝ) (y t ω) o j = μ t o + (G t *ᵥ e t ω) o := by
  obtain ⟨C, hC⟩ := M.bdd
  obtain ⟨rW, hW⟩ := M.sumsW
  obtain ⟨rR, hR⟩ := M.sumsR
  have h0 : ∀ t, Sums (0 : Matrix (n t) (n t) ℝ) 0 := fun t => ⟨fun i => by simp, fun j => by simp⟩
  rcases j with (j | j) | (j | j)
  · exact ⟨fun _ _ => 1, fun _ => 0, 1, 0, fun _ _ => by simp, h0, fun t ω o => by rw [zero_mulVec]; exact (add_zero _).symm⟩
  · exact ⟨fun t i => x t i j, fun _ => 0, C, 0, fun t i => hC t i j, h0, fun t ω o => by rw [zero_mulVec]; exact (add_zero _).symm⟩
  · exact j.elim
  · have hm : ∀ t i, |(fun i => a + ∑ j, x t i j * b j : n t → ℝ) i| ≤ |a| + ∑ j, C * |b j| := fun t i =>
      (abs_add_le _ _).trans (add_le_add le_rfl ((Finset.abs_sum_le_sum_abs _ _).trans (Finset.sum_le_sum fun j _ => by
        rw [abs_mul]; exact mul_le_mul_of_nonneg_right (hC t i j) (abs_nonneg _))))
    have hWR : ∀ t, Sums (W t * (1 - rho • W t)⁻¹) (rW * rR) := fun t => (hW t).mul (hR t)
    refine ⟨fun t => (W t * (1 - rho • W t)⁻¹) *ᵥ fun i => a + ∑ j, x t i j * b j, fun t => W t * (1 - rho • W t)⁻¹,
      rW * rR * (|a| + ∑ j, C * |b j|), rW * rR, fun t i => ?_, hWR, fun t ω o => ?_⟩
    · exact (hWR t).entry (Matrix.of fun i (_ : Unit) => a + ∑ j, x t i j * b j) _ (fun i _ => hm t i) i ()
    · show (W t *ᵥ y t ω) o = _
      rw [lag_reduced M t ω, mulVec_add, mulVec_mulVec, mulVec_mulVec]
      rfl

/-- Averages of products of two regressors and a bounded vector stay bounded, and so do those of a regressor, the error and a bounded vector. -/
theorem lag_mbdd (M : LagModel P n W x y e a b rho s) (w : ∀ t, n t → ℝ) (K : ℝ) (hw : ∀ t i, |w t i| ≤ K) (i j : (Unit ⊕ kx) ⊕ (Empty ⊕ Unit)) :
    (MeanBdd P fun t ω => (∑ o, w t o * lagZ (W t) (x t) (0 : Matrix (n t) Empty ℝ) (y t ω) o i *
      lagZ (W t) (x t) (0 : Matrix (n t) Empty ℝ) (y t ω) o j) / Fintype.card (n t)) ∧
    MeanBdd P fun t ω => (∑ o, w t o * lagZ (W t) (x t) (0 : Matrix (n t) Empty ℝ) (y t ω) o j * e t ω o) / Fintype.card (n t) := by
  obtain ⟨μ, G, C, r, hμ, hG, hi⟩ := lag_cols M i
  obtain ⟨ν, H, D, q, hν, hH, hj⟩ := lag_cols M j
  obtain ⟨S, hS⟩ := M.var
  obtain ⟨V, hV⟩ := M.pairs
  have hs0 : ∀ t i, 0 ≤ s t i := fun t i => by
    have := (M.err t).cov i i
    rw [if_pos rfl] at this
    rw [← this]
    exact integral_nonneg fun ω => mul_self_nonneg _
  have hS0 : 0 ≤ S := by
    obtain ⟨i⟩ := Fintype.card_pos_iff.1 (M.pos 0)
    exact (hs0 0 i).trans (hS 0 i)
  constructor
  · simp only [hi, hj]
    exact prod_mbdd M.err hS0 hS hs0 hV M.size M.pos μ ν w C D K hμ hν hw G H r q hG hH
  · have := prod_mbdd M.err hS0 hS hs0 hV M.size M.pos ν (fun _ _ => 0) w D 0 K hν (fun _ _ => by simp) hw H (fun _ => 1) q 1 hH fun _ => Sums.one
    simpa only [hj, one_mulVec, zero_add] using this

/-- Weighted averages of squared errors. -/
theorem lag_esq (M : LagModel P n W x y e a b rho s) (w : ∀ t, n t → ℝ) (K : ℝ) (hw : ∀ t i, |w t i| ≤ K) (c : ℝ)
    (lim : Tendsto (fun t => (∑ o, w t o * s t o) / Fintype.card (n t)) atTop (𝓝 c)) :
    ConvP P (fun t ω => (∑ o, w t o * e t ω o ^ 2) / Fintype.card (n t)) c := by
  obtain ⟨S, hS⟩ := M.var
  obtain ⟨V, hV⟩ := M.pairs
  have hpr : ∀ t, IsProbabilityMeasure (P t) := fun t => (M.err t).prob
  have := quad_llnH hV M.size M.pos (fun t => diagonal (w t)) K fun t => Sums.diagonal _ K (hw t)
  have := conv_plus this (conv_const _ _ lim)
  rw [zero_add] at this
  refine conv_congr this fun t ω => ?_
  rw [← add_div]
  congr 1
  have e1 : e t ω ⬝ᵥ (diagonal (w t) *ᵥ e t ω) = ∑ o, w t o * e t ω o ^ 2 :=
    Finset.sum_congr rfl fun o _ => by rw [mulVec_diagonal]; ring
  have e2 : ∑ i, s t i * diagonal (w t) i i = ∑ o, w t o * s t o := Finset.sum_congr rfl fun o _ => by rw [diagonal_apply_eq, mul_comm]
  rw [e1, e2]
  ring
theorem lag_limits (M : LagModel P n W x y e a b rho s) {l : Type} [Fintype l] [DecidableEq l] (H : ∀ t, Matrix (n t) l ℝ)
    (Q : Matrix l ((Unit ⊕ kx) ⊕ (Empty ⊕ Unit)) ℝ) (B : Matrix l l ℝ)
    (limB : ∀ i j, Tendsto (fun t => (∑ o, H t o i * H t o j) / Fintype.card (n t)) atTop (𝓝 (B i j)))
    (limQ : ∀ i j, Tendsto (fun t => (∑ o, H t o i *
      lagZ (W t) (x t) (0 : Matrix (n t) Empty ℝ) ((1 - rho • W t)⁻¹ *ᵥ fun i => a + ∑ j, x t i j * b j) o j) / Fintype.card (n t)) atTop (𝓝 (Q i j))) :
    (∀ i j, ConvP P (fun t ω => (∑ o, H t o i * lagZ (W t) (x t) (0 : Matrix (n t) Empty ℝ) (y t ω) o j) / Fintype.card (n t)) (Q i j)) ∧
    (∀ i j, ConvP P (fun t ω => (∑ o, H t o i * H t o j) / Fintype.card (n t)) (B i j)) ∧
    (∀ i, ConvP P (fun t ω => (∑ o, H t o i * e t ω o) / Fintype.card (n t)) 0) := by
  obtain ⟨S, hS⟩ := M.var
  obtain ⟨rW, hW⟩ := M.sumsW
  obtain ⟨rR, hR⟩ := M.sumsR
  have hpr : ∀ t, IsProbabilityMeasure (P t) := fun t => (M.err t).prob
  have hc : ∀ t, (0 : ℝ) < Fintype.card (n t) := fun t => by exact_mod_cast M.pos t
  have hWR : ∀ t, Sums (W t * (1 - rho • W t)⁻¹) (rW * rR) := fun t => (hW t).mul (hR t)
  have hS0 : 0 ≤ S := by
    obtain ⟨i⟩ := Fintype.card_pos_iff.1 (M.pos 0)
    refine le_trans ?_ (hS 0 i)
    have := (M.err 0).cov i i
    rw [if_pos rfl] at this
    rw [← this]
    exact integral_nonneg fun ω => mul_self_nonneg _
  refine ⟨?_, fun i j => conv_const _ _ (limB i j), fun i => err_core hS0 M.err hS M.size hc (fun t o => H t o i) _ (limB i i)⟩
  rintro i (j | j | j)
  · exact conv_congr (conv_const _ _ (limQ i (.inl j))) fun t ω => by congr 1
  · exact j.elim
  · have := lag_core hS0 M.err hS (fun t => W t * (1 - rho • W t)⁻¹) _ (fun t => (hWR t).1) (fun t => (hWR t).2) M.size hc (fun t o => H t o i)
      (fun t o => lagZ (W t) (x t) (0 : Matrix (n t) Empty ℝ) ((1 - rho • W t)⁻¹ *ᵥ fun i => a + ∑ j, x t i j * b j) o (.inr (.inr j)))
      _ _ (limB i i) (limQ i (.inr (.inr j)))
    refine conv_congr this fun t ω => ?_
    congr 1
    refine Finset.sum_congr rfl fun o _ => ?_
    rw [lagZ_wy, lagZ_wy, wy_split (W t) _ _ _ _ (lag_reduced M t ω) o]

/-- **C186** for `GM_Lag` (no other endogenous variables): under the conditions of Kelejian and Prucha with equal variances `s`, the two estimates of the error
variance are consistent and `n` times the reported variance matrix of the coefficients converges to `s (Q' B^{-1} Q)^{-1}`. -/
theorem C186_lag {s : ℝ} (M : LagModel P n W x y e a b rho fun _ _ => s)
    (L : ℕ) (lagQ : Bool) (Q : Matrix ((Unit ⊕ kx) ⊕ (Empty ⊕ LagCol kx Empty lagQ × Fin L)) ((Unit ⊕ kx) ⊕ (Empty ⊕ Unit)) ℝ)
    (B : Matrix ((Unit ⊕ kx) ⊕ (Empty ⊕ LagCol kx Empty lagQ × Fin L)) ((Unit ⊕ kx) ⊕ (Empty ⊕ LagCol kx Empty lagQ × Fin L)) ℝ)
    (hB : B.det ≠ 0) (hQ : (Qᵀ * B⁻¹ * Q).det ≠ 0)
    (limB : ∀ i j, Tendsto (fun t => (∑ o, lagH (W t) (x t) (0 : Matrix (n t) Empty ℝ) L lagQ o i * lagH (W t) (x t) (0 : Matrix (n t) Empty ℝ) L lagQ o j) /
      Fintype.card (n t)) atTop (𝓝 (B i j)))
    (limQ : ∀ i j, Tendsto (fun t => (∑ o, lagH (W t) (x t) (0 : Matrix (n t) Empty ℝ) L lagQ o i *
      lagZ (W t) (x t) (0 : Matrix (n t) Empty ℝ) ((1 - rho • W t)⁻¹ *ᵥ fun i => a + ∑ j, x t i j * b j) o j) / Fintype.card (n t)) atTop (𝓝 (Q i j))) :
    Consistent P (fun t ω => (gmLag (W t) (x t) (0 : Matrix (n t) Empty ℝ) (0 : Matrix (n t) Empty ℝ) (y t ω) L lagQ).map fun f (_ : Unit) => sig2n f.u) (fun _ => s) ∧
    Consistent P (fun t ω => (gmLag (W t) (x t) (0 : Matrix (n t) Empty ℝ) (0 : Matrix (n t) Empty ℝ) (y t ω) L lagQ).map fun f (_ : Unit) =>
      sig2nk f.u (Fintype.card ((Unit ⊕ kx) ⊕ (Empty ⊕ Unit)))) (fun _ => s) ∧
    Consistent P (fun t ω => (gmLag (W t) (x t) (0 : Matrix (n t) Empty ℝ) (0 : Matrix (n t) Empty ℝ) (y t ω) L lagQ).map fun f
      (p : ((Unit ⊕ kx) ⊕ (Empty ⊕ Unit)) × ((Unit ⊕ kx) ⊕ (Empty ⊕ Unit))) => (Fintype.card (n t) : ℝ) * vmClassic (sig2n f.u) f.varb p.1 p.2)
      (fun p => s * (Qᵀ * B⁻¹ * Q)⁻¹ p.1 p.2) := by
  obtain ⟨c1, c2, c3⟩ := lag_limits M (fun t => lagH (W t) (x t) (0 : Matrix (n t) Empty ℝ) L lagQ) Q B limB limQ
  have hw : ∀ (t : ℕ) (i : n t), |(fun _ _ => 1 : ∀ t, n t → ℝ) t i| ≤ 1 := fun t i => by simp
  have hc : ∀ t, (Fintype.card (n t) : ℝ) ≠ 0 := fun t => by exact_mod_cast (M.pos t).ne'
  have he := lag_esq M (fun _ _ => 1) 1 hw s (tendsto_const_nhds.congr fun t => by
    simp only [one_mul, Finset.sum_const, Finset.card_univ, nsmul_eq_mul]
    rw [mul_div_cancel_left₀ _ (hc t)])
  have hb := fun i j => lag_mbdd M (fun _ _ => 1) 1 hw i j
  simp only [one_mul] at he hb
  exact C186_tsls (fun t ω => lagZ (W t) (x t) (0 : Matrix (n t) Empty ℝ) (y t ω)) (fun t _ => lagH (W t) (x t) (0 : Matrix (n t) Empty ℝ) L lagQ) y e
    (lagTruth a b rho) (lag_truth M) M.size M.pos (fun t => (M.err t).prob) Q B hB hQ c1 c2 c3 s he (fun j => (hb j j).2) fun i j => (hb i j).1

/-- Instruments are bounded. -/
theorem lagH_bdd (M : LagModel P n W x y e a b rho s) (L : ℕ) (lagQ : Bool) (j : (Unit ⊕ kx) ⊕ (Empty ⊕ LagCol kx Empty lagQ × Fin L)) :
    ∃ K, ∀ t i, |lagH (W t) (x t) (0 : Matrix (n t) Empty ℝ) L lagQ i j| ≤ K := by
  obtain ⟨C, hC⟩ := M.bdd
  obtain ⟨rW, hW⟩ := M.sumsW
  rcases j with (j | j) | (j | ⟨j, p⟩)
  · exact ⟨1, fun t i => by show |(1 : ℝ)| ≤ 1; simp⟩
  · exact ⟨C, fun t i => hC t i j⟩
  · exact j.elim
  · rcases j with j | j
    swap
    · exact j.1.elim
    · have hp : ∀ (q : ℕ) (t : ℕ), Sums (W t ^ q) (rW ^ q) := by
        intro q t
        induction q with
        | zero => rw [pow_zero, pow_zero]; exact Sums.one
        | succ q ih => rw [pow_succ, pow_succ]; exact ih.mul (hW t)
      refine ⟨rW ^ (p.1 + 1) * C, fun t i => ?_⟩
      have := (hp (p.1 + 1) t).entry (x t) C (hC t) i j
      exact this

/-- **C186** for `GM_Lag` with `robust="white"`: `n` times the reported variance matrix is consistent for the sandwich, whatever the variances `s t i` of the
errors; `L` is the limit of the average of products of two instruments with the variances. -/
theorem C186_lag_white (M : LagModel P n W x y e a b rho s)
    (L : ℕ) (lagQ : Bool) (Q : Matrix ((Unit ⊕ kx) ⊕ (Empty ⊕ LagCol kx Empty lagQ × Fin L)) ((Unit ⊕ kx) ⊕ (Empty ⊕ Unit)) ℝ)
    (B Lam : Matrix ((Unit ⊕ kx) ⊕ (Empty ⊕ LagCol kx Empty lagQ × Fin L)) ((Unit ⊕ kx) ⊕ (Empty ⊕ LagCol kx Empty lagQ × Fin L)) ℝ)
    (hB : B.det ≠ 0) (hQ : (Qᵀ * B⁻¹ * Q).det ≠ 0)
    (limB : ∀ i j, Tendsto (fun t => (∑ o, lagH (W t) (x t) (0 : Matrix (n t) Empty ℝ) L lagQ o i * lagH (W t) (x t) (0 : Matrix (n t) Empty ℝ) L lagQ o j) /
      Fintype.card (n t)) atTop (𝓝 (B i j)))
    (limQ : ∀ i j, Tendsto (fun t => (∑ o, lagH (W t) (x t) (0 : Matrix (n t) Empty ℝ) L lagQ o i *
      lagZ (W t) (x t) (0 : Matrix (n t) Empty ℝ) ((1 - rho • W t)⁻¹ *ᵥ fun i => a + ∑ j, x t i j * b j) o j) / Fintype.card (n t)) atTop (𝓝 (Q i j)))
    (limL : ∀ i j, Tendsto (fun t => (∑ o, lagH (W t) (x t) (0 : Matrix (n t) Empty ℝ) L lagQ o i * lagH (W t) (x t) (0 : Matrix (n t) Empty ℝ) L lagQ o j *
      s t o) / Fintype.card (n t)) atTop (𝓝 (Lam i j))) :
    Consistent P (fun t ω => (gmLag (W t) (x t) (0 : Matrix (n t) Empty ℝ) (0 : Matrix (n t) Empty ℝ) (y t ω) L lagQ).map fun f
      (p : ((Unit ⊕ kx) ⊕ (Empty ⊕ Unit)) × ((Unit ⊕ kx) ⊕ (Empty ⊕ Unit))) => (Fintype.card (n t) : ℝ) *
        sandwichTSLS f.varb f.zthhthi (psi0White (lagH (W t) (x t) (0 : Matrix (n t) Empty ℝ) L lagQ) f.u none) p.1 p.2)
      (fun p => ((Qᵀ * B⁻¹ * Q)⁻¹ * (Qᵀ * B⁻¹) * (Lam * ((Qᵀ * B⁻¹ * Q)⁻¹ * (Qᵀ * B⁻¹))ᵀ)) p.1 p.2) := by
  obtain ⟨c1, c2, c3⟩ := lag_limits M (fun t => lagH (W t) (x t) (0 : Matrix (n t) Empty ℝ) L lagQ) Q B limB limQ
  have hw : ∀ i j, ∃ K, ∀ t o, |(fun t o => lagH (W t) (x t) (0 : Matrix (n t) Empty ℝ) L lagQ o i * lagH (W t) (x t) (0 : Matrix (n t) Empty ℝ) L lagQ o j :
      ∀ t, n t → ℝ) t o| ≤ K := by
    intro i j
    obtain ⟨K1, h1⟩ := lagH_bdd M L lagQ i
    obtain ⟨K2, h2⟩ := lagH_bdd M L lagQ j
    refine ⟨K1 * K2, fun t o => ?_⟩
    dsimp only
    rw [abs_mul]
    exact mul_le_mul (h1 t o) (h2 t o) (abs_nonneg _) ((abs_nonneg _).trans (h1 t o))
  refine C186_white (fun t ω => lagZ (W t) (x t) (0 : Matrix (n t) Empty ℝ) (y t ω)) (fun t _ => lagH (W t) (x t) (0 : Matrix (n t) Empty ℝ) L lagQ) y e
    (lagTruth a b rho) (lag_truth M) M.pos Q B hB hQ c1 c2 c3 Lam (fun i j => ?_) (fun i j c => ?_) fun i j c d => ?_
  · obtain ⟨K, hK⟩ := hw i j
    exact lag_esq M _ K hK _ (limL i j)
  · obtain ⟨K, hK⟩ := hw i j
    exact (lag_mbdd M _ K hK c c).2
  · obtain ⟨K, hK⟩ := hw i j
    exact (lag_mbdd M _ K hK c d).1

end lagmodel
end Spreg.Consist
