import Verif.Props.Fisher2
import Verif.Props.SURSpatial3
/-
C123: the covariance matrix of the spatial parameters and error variances reported by SURerrorML.
-/
namespace Spreg.SUR
open Matrix Spreg.Lin Spreg.Gauss

section Sums
variable {R : Type} [Fintype R] [LinearOrder R]

/-- A double sum over all pairs, as a sum over the pairs with `i <= j`. -/
theorem sum_upair (f : R → R → ℝ) :
    ∑ b, ∑ c, f b c = ∑ p : UPair R, (f p.1.1 p.1.2 + if p.1.1 = p.1.2 then 0 else f p.1.2 p.1.1) := by
  have hl : ∀ g : R × R → ℝ, ∑ p : UPair R, g p.1 = ∑ a : R × R, if a.1 ≤ a.2 then g a else 0 := by
    intro g
    rw [← Finset.sum_filter]
    exact (Finset.sum_subtype (Finset.univ.filter fun a : R × R => a.1 ≤ a.2) (fun x => by simp) g).symm
  rw [hl (fun a => f a.1 a.2 + if a.1 = a.2 then 0 else f a.2 a.1)]
  have hs : ∑ a : R × R, (if a.1 ≤ a.2 then (if a.1 = a.2 then 0 else f a.2 a.1) else 0) =
      ∑ a : R × R, (if a.2 < a.1 then f a.1 a.2 else 0) := by
    rw [← Equiv.sum_comp (Equiv.prodComm R R)]
    refine Finset.sum_congr rfl fun a _ => ?_
    obtain ⟨a, b⟩ := a
    show (if b ≤ a then (if b = a then 0 else f a b) else 0) = if b < a then f a b else 0
    rcases lt_trichotomy a b with h | h | h
    · rw [if_neg (not_le.2 h), if_neg (not_lt.2 h.le)]
    · subst h; simp
    · rw [if_pos h.le, if_neg h.ne, if_pos h]
  have hsplit : ∀ a : R × R, (if a.1 ≤ a.2 then (f a.1 a.2 + if a.1 = a.2 then 0 else f a.2 a.1) else 0) =
      (if a.1 ≤ a.2 then f a.1 a.2 else 0) + (if a.1 ≤ a.2 then (if a.1 = a.2 then 0 else f a.2 a.1) else 0) := by
    intro a; split_ifs <;> simp
  simp only [hsplit]
  rw [Finset.sum_add_distrib, hs, ← Finset.sum_add_distrib, ← Fintype.sum_prod_type']
  refine Finset.sum_congr rfl fun a _ => ?_
  by_cases h : a.1 ≤ a.2
  · rw [if_pos h, if_neg (not_lt.2 h), add_zero]
  · rw [if_neg h, if_pos (not_le.1 h), zero_add]

/-- The variances' block. -/
theorem vSS_quad (m : ℕ) (G dS : Matrix R R ℝ) (hG : Gᵀ = G) (hd : dSᵀ = dS) :
    (fun p : UPair R => dS p.1.1 p.1.2) ⬝ᵥ (vSS m G *ᵥ fun p => dS p.1.1 p.1.2) =
      m / 2 * (G * dS * (G * dS)).trace := by
  have hg : ∀ i j, G i j = G j i := fun i j => congrFun (congrFun hG j) i
  have hs : ∀ i j, dS i j = dS j i := fun i j => congrFun (congrFun hd j) i
  have htr : (G * dS * (G * dS)).trace = ∑ b, ∑ c, ∑ d, ∑ a, G a b * dS b c * (G c d * dS d a) := by
    have h1 : (G * dS * (G * dS)).trace = ∑ a, ∑ c, (∑ b, G a b * dS b c) * ∑ d, G c d * dS d a := by
      simp only [Matrix.trace, Matrix.diag_apply, Matrix.mul_apply]
    rw [h1]
    have h2 : ∀ a, ∑ c, (∑ b, G a b * dS b c) * ∑ d, G c d * dS d a = ∑ b, ∑ c, ∑ d, G a b * dS b c * (G c d * dS d a) := by
      intro a
      rw [Finset.sum_comm]
      refine Finset.sum_congr rfl fun c _ => ?_
      rw [Finset.sum_mul]
      refine Finset.sum_congr rfl fun b _ => ?_
      rw [Finset.mul_sum]
    simp only [h2]
    rw [Finset.sum_comm]
    refine Finset.sum_congr rfl fun b _ => ?_
    rw [Finset.sum_comm]
    refine Finset.sum_congr rfl fun c _ => ?_
    rw [Finset.sum_comm]
  rw [htr, sum_upair, dotProduct, Finset.mul_sum]
  refine Finset.sum_congr rfl fun p _ => ?_
  rw [sum_upair, sum_upair, mulVec, dotProduct, Finset.mul_sum]
  have hdist : ∀ (c : Prop) [Decidable c] (g : UPair R → ℝ), (if c then 0 else ∑ q, g q) = ∑ q, if c then 0 else g q := by
    intro c _ g; split_ifs <;> simp
  rw [hdist, ← Finset.sum_add_distrib, Finset.mul_sum]
  refine Finset.sum_congr rfl fun q _ => ?_
  obtain ⟨⟨i, j⟩, hij⟩ := p
  obtain ⟨⟨h, k⟩, hhk⟩ := q
  simp only [vSS, of_apply]
  by_cases e1 : i = j
  · subst e1
    by_cases e2 : h = k
    · subst e2
      simp only [if_true]
      rw [hg h i]; ring
    · simp only [if_true, if_neg e2]
      rw [hg k i, hg h i, hs k h]; ring
  · by_cases e2 : h = k
    · subst e2
      simp only [if_true, if_neg e1]
      rw [hg h i, hg h j, hs j i]; ring
    · simp only [if_neg e1, if_neg e2]
      rw [hg h i, hg h j, hg k i, hg k j, hs j i, hs k h]; ring

/-- The mixed block. -/
theorem vLS_quad {n : Type} [Fintype n] [DecidableEq n] (W : Matrix n n ℝ) (lam : R → ℝ) (G dS : Matrix R R ℝ) (hd : dSᵀ = dS) (r : R) :
    (vLS W lam G *ᵥ fun p => dS p.1.1 p.1.2) r = (dMat W (lam r)).trace * (G * dS) r r := by
  have hs : ∀ i j, dS i j = dS j i := fun i j => congrFun (congrFun hd j) i
  have h := sum_upair fun b c => if b = r then G r c * dS c r else 0
  have h1 : ∑ b, ∑ c, (if b = r then G r c * dS c r else 0) = (G * dS) r r := by
    rw [Finset.sum_eq_single r]
    · simp [Matrix.mul_apply]
    · intro b _ hb; simp [hb]
    · simp
  rw [h1] at h
  rw [h, mulVec, dotProduct, Finset.mul_sum]
  refine Finset.sum_congr rfl fun p _ => ?_
  obtain ⟨⟨i, j⟩, hij⟩ := p
  simp only [vLS, of_apply]
  by_cases e1 : i = r
  · subst e1
    by_cases e2 : i = j
    · subst e2; simp; ring
    · simp only [if_true, if_neg e2, if_neg (Ne.symm e2)]
      rw [hs i j]; ring
  · simp only [if_neg e1]
    by_cases e2 : j = r
    · subst e2
      simp only [if_true, if_neg e1]; ring
    · simp [if_neg e2]

end Sums

section Info
variable {n R : Type} [Fintype n] [DecidableEq n] [Fintype R] [DecidableEq R]

theorem bd_path {A : R → ℝ → Matrix n n ℝ} {A' : R → Matrix n n ℝ} (h : ∀ r, MD2 (A r) (A' r)) :
    MD2 (fun t => bd fun r => A r t) (bd A') := by
  choose a a2 h1 h2 h3 using h
  refine ⟨fun t => bd fun r => a r t, bd a2, ?_, ?_, ?_⟩
  · filter_upwards [Filter.eventually_all.2 h1] with t ht p q
    by_cases e : p.1 = q.1
    · simpa [bd, e] using ht q.1 p.2 q.2
    · simpa [bd, e] using hasDerivAt_const t (0 : ℝ)
  · intro p q
    by_cases e : p.1 = q.1
    · simpa [bd, e] using h2 q.1 p.2 q.2
    · simpa [bd, e] using hasDerivAt_const (0 : ℝ) (0 : ℝ)
  · dsimp only; congr 1; funext r; exact h3 r

theorem omega_bd (S : Matrix R R ℝ) (A : R → Matrix n n ℝ) (a b : R × n) : (omega n S * bd A) a b = S a.1 b.1 * A b.1 a.2 b.2 := by
  rw [Matrix.mul_apply, Fintype.sum_prod_type, Finset.sum_eq_single b.1]
  · simp [omega, bd, Matrix.one_apply]
  · intro t _ ht
    refine Finset.sum_eq_zero fun j _ => ?_
    simp [bd, ht]
  · simp

theorem trace_omega_bd (S : Matrix R R ℝ) (A : R → Matrix n n ℝ) : (omega n S * bd A).trace = ∑ r, S r r * (A r).trace := by
  simp only [Matrix.trace, Matrix.diag_apply, omega_bd, Fintype.sum_prod_type, Finset.mul_sum]

theorem trace_omega_bd2 (S T : Matrix R R ℝ) (A B : R → Matrix n n ℝ) :
    (omega n S * bd A * (omega n T * bd B)).trace = ∑ r, ∑ s, S r s * T s r * (A s * B r).trace := by
  simp only [Matrix.trace, Matrix.diag_apply, Matrix.mul_apply (M := omega n S * bd A), omega_bd, Fintype.sum_prod_type]
  refine Finset.sum_congr rfl fun r _ => ?_
  rw [Finset.sum_comm]
  refine Finset.sum_congr rfl fun s _ => ?_
  rw [Finset.mul_sum]
  refine Finset.sum_congr rfl fun i _ => ?_
  rw [Matrix.mul_apply, Finset.mul_sum]
  exact Finset.sum_congr rfl fun j _ => by ring

theorem omega_mul (S T : Matrix R R ℝ) : omega n S * omega n T = omega n (S * T) := by
  unfold omega; rw [← Matrix.mul_kronecker_mul, Matrix.one_mul]

theorem trace_omega (S : Matrix R R ℝ) : (omega n S).trace = Fintype.card n * S.trace := by
  unfold omega; rw [trace_kronecker, trace_one, mul_comm]

/-- Derivative of the covariance matrix of the errors. -/
theorem surErrCov_path (W : Matrix n n ℝ) (lam dl : R → ℝ) (S dS : Matrix R R ℝ) (hA : ∀ r, IsUnit (1 - lam r • W).det) :
    MD2 (fun t => surErrCov W (lam + t • dl) (S + t • dS))
      (bd (fun r => (filtA W lam r)⁻¹) * (bd (fun r => dl r • dMat W (lam r)) * omega n S + omega n dS +
        omega n S * (bd fun r => dl r • dMat W (lam r))ᵀ) * (bd fun r => (filtA W lam r)⁻¹)ᵀ) := by
  have hF : MD2 (fun t => bd fun r => (filtA W (lam + t • dl) r)⁻¹) (bd fun r => dl r • ((filtA W lam r)⁻¹ * W * (filtA W lam r)⁻¹)) := by
    refine bd_path fun r => ?_
    simpa [filtA] using ML.filt_inv_line W (lam r) (dl r) (hA r)
  have hO : MD2 (fun t : ℝ => omega n (S + t • dS)) (omega n dS) := by
    have : (fun t : ℝ => omega n (S + t • dS)) = fun t => omega n S + t • omega n dS := by
      funext t; unfold omega; rw [add_kronecker, smul_kronecker]
    rw [this]; exact MD2.line _ _
  have h := (hF.mul hO).mul hF.transpose
  have e : (fun t : ℝ => surErrCov W (lam + t • dl) (S + t • dS)) = fun t => (bd fun r => (filtA W (lam + t • dl) r)⁻¹) * omega n (S + t • dS) *
      (bd fun r => (filtA W (lam + t • dl) r)⁻¹)ᵀ := by funext t; exact surErrCov_eq _ _ _
  rw [e]
  refine h.congr ?_
  simp only [zero_smul, add_zero]
  have e2 : (bd fun r => dl r • ((filtA W lam r)⁻¹ * W * (filtA W lam r)⁻¹)) =
      bd (fun r => (filtA W lam r)⁻¹) * bd fun r => dl r • dMat W (lam r) := by
    rw [bd_mul]; congr 1; funext r
    rw [Matrix.mul_smul, Matrix.mul_assoc]; rfl
  rw [e2, transpose_mul]
  simp only [Matrix.mul_add, Matrix.add_mul, Matrix.mul_assoc]

/-- Trace term of the information. -/
theorem surErrCov_info (W : Matrix n n ℝ) (lam dl : R → ℝ) (S dS : Matrix R R ℝ) (hS : IsUnit S.det) (hSs : Sᵀ = S) (hd : dSᵀ = dS)
    (M : Matrix (R × n) (R × n) ℝ)
    (hM : M = bd (fun r => dl r • dMat W (lam r)) * omega n S + omega n dS + omega n S * (bd fun r => dl r • dMat W (lam r))ᵀ) :
    1 / 2 * ((omega n S)⁻¹ * M * ((omega n S)⁻¹ * M)).trace =
      (∑ r, dl r ^ 2 * (dMat W (lam r) * dMat W (lam r)).trace) +
      (∑ r, ∑ s, dl r * dl s * (S⁻¹ r s * S r s * ((dMat W (lam r))ᵀ * dMat W (lam s)).trace)) +
      2 * (∑ r, dl r * ((dMat W (lam r)).trace * (S⁻¹ * dS) r r)) +
      Fintype.card n / 2 * (S⁻¹ * dS * (S⁻¹ * dS)).trace := by
  set D := fun r => dMat W (lam r)
  set Δ := bd fun r => dl r • D r with hΔ
  have hi : (omega n S)⁻¹ = omega n S⁻¹ := omega_inv S
  have o1 : omega n S⁻¹ * omega n S = 1 := by rw [omega_mul, nonsing_inv_mul _ hS]; unfold omega; exact one_kronecker_one
  have o2 : omega n S * omega n S⁻¹ = 1 := by rw [omega_mul, mul_nonsing_inv _ hS]; unfold omega; exact one_kronecker_one
  have hSi : (S⁻¹)ᵀ = S⁻¹ := by rw [transpose_nonsing_inv, hSs]
  have e1 : (omega n S)⁻¹ * M = omega n S⁻¹ * Δ * omega n S + omega n (S⁻¹ * dS) + Δᵀ := by
    rw [hi, hM, Matrix.mul_add, Matrix.mul_add, ← Matrix.mul_assoc, ← Matrix.mul_assoc, o1, Matrix.one_mul, omega_mul]
  rw [e1]
  set U := omega n S⁻¹ * Δ * omega n S with hU
  set V := omega n (S⁻¹ * dS) with hV
  have hsq : ((U + V + Δᵀ) * (U + V + Δᵀ)).trace = (U * U).trace + (V * V).trace + (Δᵀ * Δᵀ).trace + 2 * (U * V).trace +
      2 * (U * Δᵀ).trace + 2 * (V * Δᵀ).trace := by
    simp only [Matrix.mul_add, Matrix.add_mul, trace_add]
    rw [trace_mul_comm V U, trace_mul_comm Δᵀ U, trace_mul_comm Δᵀ V]; ring
  have tΔ : (Δ * Δ).trace = ∑ r, dl r ^ 2 * (D r * D r).trace := by
    have h1 : Δ = omega n 1 * Δ := by unfold omega; rw [one_kronecker_one, Matrix.one_mul]
    have h2 : Δ * Δ = omega n 1 * bd fun r => (dl r • D r) * (dl r • D r) := by
      rw [hΔ, bd_mul]; unfold omega; rw [one_kronecker_one, Matrix.one_mul]
    rw [h2, trace_omega_bd]
    refine Finset.sum_congr rfl fun r _ => ?_
    rw [one_apply_eq, one_mul, Matrix.smul_mul, Matrix.mul_smul, trace_smul, trace_smul, smul_eq_mul, smul_eq_mul]; ring
  have tU : (U * U).trace = (Δ * Δ).trace := by
    calc (U * U).trace = (omega n S⁻¹ * Δ * (omega n S * omega n S⁻¹) * Δ * omega n S).trace := by
          rw [hU]; simp only [Matrix.mul_assoc]
      _ = (omega n S⁻¹ * (Δ * Δ) * omega n S).trace := by rw [o2, Matrix.mul_one]; simp only [Matrix.mul_assoc]
      _ = (Δ * Δ).trace := by rw [trace_mul_comm, ← Matrix.mul_assoc, o2, Matrix.one_mul]
  have tT : (Δᵀ * Δᵀ).trace = (Δ * Δ).trace := by rw [← transpose_mul, trace_transpose]
  have tV : (V * V).trace = Fintype.card n * (S⁻¹ * dS * (S⁻¹ * dS)).trace := by rw [hV, omega_mul, trace_omega]
  have tVT : (V * Δᵀ).trace = ∑ r, dl r * ((D r).trace * (S⁻¹ * dS) r r) := by
    rw [hΔ, bd_transpose, hV, trace_omega_bd]
    refine Finset.sum_congr rfl fun r _ => ?_
    rw [trace_transpose, trace_smul, smul_eq_mul]; ring
  have tUV : (U * V).trace = ∑ r, dl r * ((D r).trace * (S⁻¹ * dS) r r) := by
    have h1 : (U * V).trace = (omega n (dS * S⁻¹) * Δ).trace := by
      calc (U * V).trace = (omega n S⁻¹ * Δ * omega n (S * (S⁻¹ * dS))).trace := by
            rw [hU, hV, Matrix.mul_assoc, omega_mul]
        _ = (omega n dS * (omega n S⁻¹ * Δ)).trace := by
            rw [← Matrix.mul_assoc S, mul_nonsing_inv _ hS, Matrix.one_mul, trace_mul_comm]
        _ = _ := by rw [← Matrix.mul_assoc, omega_mul]
    rw [h1, hΔ, trace_omega_bd]
    refine Finset.sum_congr rfl fun r _ => ?_
    have h2 : (dS * S⁻¹) r r = (S⁻¹ * dS) r r := by
      rw [← transpose_apply (dS * S⁻¹), transpose_mul, hSi, hd]
    rw [h2, trace_smul, smul_eq_mul]; ring
  have tUT : (U * Δᵀ).trace = ∑ r, ∑ s, dl r * dl s * (S⁻¹ r s * S r s * ((D r)ᵀ * D s).trace) := by
    rw [hU, Matrix.mul_assoc, hΔ, bd_transpose, trace_omega_bd2]
    refine Finset.sum_congr rfl fun r _ => Finset.sum_congr rfl fun s _ => ?_
    have h2 : S s r = S r s := congrFun (congrFun hSs r) s
    rw [h2, transpose_smul, Matrix.smul_mul, Matrix.mul_smul, trace_smul, trace_smul, smul_eq_mul, smul_eq_mul, trace_mul_comm]; ring
  rw [hsq, tU, tT, tV, tUV, tUT, tVT, tΔ]
  ring

end Info

section C123
variable {n R : Type} [Fintype n] [DecidableEq n] [Fintype R] [LinearOrder R] {K : R → Type} [∀ r, Fintype (K r)]
  [∀ r, DecidableEq (K r)]

theorem surErrInfo_quad (W : Matrix n n ℝ) (lam dl : R → ℝ) (S dS : Matrix R R ℝ) (hSs : Sᵀ = S) (hd : dSᵀ = dS) :
    (Sum.elim dl fun p : UPair R => dS p.1.1 p.1.2) ⬝ᵥ
        (surErrInfo W lam S S⁻¹ *ᵥ Sum.elim dl fun p : UPair R => dS p.1.1 p.1.2) =
      (∑ r, dl r ^ 2 * (dMat W (lam r) * dMat W (lam r)).trace) +
      (∑ r, ∑ s, dl r * dl s * (S⁻¹ r s * S r s * ((dMat W (lam r))ᵀ * dMat W (lam s)).trace)) +
      2 * (∑ r, dl r * ((dMat W (lam r)).trace * (S⁻¹ * dS) r r)) +
      Fintype.card n / 2 * (S⁻¹ * dS * (S⁻¹ * dS)).trace := by
  have hSi : (S⁻¹)ᵀ = S⁻¹ := by rw [transpose_nonsing_inv, hSs]
  unfold surErrInfo
  rw [fromBlocks_mulVec, sumElim_dotProduct_sumElim, dotProduct_add, dotProduct_add]
  simp only [Sum.elim_comp_inl, Sum.elim_comp_inr]
  rw [vSS_quad _ _ _ hSi hd]
  have h1 : dl ⬝ᵥ (vLS W lam S⁻¹ *ᵥ fun p : UPair R => dS p.1.1 p.1.2) = ∑ r, dl r * ((dMat W (lam r)).trace * (S⁻¹ * dS) r r) := by
    rw [dotProduct]
    refine Finset.sum_congr rfl fun r _ => ?_
    rw [vLS_quad _ _ _ _ hd]
  have h2 : (fun p : UPair R => dS p.1.1 p.1.2) ⬝ᵥ ((vLS W lam S⁻¹)ᵀ *ᵥ dl) = dl ⬝ᵥ (vLS W lam S⁻¹ *ᵥ fun p : UPair R => dS p.1.1 p.1.2) := by
    rw [mulVec_transpose, dotProduct_comm, ← dotProduct_mulVec]
  rw [h2, h1]
  have h3 : dl ⬝ᵥ (vLL W lam S S⁻¹ *ᵥ dl) = (∑ r, dl r ^ 2 * (dMat W (lam r) * dMat W (lam r)).trace) +
      (∑ r, ∑ s, dl r * dl s * (S⁻¹ r s * S r s * ((dMat W (lam r))ᵀ * dMat W (lam s)).trace)) := by
    rw [dotProduct, ← Finset.sum_add_distrib]
    refine Finset.sum_congr rfl fun r _ => ?_
    rw [mulVec, dotProduct, Finset.mul_sum]
    have h4 : ∀ s, dl r * (vLL W lam S S⁻¹ r s * dl s) = dl r * ((if r = s then (dMat W (lam r) * dMat W (lam r)).trace else 0) * dl s) +
        dl r * dl s * (S⁻¹ r s * S r s * ((dMat W (lam r))ᵀ * dMat W (lam s)).trace) := by
      intro s
      have h5 : (if r = s then ((dMat W (lam r))ᵀ * dMat W (lam r)).trace
          else if r < s then ((dMat W (lam r))ᵀ * dMat W (lam s)).trace
          else ((dMat W (lam s))ᵀ * dMat W (lam r)).trace) = ((dMat W (lam r))ᵀ * dMat W (lam s)).trace := by
        split_ifs with a b
        · rw [a]
        · rfl
        · rw [← trace_transpose, transpose_mul, transpose_transpose]
      simp only [vLL, of_apply, h5]
      ring
    simp only [h4]
    rw [Finset.sum_add_distrib]
    congr 1
    simp
    ring
  rw [h3]
  ring

/-- C123: for coefficients, spatial parameters and the distinct error variances and covariances of the equations, the Fisher
information of the model is the inverse of the reported covariance matrix of the coefficients (`varb`) and, for the other
parameters, the matrix whose inverse `surerrvm` returns; there are no cross terms. -/
theorem C123_information (W : Matrix n n ℝ) (X : ∀ r, Matrix n (K r) ℝ) (b db : ∀ r, K r → ℝ) (lam dl : R → ℝ) (S dS : Matrix R R ℝ)
    (hA : ∀ r, IsUnit (1 - lam r • W).det) (hS : IsUnit S.det) (hSs : Sᵀ = S) (hd : dSᵀ = dS)
    (P : Dist (surErrCov W (lam + (0 : ℝ) • dl) (S + (0 : ℝ) • dS))) :
    fisherInfo (fun t => bigZ X *ᵥ (stackB b + t • stackB db)) (fun t => surErrCov W (lam + t • dl) (S + t • dS)) P =
      stackB db ⬝ᵥ (((bigZ X)ᵀ * (surErrCov W lam S)⁻¹ * bigZ X) *ᵥ stackB db) +
      (Sum.elim dl fun p : UPair R => dS p.1.1 p.1.2) ⬝ᵥ
        (surErrInfo W lam S S⁻¹ *ᵥ Sum.elim dl fun p : UPair R => dS p.1.1 p.1.2) := by
  have h0 : surErrCov W (lam + (0 : ℝ) • dl) (S + (0 : ℝ) • dS) = surErrCov W lam S := by
    rw [zero_smul, zero_smul, add_zero, add_zero]
  have hm : VD2 (fun t : ℝ => bigZ X *ᵥ (stackB b + t • stackB db)) (bigZ X *ᵥ stackB db) := by
    obtain ⟨m', m'', h1, h2, h3⟩ := VD2.mulVec (MD2.const (bigZ X)) (VD2.line (stackB b) (stackB db))
    exact ⟨m', m'', h1, h2, h3.trans (by simp)⟩
  have hdet : (surErrCov W lam S).det ≠ 0 := by
    rw [surErrCov_det]
    exact div_ne_zero (pow_ne_zero _ hS.ne_zero) (pow_ne_zero _ (Finset.prod_ne_zero_iff.2 fun r _ => (hA r).ne_zero))
  rw [fisher P hm (surErrCov_path W lam dl S dS hA) (by rw [h0]; exact hdet)]
  rw [h0, surErrInfo_quad W lam dl S dS hSs hd, ← surErrCov_info W lam dl S dS hS hSs hd _ rfl]
  congr 1
  · rw [← mulVec_mulVec, ← mulVec_mulVec, dotProduct_mulVec (stackB db), vecMul_transpose]
  · have hu : IsUnit (bd fun r => (filtA W lam r)⁻¹).det := by
      obtain ⟨h1, h2⟩ := bd_inv W lam hA
      exact (isUnit_iff_isUnit_det _).1 (IsUnit.of_mul_eq_one _ h1)
    rw [surErrCov_eq, trace_conj hu]

/-- `tr((G M)^2) >= 0` for positive semidefinite `G` and symmetric `M`. -/
theorem trace_sq_nonneg {ι : Type} [Fintype ι] [DecidableEq ι] {G M : Matrix ι ι ℝ} (hG : G.PosSemidef) (hM : Mᵀ = M) :
    0 ≤ (G * M * (G * M)).trace := by
  open scoped MatrixOrder in
  obtain ⟨C, rfl⟩ := CStarAlgebra.nonneg_iff_eq_star_mul_self.mp hG.nonneg
  rw [star_eq_conjTranspose, conjTranspose_eq_transpose_of_trivial]
  have e : (Cᵀ * C * M * (Cᵀ * C * M)).trace = ((C * M * Cᵀ)ᵀ * (C * M * Cᵀ)).trace := by
    rw [transpose_mul, transpose_mul, transpose_transpose, hM]
    calc (Cᵀ * C * M * (Cᵀ * C * M)).trace = (Cᵀ * (C * M * (Cᵀ * (C * M)))).trace := by simp only [Matrix.mul_assoc]
      _ = (C * M * (Cᵀ * (C * M)) * Cᵀ).trace := trace_mul_comm _ _
      _ = _ := by simp only [Matrix.mul_assoc]
  rw [e, Matrix.trace]
  refine Finset.sum_nonneg fun i _ => ?_
  rw [diag_apply, Matrix.mul_apply]
  exact Finset.sum_nonneg fun j _ => mul_self_nonneg _

theorem surErrInfo_symm (W : Matrix n n ℝ) (lam : R → ℝ) (S : Matrix R R ℝ) (hSs : Sᵀ = S) :
    (surErrInfo W lam S S⁻¹)ᵀ = surErrInfo W lam S S⁻¹ := by
  have hSi : (S⁻¹)ᵀ = S⁻¹ := by rw [transpose_nonsing_inv, hSs]
  have hg : ∀ i j, S⁻¹ i j = S⁻¹ j i := fun i j => congrFun (congrFun hSi j) i
  have hs : ∀ i j, S i j = S j i := fun i j => congrFun (congrFun hSs j) i
  unfold surErrInfo
  rw [fromBlocks_transpose, transpose_transpose]
  congr 1
  · ext i j
    simp only [transpose_apply, vLL, of_apply]
    rw [hg j i, hs j i]
    rcases lt_trichotomy i j with h | h | h
    · rw [if_neg h.ne', if_neg h.ne, if_neg h.ne', if_neg h.ne, if_pos h, if_neg (not_lt.2 h.le)]
    · subst h; rfl
    · rw [if_neg h.ne, if_neg h.ne', if_neg h.ne, if_neg h.ne', if_pos h, if_neg (not_lt.2 h.le)]
  · ext p q
    simp only [transpose_apply, vSS, of_apply]
    congr 1
    split_ifs with a b b
    · rw [a, b, hg q.1.2 p.1.2]
    · rw [a, hg q.1.2 p.1.1, hg q.1.2 p.1.2]
    · rw [b, hg q.1.1 p.1.2, hg q.1.2 p.1.2]
    · rw [hg q.1.1, hg q.1.2, hg q.1.1, hg q.1.2]; ring

/-- The information matrix is positive semidefinite. -/
theorem surErrInfo_psd (W : Matrix n n ℝ) (lam : R → ℝ) (S : Matrix R R ℝ) (hS : S.PosDef) : SymPSD (surErrInfo W lam S S⁻¹) := by
  have hSs : Sᵀ = S := by have := hS.1; rwa [IsHermitian, conjTranspose_eq_transpose_of_trivial] at this
  have hu : IsUnit S.det := isUnit_iff_ne_zero.2 hS.det_pos.ne'
  refine ⟨surErrInfo_symm W lam S hSs, fun v => ?_⟩
  rw [quad_eq]
  set dS : Matrix R R ℝ := Matrix.of fun i j => if h : i ≤ j then v (.inr ⟨(i, j), h⟩) else if h : j ≤ i then v (.inr ⟨(j, i), h⟩) else 0 with hdS
  have hd : dSᵀ = dS := by
    ext i j
    simp only [transpose_apply, hdS, of_apply]
    rcases lt_trichotomy i j with h | h | h
    · rw [dif_neg (not_le.2 h), dif_pos h.le, dif_pos h.le]
    · subst h; rfl
    · rw [dif_pos h.le, dif_neg (not_le.2 h), dif_pos h.le]
  have hv : v = Sum.elim (fun r => v (.inl r)) fun p : UPair R => dS p.1.1 p.1.2 := by
    funext a
    rcases a with r | p
    · rfl
    · simp only [Sum.elim_inr, hdS, of_apply]
      rw [dif_pos p.2]
  rw [hv, surErrInfo_quad W lam _ S dS hSs hd, ← surErrCov_info W lam _ S dS hu hSs hd _ rfl, omega_inv]
  refine mul_nonneg (by norm_num) (trace_sq_nonneg ?_ ?_)
  · unfold omega
    exact hS.inv.posSemidef.kronecker PosSemidef.one
  · rw [transpose_add, transpose_add, transpose_mul, transpose_mul, transpose_transpose, omega_symm hSs, omega_symm hd]
    abel

/-- C123: what `surerrvm` returns is the inverse of that information matrix, symmetric, with variances that are not negative, so
that every reported standard error is the square root of a number that is not negative; the variance of any nonzero combination
of the spatial parameters is positive. -/
theorem C123_vm (W : Matrix n n ℝ) (lam : R → ℝ) (S : Matrix R R ℝ) (hS : S.PosDef) (vm : Matrix (R ⊕ UPair R) (R ⊕ UPair R) ℝ)
    (h : surErrVm W lam S = some vm) :
    vm * surErrInfo W lam S S⁻¹ = 1 ∧ surErrInfo W lam S S⁻¹ * vm = 1 ∧ vmᵀ = vm ∧
    ∀ v, 0 ≤ v ⬝ᵥ (vm *ᵥ v) ∧ (v ⬝ᵥ (vm *ᵥ v) = 0 ↔ v = 0) := by
  unfold surErrVm at h
  rw [Option.bind_eq_some_iff] at h
  obtain ⟨si, hsi, hv⟩ := h
  obtain ⟨-, rfl, -, -⟩ := inv?_eq_some hsi
  obtain ⟨hu, rfl, hr, hl⟩ := inv?_eq_some hv
  have hp := surErrInfo_psd W lam S hS
  refine ⟨hl, hr, ?_, fun v => LM.psd_inv hp hr v⟩
  rw [transpose_nonsing_inv, hp.1]

end C123

end Spreg.SUR
