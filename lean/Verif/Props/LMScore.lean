import Verif.Spec.Score
import Verif.Props.LM
import Mathlib.LinearAlgebra.Matrix.Charpoly.Coeff
import Mathlib.Topology.Instances.Matrix
import Mathlib.Analysis.Calculus.Deriv.Polynomial
import Mathlib.Analysis.Calculus.Deriv.Slope
import Mathlib.Analysis.Calculus.Deriv.Inv
/-
C83: the LM statistics are the score statistics of the Gaussian likelihood.
-/
namespace Spreg.Score
open Matrix Spreg.Lin Spreg.LM

variable {n k q : Type} [Fintype n] [Fintype k] [Fintype q] [DecidableEq n]

/-! ### Derivatives of the log-Jacobian -/

theorem det_deriv0 (B : Matrix n n ℝ) :
    HasDerivAt (fun h : ℝ => ((1 : Matrix n n ℝ) - h • B).det) (-trace B) 0 := by
  have h0 : (fun h : ℝ => ((1 : Matrix n n ℝ) - h • B).det) = fun h : ℝ =>
      1 + trace (-B) * h + (det (1 + (Polynomial.X : Polynomial ℝ) • (-B).map Polynomial.C)).divX.divX.eval h
        * h ^ 2 := by
    funext h
    rw [← det_one_add_smul, smul_neg, ← sub_eq_add_neg]
  rw [h0]
  set p := (det (1 + (Polynomial.X : Polynomial ℝ) • (-B).map Polynomial.C)).divX.divX
  have h1 := (((hasDerivAt_id (0 : ℝ)).const_mul (trace (-B))).const_add 1).add
    ((p.hasDerivAt 0).mul (hasDerivAt_pow 2 (0 : ℝ)))
  refine h1.congr_deriv ?_
  simp [trace_neg]

theorem det_deriv (W : Matrix n n ℝ) (t : ℝ) (ht : ((1 : Matrix n n ℝ) - t • W).det ≠ 0) :
    HasDerivAt (fun h : ℝ => ((1 : Matrix n n ℝ) - h • W).det)
      (-(((1 : Matrix n n ℝ) - t • W).det * trace (((1 : Matrix n n ℝ) - t • W)⁻¹ * W))) t := by
  set A := (1 : Matrix n n ℝ) - t • W with hA
  have hu : IsUnit A.det := isUnit_iff_ne_zero.2 ht
  have h0 : (fun h : ℝ => ((1 : Matrix n n ℝ) - h • W).det)
      = fun h : ℝ => A.det * ((1 : Matrix n n ℝ) - (h - t) • (A⁻¹ * W)).det := by
    funext h
    rw [← det_mul, mul_sub, mul_one, mul_smul_comm, ← Matrix.mul_assoc, mul_nonsing_inv _ hu, Matrix.one_mul]
    congr 1
    rw [hA, sub_smul]; abel
  rw [h0]
  have h1 : HasDerivAt (fun h : ℝ => ((1 : Matrix n n ℝ) - (h - t) • (A⁻¹ * W)).det)
      (-trace (A⁻¹ * W)) t := by
    have := det_deriv0 (A⁻¹ * W)
    rw [show (0 : ℝ) = t - t by ring] at this
    exact HasDerivAt.comp_sub_const t t this
  refine (h1.const_mul A.det).congr_deriv (by ring)

/-- `log |det (I - tW)|` -/
noncomputable def ljac (W : Matrix n n ℝ) (t : ℝ) : ℝ := Real.log |((1 : Matrix n n ℝ) - t • W).det|

/-- Its derivative. -/
noncomputable def ljac' (W : Matrix n n ℝ) (t : ℝ) : ℝ := -trace (((1 : Matrix n n ℝ) - t • W)⁻¹ * W)

theorem ljac_deriv (W : Matrix n n ℝ) (t : ℝ) (ht : ((1 : Matrix n n ℝ) - t • W).det ≠ 0) :
    HasDerivAt (ljac W) (ljac' W t) t := by
  have h := (det_deriv W t ht).log ht
  have e : ljac W = fun h : ℝ => Real.log ((1 : Matrix n n ℝ) - h • W).det := by
    funext h; unfold ljac; rw [Real.log_abs]
  rw [e]
  refine h.congr_deriv ?_
  unfold ljac'
  field_simp

theorem det_cont (W : Matrix n n ℝ) : Continuous fun t : ℝ => ((1 : Matrix n n ℝ) - t • W).det :=
  Continuous.matrix_det (continuous_const.sub (continuous_id.smul continuous_const))

theorem det_near (W : Matrix n n ℝ) : ∀ᶠ t : ℝ in nhds 0, ((1 : Matrix n n ℝ) - t • W).det ≠ 0 := by
  have := (det_cont W).continuousAt (x := 0)
  refine this.eventually_ne ?_
  simp

theorem inv_cont (W : Matrix n n ℝ) :
    ContinuousAt (fun t : ℝ => ((1 : Matrix n n ℝ) - t • W)⁻¹) 0 := by
  have e : (fun t : ℝ => ((1 : Matrix n n ℝ) - t • W)⁻¹)
      = fun t : ℝ => (((1 : Matrix n n ℝ) - t • W).det)⁻¹ • ((1 : Matrix n n ℝ) - t • W).adjugate := by
    funext t; rw [inv_def, Ring.inverse_eq_inv']
  rw [e]
  refine ContinuousAt.smul (((det_cont W).continuousAt).inv₀ (by simp)) ?_
  exact (Continuous.matrix_adjugate (continuous_const.sub (continuous_id.smul continuous_const))).continuousAt

theorem ljac'_deriv (W : Matrix n n ℝ) : HasDerivAt (ljac' W) (-trace (W * W)) 0 := by
  rw [hasDerivAt_iff_tendsto_slope]
  have hc : ContinuousAt (fun t : ℝ => -trace (((1 : Matrix n n ℝ) - t • W)⁻¹ * (W * W))) 0 := by
    have h1 : Continuous fun A : Matrix n n ℝ => -trace (A * (W * W)) :=
      (Continuous.matrix_trace (continuous_id.matrix_mul continuous_const)).neg
    exact h1.continuousAt.comp (inv_cont W)
  have h2 := hc.tendsto
  simp only [zero_smul, sub_zero, inv_one, Matrix.one_mul] at h2
  refine (h2.mono_left nhdsWithin_le_nhds).congr' ?_
  have hn := det_near W
  filter_upwards [nhdsWithin_le_nhds hn, self_mem_nhdsWithin] with t ht ht0
  have hu : IsUnit ((1 : Matrix n n ℝ) - t • W).det := isUnit_iff_ne_zero.2 ht
  have ht0' : t ≠ 0 := ht0
  set A := (1 : Matrix n n ℝ) - t • W with hA
  have e : A⁻¹ * W - W = t • (A⁻¹ * (W * W)) := by
    have : A⁻¹ * (W - A * W) = A⁻¹ * W - W := by
      rw [Matrix.mul_sub, ← Matrix.mul_assoc, nonsing_inv_mul _ hu, Matrix.one_mul]
    rw [← this, hA, Matrix.sub_mul, Matrix.one_mul, sub_sub_cancel, Matrix.smul_mul, Matrix.mul_smul]
  rw [slope_def_field]
  unfold ljac'
  rw [← hA, zero_smul, sub_zero, inv_one, Matrix.one_mul, sub_zero]
  have e2 : trace (A⁻¹ * W) - trace W = t * trace (A⁻¹ * (W * W)) := by
    rw [← trace_sub, e, trace_smul, smul_eq_mul]
  field_simp
  linarith

/-! ### The log-likelihood along a direction -/

/-- Sum of squares along the path as a polynomial. -/
theorem ssq_path (u m w p : n → ℝ) (t : ℝ) :
    ∑ i, (u i - t * (m i + w i) + t ^ 2 * p i) ^ 2
      = u ⬝ᵥ u + (-2 * (u ⬝ᵥ (m + w))) * t + ((m + w) ⬝ᵥ (m + w) + 2 * (u ⬝ᵥ p)) * t ^ 2
        + (-2 * ((m + w) ⬝ᵥ p)) * t ^ 3 + (p ⬝ᵥ p) * t ^ 4 := by
  simp only [dotProduct, Pi.add_apply, Finset.mul_sum, Finset.sum_mul, ← Finset.sum_add_distrib]
  refine Finset.sum_congr rfl fun i _ => ?_
  ring

/-- The direction of the residual along a path. -/
def mdir (x : Matrix n k ℝ) (z : Matrix n q ℝ) (W : Matrix n n ℝ) (y : n → ℝ) (v : Dir k q) : n → ℝ :=
  v.c • (W *ᵥ y) + x *ᵥ v.a + z *ᵥ v.g

theorem along_eq (x : Matrix n k ℝ) (z : Matrix n q ℝ) (W : Matrix n n ℝ) (y : n → ℝ)
    (beta : k → ℝ) (s2 : ℝ) (v : Dir k q) (t : ℝ) :
    let u := y - x *ᵥ beta
    let m := mdir x z W y v
    let w := v.d • (W *ᵥ u)
    let p := v.d • (W *ᵥ m)
    along x z W y beta s2 v t
      = -((Fintype.card n : ℝ) / 2) * Real.log (2 * Real.pi * (s2 + t * v.e)) + ljac W (t * v.c)
        + ljac W (t * v.d)
        - (u ⬝ᵥ u + (-2 * (u ⬝ᵥ (m + w))) * t + ((m + w) ⬝ᵥ (m + w) + 2 * (u ⬝ᵥ p)) * t ^ 2
        + (-2 * ((m + w) ⬝ᵥ p)) * t ^ 3 + (p ⬝ᵥ p) * t ^ 4) / (2 * (s2 + t * v.e)) := by
  intro u m w p
  rw [← ssq_path]
  unfold along loglik ljac
  congr 2
  refine Finset.sum_congr rfl fun i _ => ?_
  congr 1
  have e1 : ((1 : Matrix n n ℝ) - (t * v.c) • W) *ᵥ y - x *ᵥ (beta + t • v.a) - z *ᵥ (t • v.g) = u - t • m := by
    simp only [u, m, mdir, sub_mulVec, one_mulVec, smul_mulVec, mulVec_add, mulVec_smul, smul_add, smul_smul]
    abel
  rw [e1]
  simp only [sub_mulVec, one_mulVec, smul_mulVec, mulVec_sub, mulVec_smul, w, p, Pi.sub_apply, Pi.smul_apply,
    smul_eq_mul]
  ring

/-- First derivative, near the null. -/
theorem path_deriv (W : Matrix n n ℝ) (c d e s2 q0 q1 q2 q3 q4 N t : ℝ) (hs : s2 + t * e ≠ 0)
    (hc : ((1 : Matrix n n ℝ) - (t * c) • W).det ≠ 0) (hd : ((1 : Matrix n n ℝ) - (t * d) • W).det ≠ 0) :
    HasDerivAt (fun t => -N * Real.log (2 * Real.pi * (s2 + t * e)) + ljac W (t * c) + ljac W (t * d)
        - (q0 + q1 * t + q2 * t ^ 2 + q3 * t ^ 3 + q4 * t ^ 4) / (2 * (s2 + t * e)))
      (-N * (e / (s2 + t * e)) + c * ljac' W (t * c) + d * ljac' W (t * d)
        - ((q1 + 2 * q2 * t + 3 * q3 * t ^ 2 + 4 * q4 * t ^ 3) * (s2 + t * e)
          - (q0 + q1 * t + q2 * t ^ 2 + q3 * t ^ 3 + q4 * t ^ 4) * e) / (2 * (s2 + t * e) ^ 2)) t := by
  have hlin : HasDerivAt (fun t : ℝ => s2 + t * e) e t := by
    simpa using ((hasDerivAt_id t).mul_const e).const_add s2
  have h1 : HasDerivAt (fun t : ℝ => Real.log (2 * Real.pi * (s2 + t * e))) (e / (s2 + t * e)) t := by
    have := (hlin.const_mul (2 * Real.pi)).log (mul_ne_zero (by positivity) hs)
    refine this.congr_deriv ?_
    rw [mul_div_mul_left _ _ (by positivity)]
  have h2 : ∀ c : ℝ, ((1 : Matrix n n ℝ) - (t * c) • W).det ≠ 0 →
      HasDerivAt (fun t : ℝ => ljac W (t * c)) (c * ljac' W (t * c)) t := by
    intro c hc
    have hl : HasDerivAt (fun t : ℝ => t * c) c t := by simpa using (hasDerivAt_id t).mul_const c
    have := HasDerivAt.comp t (ljac_deriv W (t * c) hc) hl
    exact this.congr_deriv (mul_comm _ _)
  have h3 : HasDerivAt (fun t : ℝ => q0 + q1 * t + q2 * t ^ 2 + q3 * t ^ 3 + q4 * t ^ 4)
      (q1 + 2 * q2 * t + 3 * q3 * t ^ 2 + 4 * q4 * t ^ 3) t := by
    have := ((((hasDerivAt_id t).const_mul q1).const_add q0).add ((hasDerivAt_pow 2 t).const_mul q2)).add
      ((hasDerivAt_pow 3 t).const_mul q3) |>.add ((hasDerivAt_pow 4 t).const_mul q4)
    refine (this.congr_deriv ?_)
    push_cast; ring
  have h4 := h3.div (hlin.const_mul 2) (mul_ne_zero two_ne_zero hs)
  have := (((h1.const_mul (-N)).add (h2 c hc)).add (h2 d hd)).sub h4
  refine this.congr_deriv ?_
  field_simp

/-- Second derivative at the null. -/
theorem path_deriv2 (W : Matrix n n ℝ) (c d e s2 q0 q1 q2 q3 q4 N : ℝ) (hs : s2 ≠ 0) :
    deriv (deriv (fun t => -N * Real.log (2 * Real.pi * (s2 + t * e)) + ljac W (t * c) + ljac W (t * d)
        - (q0 + q1 * t + q2 * t ^ 2 + q3 * t ^ 3 + q4 * t ^ 4) / (2 * (s2 + t * e)))) 0
      = N * (e ^ 2 / s2 ^ 2) - (c ^ 2 + d ^ 2) * trace (W * W)
        - (q2 / s2 - q1 * e / s2 ^ 2 + q0 * e ^ 2 / s2 ^ 3) := by
  have hlin0 : ∀ t : ℝ, HasDerivAt (fun t : ℝ => s2 + t * e) e t := fun t => by
    simpa using ((hasDerivAt_id t).mul_const e).const_add s2
  have hev : ∀ᶠ t : ℝ in nhds 0, s2 + t * e ≠ 0 ∧ ((1 : Matrix n n ℝ) - (t * c) • W).det ≠ 0 ∧
      ((1 : Matrix n n ℝ) - (t * d) • W).det ≠ 0 := by
    have k1 : ∀ᶠ t : ℝ in nhds 0, s2 + t * e ≠ 0 :=
      (hlin0 0).continuousAt.eventually_ne (by simpa using hs)
    have k2 : ∀ c : ℝ, ∀ᶠ t : ℝ in nhds 0, ((1 : Matrix n n ℝ) - (t * c) • W).det ≠ 0 := by
      intro c
      have : Filter.Tendsto (fun t : ℝ => t * c) (nhds 0) (nhds 0) := by
        have := (continuous_mul_const c).tendsto (0 : ℝ)
        simpa using this
      exact this.eventually (det_near W)
    exact k1.and ((k2 c).and (k2 d))
  have hd : deriv (fun t => -N * Real.log (2 * Real.pi * (s2 + t * e)) + ljac W (t * c) + ljac W (t * d)
        - (q0 + q1 * t + q2 * t ^ 2 + q3 * t ^ 3 + q4 * t ^ 4) / (2 * (s2 + t * e)))
      =ᶠ[nhds 0] fun t => -N * (e / (s2 + t * e)) + c * ljac' W (t * c) + d * ljac' W (t * d)
        - ((q1 + 2 * q2 * t + 3 * q3 * t ^ 2 + 4 * q4 * t ^ 3) * (s2 + t * e)
          - (q0 + q1 * t + q2 * t ^ 2 + q3 * t ^ 3 + q4 * t ^ 4) * e) / (2 * (s2 + t * e) ^ 2) := by
    filter_upwards [hev] with t ht
    exact (path_deriv W c d e s2 q0 q1 q2 q3 q4 N t ht.1 ht.2.1 ht.2.2).deriv
  rw [hd.deriv_eq]
  have hlin := hlin0 0
  have hs0 : s2 + 0 * e ≠ 0 := by simpa using hs
  have h1 : HasDerivAt (fun t : ℝ => e / (s2 + t * e)) (-(e ^ 2 / s2 ^ 2)) 0 := by
    have := (hasDerivAt_const (0 : ℝ) e).div hlin hs0
    refine this.congr_deriv ?_
    simp only [zero_mul, add_zero, zero_sub]
    rw [neg_div, pow_two e]
  have h2 : ∀ c : ℝ, HasDerivAt (fun t : ℝ => c * ljac' W (t * c)) (-(c ^ 2 * trace (W * W))) 0 := by
    intro c
    have hl : HasDerivAt (fun t : ℝ => t * c) c 0 := by simpa using (hasDerivAt_id (0 : ℝ)).mul_const c
    have h0 : HasDerivAt (ljac' W) (-trace (W * W)) (0 * c) := by rw [zero_mul]; exact ljac'_deriv W
    have := (HasDerivAt.comp (0 : ℝ) h0 hl).const_mul c
    refine this.congr_deriv (by ring)
  have h3 : HasDerivAt (fun t : ℝ => q0 + q1 * t + q2 * t ^ 2 + q3 * t ^ 3 + q4 * t ^ 4) q1 0 := by
    have := ((((hasDerivAt_id (0 : ℝ)).const_mul q1).const_add q0).add
      ((hasDerivAt_pow 2 (0 : ℝ)).const_mul q2)).add
      ((hasDerivAt_pow 3 (0 : ℝ)).const_mul q3) |>.add ((hasDerivAt_pow 4 (0 : ℝ)).const_mul q4)
    refine (this.congr_deriv ?_)
    simp
  have h3' : HasDerivAt (fun t : ℝ => q1 + 2 * q2 * t + 3 * q3 * t ^ 2 + 4 * q4 * t ^ 3) (2 * q2) 0 := by
    have := (((hasDerivAt_id (0 : ℝ)).const_mul (2 * q2)).const_add q1).add
      ((hasDerivAt_pow 2 (0 : ℝ)).const_mul (3 * q3)) |>.add ((hasDerivAt_pow 3 (0 : ℝ)).const_mul (4 * q4))
    refine (this.congr_deriv ?_)
    simp
  have h4 := ((h3'.mul hlin).sub (h3.mul_const e)).div ((hlin.pow 2).const_mul 2)
    (mul_ne_zero two_ne_zero (pow_ne_zero 2 hs0))
  have := (((h1.const_mul (-N)).add (h2 c)).add (h2 d)).sub h4
  refine (this.congr_deriv ?_).deriv
  simp only [zero_mul, add_zero, mul_zero, Pi.mul_apply, Pi.pow_apply, Pi.sub_apply, ne_eq, OfNat.ofNat_ne_zero,
    not_false_eq_true, zero_pow, Nat.add_one_sub_one, pow_one]
  field_simp
  push_cast
  ring

/-! ### Score and information in closed form -/

theorem score_eq (x : Matrix n k ℝ) (z : Matrix n q ℝ) (W : Matrix n n ℝ) (y : n → ℝ)
    (beta : k → ℝ) (s2 : ℝ) (hs : s2 ≠ 0) (v : Dir k q) :
    score x z W y beta s2 v =
      (y - x *ᵥ beta) ⬝ᵥ (mdir x z W y v + v.d • (W *ᵥ (y - x *ᵥ beta))) / s2 - (v.c + v.d) * trace W
        + ((y - x *ᵥ beta) ⬝ᵥ (y - x *ᵥ beta) / (2 * s2 ^ 2) - (Fintype.card n : ℝ) / (2 * s2)) * v.e := by
  have h0 := funext (along_eq x z W y beta s2 v)
  unfold score
  rw [h0]
  have := (path_deriv W v.c v.d v.e s2 ((y - x *ᵥ beta) ⬝ᵥ (y - x *ᵥ beta))
    (-2 * ((y - x *ᵥ beta) ⬝ᵥ (mdir x z W y v + v.d • (W *ᵥ (y - x *ᵥ beta)))))
    ((mdir x z W y v + v.d • (W *ᵥ (y - x *ᵥ beta))) ⬝ᵥ (mdir x z W y v + v.d • (W *ᵥ (y - x *ᵥ beta)))
      + 2 * ((y - x *ᵥ beta) ⬝ᵥ (v.d • (W *ᵥ mdir x z W y v))))
    (-2 * ((mdir x z W y v + v.d • (W *ᵥ (y - x *ᵥ beta))) ⬝ᵥ (v.d • (W *ᵥ mdir x z W y v))))
    ((v.d • (W *ᵥ mdir x z W y v)) ⬝ᵥ (v.d • (W *ᵥ mdir x z W y v))) ((Fintype.card n : ℝ) / 2) 0
    (by simpa using hs) (by simp) (by simp)).deriv
  refine this.trans ?_
  simp only [zero_mul, add_zero, ljac', zero_smul, sub_zero, inv_one, Matrix.one_mul, mul_zero, ne_eq,
    OfNat.ofNat_ne_zero, not_false_eq_true, zero_pow]
  field_simp
  ring

namespace Errors
variable {s2 : ℝ}

/-- Expectation of a polynomial of degree two in the errors. -/
theorem expect (P : Errors n s2) (a0 : ℝ) (L : n → ℝ) (Q : Matrix n n ℝ) :
    ∑ w, P.p w * (a0 + L ⬝ᵥ P.eps w + P.eps w ⬝ᵥ (Q *ᵥ P.eps w)) = a0 + s2 * trace Q := by
  have h1 : ∑ w, P.p w * (L ⬝ᵥ P.eps w) = 0 := by
    simp only [dotProduct, Finset.mul_sum]
    rw [Finset.sum_comm]
    refine Finset.sum_eq_zero fun i _ => ?_
    have := P.mean i
    calc ∑ w, P.p w * (L i * P.eps w i) = L i * ∑ w, P.p w * P.eps w i := by
          rw [Finset.mul_sum]; exact Finset.sum_congr rfl fun w _ => by ring
      _ = 0 := by rw [this, mul_zero]
  have h2 : ∑ w, P.p w * (P.eps w ⬝ᵥ (Q *ᵥ P.eps w)) = s2 * trace Q := by
    simp only [dotProduct, mulVec, Finset.mul_sum]
    rw [Finset.sum_comm]
    simp only [trace, diag, Finset.mul_sum]
    refine Finset.sum_congr rfl fun i _ => ?_
    rw [Finset.sum_comm]
    have : ∀ j, ∑ w, P.p w * (P.eps w i * (Q i j * P.eps w j)) = Q i j * if i = j then s2 else 0 := by
      intro j
      rw [← P.cov i j, Finset.mul_sum]
      exact Finset.sum_congr rfl fun w _ => by ring
    simp only [this]
    simp [mul_comm]
  simp only [mul_add, Finset.sum_add_distrib, h1, h2, ← Finset.sum_mul, P.total, one_mul, add_zero]

/-- Such errors exist for every positive variance: pick a unit and a sign at random. -/
noncomputable def uniform [Nonempty n] (s2 : ℝ) (hs : 0 ≤ s2) : Errors n s2 where
  Ω := n × Bool
  fin := inferInstance
  p := fun _ => 1 / (2 * (Fintype.card n : ℝ))
  eps := fun w i => if w.1 = i then (if w.2 then 1 else -1) * Real.sqrt (Fintype.card n * s2) else 0
  total := by
    have : (Fintype.card n : ℝ) ≠ 0 := by exact_mod_cast Fintype.card_ne_zero
    simp
    field_simp
  mean := by
    intro i
    rw [Fintype.sum_prod_type]
    refine Finset.sum_eq_zero fun a _ => ?_
    by_cases h : a = i <;> simp [h]
  cov := by
    intro i j
    have hn : (Fintype.card n : ℝ) ≠ 0 := by exact_mod_cast Fintype.card_ne_zero
    have hq : Real.sqrt (Fintype.card n * s2) * Real.sqrt (Fintype.card n * s2) = Fintype.card n * s2 :=
      Real.mul_self_sqrt (by positivity)
    rw [Fintype.sum_prod_type]
    by_cases h : i = j
    · subst h
      rw [if_pos rfl, Finset.sum_eq_single i]
      · simp only [Fintype.sum_bool, if_true]
        simp only [one_mul, neg_mul, mul_neg, neg_neg, hq, Bool.false_eq_true, if_false]
        field_simp
        ring
      · intro b _ hb; simp [hb]
      · simp
    · rw [if_neg h]
      refine Finset.sum_eq_zero fun a _ => ?_
      by_cases ha : a = i
      · subst ha; simp [h]
      · simp [ha]

end Errors

theorem info_eq (x : Matrix n k ℝ) (z : Matrix n q ℝ) (W : Matrix n n ℝ)
    (beta : k → ℝ) (s2 : ℝ) (hs : s2 ≠ 0) (P : Errors n s2) (v : Dir k q) :
    info x z W beta s2 P v =
      (v.c + v.d) ^ 2 * tr_t W + mdir x z W (x *ᵥ beta) v ⬝ᵥ mdir x z W (x *ᵥ beta) v / s2
        + 2 * (v.c + v.d) * v.e * trace W / s2 + (Fintype.card n : ℝ) * v.e ^ 2 / (2 * s2 ^ 2) := by
  set μ := mdir x z W (x *ᵥ beta) v with hμ
  obtain ⟨a, g, c, d, e⟩ := v
  simp only at *
  have hω : ∀ w, -(deriv (deriv (along x z W (x *ᵥ beta + P.eps w) beta s2 ⟨a, g, c, d, e⟩)) 0)
      = ((c ^ 2 + d ^ 2) * trace (W * W) - (Fintype.card n : ℝ) / 2 * (e ^ 2 / s2 ^ 2) + μ ⬝ᵥ μ / s2)
        + ((2 * (c + d) / s2) • (Wᵀ *ᵥ μ) + (2 * d / s2 ) • (W *ᵥ μ) + (2 * e / s2 ^ 2) • μ) ⬝ᵥ P.eps w
        + P.eps w ⬝ᵥ ((((c + d) ^ 2 / s2) • (Wᵀ * W) + (2 * d * c / s2) • (W * W)
            + (2 * (c + d) * e / s2 ^ 2) • W + (e ^ 2 / s2 ^ 3) • (1 : Matrix n n ℝ)) *ᵥ P.eps w) := by
    intro w
    rw [funext (along_eq x z W (x *ᵥ beta + P.eps w) beta s2 ⟨a, g, c, d, e⟩)]
    rw [path_deriv2 W c d e s2 _ _ _ _ _ _ hs]
    set ε := P.eps w
    have hm : mdir x z W (x *ᵥ beta + ε) ⟨a, g, c, d, e⟩ = μ + c • (W *ᵥ ε) := by
      simp only [hμ, mdir, mulVec_add, smul_add]; abel
    rw [hm]
    have hu : x *ᵥ beta + ε - x *ᵥ beta = ε := by abel
    rw [hu]
    clear_value μ ε
    simp only [add_mulVec, smul_mulVec, one_mulVec, mulVec_add, mulVec_smul, dotProduct_add, add_dotProduct,
      smul_dotProduct, dotProduct_smul, smul_eq_mul, smul_add, smul_smul]
    have d1 : (Wᵀ *ᵥ μ) ⬝ᵥ ε = μ ⬝ᵥ (W *ᵥ ε) := by
      rw [mulVec_transpose, ← dotProduct_mulVec]
    have d2 : ε ⬝ᵥ ((Wᵀ * W) *ᵥ ε) = (W *ᵥ ε) ⬝ᵥ (W *ᵥ ε) := by
      rw [← mulVec_mulVec, dotProduct_mulVec, vecMul_transpose]
    have d3 : ε ⬝ᵥ ((W * W) *ᵥ ε) = ε ⬝ᵥ (W *ᵥ (W *ᵥ ε)) := by rw [mulVec_mulVec]
    have d4 : (W *ᵥ ε) ⬝ᵥ μ = μ ⬝ᵥ (W *ᵥ ε) := dotProduct_comm _ _
    have d5 : (W *ᵥ μ) ⬝ᵥ ε = ε ⬝ᵥ (W *ᵥ μ) := dotProduct_comm _ _
    have d6 : μ ⬝ᵥ ε = ε ⬝ᵥ μ := dotProduct_comm _ _
    rw [d1, d2, d3, d4, d5, d6]
    field_simp
    ring
  unfold info
  simp only [hω]
  rw [P.expect]
  have ht : tr_t W = trace (Wᵀ * W) + trace (W * W) := by
    unfold tr_t; rw [Matrix.add_mul]; simp [trace, Finset.sum_add_distrib]
  rw [ht]
  simp only [trace_add, trace_smul, smul_eq_mul, trace_one]
  field_simp
  ring

/-! ### At the OLS estimates -/

section ols
variable [DecidableEq k]

/-- Facts about the fitted regression, in one place. -/
theorem reg_facts {x : Matrix n k ℝ} {y : n → ℝ} {r : Reg n k} (h : reg x y = some r) :
    IsUnit (xᵀ * x).det ∧ r.x = x ∧ r.y = y ∧ r.fit.predy = x *ᵥ r.fit.betas ∧ y - x *ᵥ r.fit.betas = r.fit.u ∧
      r.fit.u = rm x *ᵥ y ∧ r.fit.xtxi = (xᵀ * x)⁻¹ ∧ r.fit.xtx = xᵀ * x ∧ xᵀ *ᵥ r.fit.u = 0 := by
  obtain ⟨hx, hr⟩ := reg_eq_some h
  have hu : r.fit.u = rm x *ᵥ y := by
    rw [hr]; simp only [olsWith, rm, sub_mulVec, one_mulVec, mulVec_mulVec, Matrix.mul_assoc]
  refine ⟨hx, by rw [hr], by rw [hr], by rw [hr]; rfl, by rw [hr]; rfl, hu, by rw [hr]; rfl, by rw [hr]; rfl, ?_⟩
  rw [hu, mulVec_mulVec]
  have : xᵀ * rm x = 0 := by
    rw [← transpose_transpose (xᵀ * rm x), transpose_mul, transpose_transpose, rm_symm, rm_mul_x x hx,
      transpose_zero]
  rw [this, zero_mulVec]

/-- The part of a direction that moves the mean, beyond the regressors. -/
def bdir (z : Matrix n q ℝ) (W : Matrix n n ℝ) (p : n → ℝ) (c : ℝ) (g : q → ℝ) : n → ℝ :=
  c • (W *ᵥ p) + z *ᵥ g

theorem score_ols {x : Matrix n k ℝ} {y : n → ℝ} {r : Reg n k} (h : reg x y = some r)
    (hu : ∃ i, r.fit.u i ≠ 0) (z : Matrix n q ℝ) (W : Matrix n n ℝ) (hW : ∀ i, W i i = 0) (v : Dir k q) :
    score x z W y r.fit.betas r.s2 v
      = r.fit.u ⬝ᵥ bdir z W r.fit.predy v.c v.g / r.s2 + (v.c + v.d) * utwuDs r W := by
  have hs := s2_pos r hu
  obtain ⟨hx, hrx, hry, hp, huy, -, -, -, hxu⟩ := reg_facts h
  rw [score_eq _ _ _ _ _ _ hs.ne', huy]
  have htr : trace W = 0 := by simp [trace, hW]
  have huu : r.fit.u ⬝ᵥ r.fit.u = Fintype.card n * r.s2 := by
    have : Nonempty n := ⟨hu.choose⟩
    have : (Fintype.card n : ℝ) ≠ 0 := by exact_mod_cast Fintype.card_ne_zero
    rw [← utu_eq_dot]; unfold Reg.s2 sig2n utu; field_simp
  have hy : y = r.fit.predy + r.fit.u := by rw [hp, ← huy]; abel
  have hxa : r.fit.u ⬝ᵥ (x *ᵥ v.a) = 0 := by
    rw [dotProduct_mulVec, ← mulVec_transpose, hxu, zero_dotProduct]
  have hm : mdir x z W y v = v.c • (W *ᵥ r.fit.predy) + v.c • (W *ᵥ r.fit.u) + x *ᵥ v.a + z *ᵥ v.g := by
    rw [mdir]; conv_lhs => rw [hy]
    rw [mulVec_add, smul_add]
  rw [htr, huu, hm]
  unfold bdir utwuDs wu
  simp only [dotProduct_add, dotProduct_smul, smul_eq_mul, hxa]
  field_simp
  ring

theorem info_ols {x : Matrix n k ℝ} {y : n → ℝ} {r : Reg n k} (h : reg x y = some r)
    (hu : ∃ i, r.fit.u i ≠ 0) (z : Matrix n q ℝ) (W : Matrix n n ℝ) (hW : ∀ i, W i i = 0)
    (P : Errors n r.s2) (v : Dir k q) :
    (v.c + v.d) ^ 2 * tr_t W + utu (rm x *ᵥ bdir z W r.fit.predy v.c v.g) / r.s2
      ≤ info x z W r.fit.betas r.s2 P v := by
  have hs := s2_pos r hu
  obtain ⟨hx, hrx, hry, hp, huy, -, -, -, hxu⟩ := reg_facts h
  rw [info_eq _ _ _ _ _ hs.ne']
  have htr : trace W = 0 := by simp [trace, hW]
  have hm : mdir x z W (x *ᵥ r.fit.betas) v = bdir z W r.fit.predy v.c v.g + x *ᵥ v.a := by
    unfold mdir bdir; rw [hp]; abel
  have hrm : rm x *ᵥ bdir z W r.fit.predy v.c v.g = rm x *ᵥ mdir x z W (x *ᵥ r.fit.betas) v := by
    rw [hm, mulVec_add, mulVec_mulVec, rm_mul_x x hx, zero_mulVec, add_zero]
  rw [htr, hrm, utu_eq_dot, rm_dot x hx]
  set m := mdir x z W (x *ᵥ r.fit.betas) v
  have hq : 0 ≤ (xᵀ *ᵥ m) ⬝ᵥ ((xᵀ * x)⁻¹ *ᵥ (xᵀ *ᵥ m)) := by
    have := (psd_inv_gram x hx).2 (xᵀ *ᵥ m)
    rwa [quad_eq] at this
  have h1 : (m ⬝ᵥ m - (xᵀ *ᵥ m) ⬝ᵥ ((xᵀ * x)⁻¹ *ᵥ (xᵀ *ᵥ m))) / r.s2 ≤ m ⬝ᵥ m / r.s2 :=
    div_le_div_of_nonneg_right (by linarith) hs.le
  have h2 : 0 ≤ (Fintype.card n : ℝ) * v.e ^ 2 / (2 * r.s2 ^ 2) := by positivity
  rw [mul_zero, zero_div]
  linarith

theorem info_ols_eq {x : Matrix n k ℝ} {y : n → ℝ} {r : Reg n k} (h : reg x y = some r)
    (hu : ∃ i, r.fit.u i ≠ 0) (z : Matrix n q ℝ) (W : Matrix n n ℝ) (hW : ∀ i, W i i = 0)
    (P : Errors n r.s2) (c d : ℝ) (g : q → ℝ) :
    ∃ a : k → ℝ, info x z W r.fit.betas r.s2 P ⟨a, g, c, d, 0⟩
      = (c + d) ^ 2 * tr_t W + utu (rm x *ᵥ bdir z W r.fit.predy c g) / r.s2 := by
  have hs := s2_pos r hu
  obtain ⟨hx, hrx, hry, hp, huy, -, -, -, hxu⟩ := reg_facts h
  set b := bdir z W r.fit.predy c g with hb
  refine ⟨-((xᵀ * x)⁻¹ *ᵥ (xᵀ *ᵥ b)), ?_⟩
  rw [info_eq _ _ _ _ _ hs.ne']
  have htr : trace W = 0 := by simp [trace, hW]
  have hm : mdir x z W (x *ᵥ r.fit.betas) ⟨-((xᵀ * x)⁻¹ *ᵥ (xᵀ *ᵥ b)), g, c, d, 0⟩ = rm x *ᵥ b := by
    have : mdir x z W (x *ᵥ r.fit.betas) ⟨-((xᵀ * x)⁻¹ *ᵥ (xᵀ *ᵥ b)), g, c, d, 0⟩
        = b + x *ᵥ -((xᵀ * x)⁻¹ *ᵥ (xᵀ *ᵥ b)) := by
      rw [hb]; unfold mdir bdir; rw [hp]; abel
    rw [this]; unfold rm
    rw [sub_mulVec, one_mulVec, mulVec_neg, mulVec_mulVec, mulVec_mulVec, ← sub_eq_add_neg, Matrix.mul_assoc]
  rw [hm, htr, utu_eq_dot]
  simp

/-- Reduction to the parameters under test. -/
theorem isScoreStat_of {x : Matrix n k ℝ} {y : n → ℝ} {r : Reg n k} (h : reg x y = some r)
    (hu : ∃ i, r.fit.u i ≠ 0) (z : Matrix n q ℝ) (W : Matrix n n ℝ) (hW : ∀ i, W i i = 0)
    (P : Errors n r.s2) (R : ℝ → ℝ → (q → ℝ) → Prop) (hR : R 0 0 0) (S : ℝ) (hS : 0 ≤ S)
    (h1 : ∀ c d g, R c d g →
      (r.fit.u ⬝ᵥ bdir z W r.fit.predy c g / r.s2 + (c + d) * utwuDs r W) ^ 2
        ≤ S * ((c + d) ^ 2 * tr_t W + utu (rm x *ᵥ bdir z W r.fit.predy c g) / r.s2))
    (h2 : ∃ c d g, R c d g ∧
      r.fit.u ⬝ᵥ bdir z W r.fit.predy c g / r.s2 + (c + d) * utwuDs r W = S ∧
      (c + d) ^ 2 * tr_t W + utu (rm x *ᵥ bdir z W r.fit.predy c g) / r.s2 = S) :
    IsScoreStat x z W y r.fit.betas r.s2 P {v | R v.c v.d v.g} S := by
  refine ⟨fun v hv => ?_, ?_⟩
  · rw [score_ols h hu z W hW]
    exact (h1 _ _ _ hv).trans (mul_le_mul_of_nonneg_left (info_ols h hu z W hW P v) hS)
  · rcases hS.eq_or_lt with h0 | h0
    · have hs := s2_pos r hu
      refine ⟨⟨0, 0, 0, 0, 1⟩, hR, ?_, ?_⟩
      · rw [info_eq _ _ _ _ _ hs.ne']
        have : Nonempty n := ⟨hu.choose⟩
        have : (0 : ℝ) < Fintype.card n := by exact_mod_cast Fintype.card_pos
        simp only [mdir, zero_smul, mulVec_zero, add_zero, dotProduct_zero]
        simp
        positivity
      · rw [score_ols h hu z W hW, ← h0]
        simp [bdir]
    · obtain ⟨c, d, g, hr, e1, e2⟩ := h2
      obtain ⟨a, ha⟩ := info_ols_eq h hu z W hW P c d g
      refine ⟨⟨a, g, c, d, 0⟩, hr, ?_, ?_⟩
      · rw [ha, e2]; exact h0
      · rw [score_ols h hu z W hW, ha, e2, pow_two]
        simp only [e1]

theorem utu_smul (c : ℝ) (v : n → ℝ) : utu (c • v) = c ^ 2 * utu v := by
  simp [utu, Finset.mul_sum, mul_pow]

theorem utwyDs_eq {x : Matrix n k ℝ} {y : n → ℝ} {r : Reg n k} (h : reg x y = some r) (W : Matrix n n ℝ) :
    utwyDs r W = r.fit.u ⬝ᵥ (W *ᵥ r.fit.predy) / r.s2 + utwuDs r W := by
  obtain ⟨hx, hrx, hry, hp, huy, -, -, -, hxu⟩ := reg_facts h
  have hy : y = r.fit.predy + r.fit.u := by rw [hp, ← huy]; abel
  unfold utwyDs utwuDs wu
  rw [hry]; conv_lhs => rw [hy]
  rw [mulVec_add, dotProduct_add, add_div]

/-- C83: LM-error is the score statistic against `lambda` free. -/
theorem C83_lm_error {x : Matrix n k ℝ} {y : n → ℝ} {r : Reg n k} (h : reg x y = some r)
    (hu : ∃ i, r.fit.u i ≠ 0) (z : Matrix n q ℝ) (W : Matrix n n ℝ) (hW : ∀ i, W i i = 0)
    (hW2 : ∃ i j, W i j + W j i ≠ 0) (P : Errors n r.s2) :
    IsScoreStat x z W y r.fit.betas r.s2 P {v | v.c = 0 ∧ v.g = 0} (lmErr r W).stat := by
  obtain ⟨i, j, hij⟩ := hW2
  have ht := tr_t_pos W i j hij
  refine isScoreStat_of h hu z W hW P (fun c _ g => c = 0 ∧ g = 0) ⟨rfl, rfl⟩ _ ?_ ?_ ?_
  · simp only [lmErr]; positivity
  · rintro c d g ⟨rfl, rfl⟩
    simp only [lmErr, bdir, zero_smul, mulVec_zero, add_zero, dotProduct_zero, zero_div, zero_add]
    simp only [utu, Pi.zero_apply]
    apply le_of_eq
    simp; field_simp
  · refine ⟨0, utwuDs r W / tr_t W, 0, ⟨rfl, rfl⟩, ?_, ?_⟩
    · simp only [lmErr, bdir, zero_smul, mulVec_zero, add_zero, dotProduct_zero, zero_div, zero_add]
      field_simp
    · simp only [lmErr, bdir, zero_smul, mulVec_zero, add_zero, dotProduct_zero, zero_div, zero_add]
      simp only [utu, Pi.zero_apply]
      simp; field_simp

/-- C83: LM-lag is the score statistic against `rho` free. -/
theorem C83_lm_lag {x : Matrix n k ℝ} {y : n → ℝ} {r : Reg n k} (h : reg x y = some r)
    (hu : ∃ i, r.fit.u i ≠ 0) (z : Matrix n q ℝ) (W : Matrix n n ℝ) (hW : ∀ i, W i i = 0)
    (hW2 : ∃ i j, W i j + W j i ≠ 0) (P : Errors n r.s2) :
    IsScoreStat x z W y r.fit.betas r.s2 P {v | v.d = 0 ∧ v.g = 0} (lmLag r W).stat := by
  obtain ⟨i, j, hij⟩ := hW2
  have ht := tr_t_pos W i j hij
  have hs := s2_pos r hu
  have hA : 0 ≤ utu (rm x *ᵥ (W *ᵥ r.fit.predy)) / r.s2 := div_nonneg (utu_nonneg _) hs.le
  have hst : (lmLag r W).stat = (r.fit.u ⬝ᵥ (W *ᵥ r.fit.predy) / r.s2 + utwuDs r W) ^ 2 /
      (utu (rm x *ᵥ (W *ᵥ r.fit.predy)) / r.s2 + tr_t W) := by
    simp only [lmLag, nj_eq x y r h hu W, utwyDs_eq h]
  rw [hst]
  set A := utu (rm x *ᵥ (W *ᵥ r.fit.predy)) / r.s2 with hAd
  set b := r.fit.u ⬝ᵥ (W *ᵥ r.fit.predy) / r.s2 with hb
  have key : ∀ c : ℝ, r.fit.u ⬝ᵥ bdir z W r.fit.predy c (0 : q → ℝ) / r.s2 = c * b ∧
      utu (rm x *ᵥ bdir z W r.fit.predy c (0 : q → ℝ)) / r.s2 = c ^ 2 * A := by
    intro c
    simp only [bdir, mulVec_zero, add_zero, dotProduct_smul, mulVec_smul, utu_smul, smul_eq_mul, hb, hAd]
    constructor <;> ring
  have hpos : 0 < A + tr_t W := by linarith
  refine isScoreStat_of h hu z W hW P (fun _ d g => d = 0 ∧ g = 0) ⟨rfl, rfl⟩ _ ?_ ?_ ?_
  · positivity
  · rintro c d g ⟨rfl, rfl⟩
    rw [(key c).1, (key c).2]
    apply le_of_eq
    field_simp
    ring
  · refine ⟨(b + utwuDs r W) / (A + tr_t W), 0, 0, ⟨rfl, rfl⟩, ?_, ?_⟩
    · rw [(key _).1]; field_simp; ring
    · rw [(key _).2]; field_simp; ring

/-- C83: LM-SARMA is the score statistic against `rho` and `lambda` free. -/
theorem C83_lm_sarma {x : Matrix n k ℝ} {y : n → ℝ} {r : Reg n k} (h : reg x y = some r)
    (hu : ∃ i, r.fit.u i ≠ 0) (z : Matrix n q ℝ) (W : Matrix n n ℝ) (hW : ∀ i, W i i = 0)
    (hW2 : ∃ i j, W i j + W j i ≠ 0) (hx : ¬ ∃ v, W *ᵥ r.fit.predy = x *ᵥ v) (P : Errors n r.s2) :
    IsScoreStat x z W y r.fit.betas r.s2 P {v | v.g = 0} (lmSarma r W).stat := by
  obtain ⟨i, j, hij⟩ := hW2
  have ht := tr_t_pos W i j hij
  have hs := s2_pos r hu
  have hA : 0 < utu (rm x *ᵥ (W *ᵥ r.fit.predy)) / r.s2 := by
    refine div_pos (lt_of_le_of_ne (utu_nonneg _) fun h0 => hx ?_) hs
    exact (rm_eq_zero x (reg_facts h).1 _).1 ((utu_eq_zero _).1 h0.symm)
  have hst : (lmSarma r W).stat = (r.fit.u ⬝ᵥ (W *ᵥ r.fit.predy) / r.s2) ^ 2 /
      (utu (rm x *ᵥ (W *ᵥ r.fit.predy)) / r.s2) + utwuDs r W ^ 2 / tr_t W := by
    have := nj_eq x y r h hu W
    unfold Reg.nn at this
    simp only [lmSarma, this, utwyDs_eq h, add_sub_cancel_right]
  rw [hst]
  set A := utu (rm x *ᵥ (W *ᵥ r.fit.predy)) / r.s2 with hAd
  set b := r.fit.u ⬝ᵥ (W *ᵥ r.fit.predy) / r.s2 with hb
  have key : ∀ c : ℝ, r.fit.u ⬝ᵥ bdir z W r.fit.predy c (0 : q → ℝ) / r.s2 = c * b ∧
      utu (rm x *ᵥ bdir z W r.fit.predy c (0 : q → ℝ)) / r.s2 = c ^ 2 * A := by
    intro c
    simp only [bdir, mulVec_zero, add_zero, dotProduct_smul, mulVec_smul, utu_smul, smul_eq_mul, hb, hAd]
    constructor <;> ring
  clear_value A b
  refine isScoreStat_of h hu z W hW P (fun _ _ g => g = 0) rfl _ ?_ ?_ ?_
  · positivity
  · rintro c d g rfl
    rw [(key c).1, (key c).2]
    generalize utwuDs r W = a
    generalize tr_t W = t at ht ⊢
    have : (b ^ 2 / A + a ^ 2 / t) * ((c + d) ^ 2 * t + c ^ 2 * A) - (c * b + (c + d) * a) ^ 2
        = (b * (c + d) * t - a * c * A) ^ 2 / (A * t) := by
      field_simp; ring
    have h2 : 0 ≤ (b * (c + d) * t - a * c * A) ^ 2 / (A * t) := by positivity
    linarith
  · refine ⟨b / A, utwuDs r W / tr_t W - b / A, 0, rfl, ?_, ?_⟩
    · rw [(key _).1]; field_simp; ring
    · rw [(key _).2]; field_simp; ring

/-- Quadratic form of the lags after projecting out the regressors. -/
theorem rm_quad (x : Matrix n k ℝ) (hx : IsUnit (xᵀ * x).det) (z : Matrix n q ℝ) (g : q → ℝ) :
    utu (rm x *ᵥ (z *ᵥ g)) = g ⬝ᵥ (((rm x * z)ᵀ * (rm x * z)) *ᵥ g) := by
  rw [utu_eq_dot, mulVec_mulVec, ← mulVec_mulVec _ (rm x * z)ᵀ, dotProduct_mulVec g, vecMul_transpose]

/-- LM-WX as a quadratic form. -/
theorem lmWX_eq [DecidableEq q] {x : Matrix n k ℝ} {y : n → ℝ} {r : Reg n k} (h : reg x y = some r)
    (W : Matrix n n ℝ) (sel : q → k) (t : Test) (ht : lmWX r W sel = some t) :
    ∃ Q Qi : Matrix q q ℝ, Q = (rm x * (W * x.submatrix id sel))ᵀ * (rm x * (W * x.submatrix id sel)) ∧ Q * Qi = 1 ∧
      t.stat = ((W * x.submatrix id sel)ᵀ *ᵥ r.fit.u) ⬝ᵥ (Qi *ᵥ ((W * x.submatrix id sel)ᵀ *ᵥ r.fit.u)) / r.s2 := by
  obtain ⟨hx, hrx, hry, hp, huy, -, hxtxi, -, hxu⟩ := reg_facts h
  unfold lmWX at ht
  simp only [selCols, hrx, hxtxi] at ht
  rw [Option.map_eq_some_iff] at ht
  obtain ⟨Qi, hQi, rfl⟩ := ht
  obtain ⟨-, -, hQ, -⟩ := inv?_eq_some hQi
  refine ⟨_, Qi, rfl, ?_, ?_⟩
  · rw [rm_cross x hx, ← hQ]
    simp only [transpose_mul, transpose_transpose]
  · simp only; rw [← dotProduct_mulVec]

/-- C83: LM-WX is the score statistic against `gamma` (the coefficients of the lagged regressors) free. -/
theorem C83_lm_wx [DecidableEq q] {x : Matrix n k ℝ} {y : n → ℝ} {r : Reg n k} (h : reg x y = some r)
    (hu : ∃ i, r.fit.u i ≠ 0) (W : Matrix n n ℝ) (hW : ∀ i, W i i = 0) (sel : q → k) (t : Test)
    (ht : lmWX r W sel = some t) (P : Errors n r.s2) :
    IsScoreStat x (W * x.submatrix id sel) W y r.fit.betas r.s2 P {v | v.c = 0 ∧ v.d = 0} t.stat := by
  have hs := s2_pos r hu
  obtain ⟨Q, Qi, hQ, hQi, hst⟩ := lmWX_eq h W sel t ht
  have hx := (reg_facts h).1
  set z := W * x.submatrix id sel with hz
  set f := zᵀ *ᵥ r.fit.u with hf
  have hpsd : SymPSD Q := by rw [hQ]; exact psd_gram _
  have key : ∀ g : q → ℝ, r.fit.u ⬝ᵥ bdir z W r.fit.predy 0 g = g ⬝ᵥ f ∧
      utu (rm x *ᵥ bdir z W r.fit.predy 0 g) = g ⬝ᵥ (Q *ᵥ g) := by
    intro g
    simp only [bdir, zero_smul, zero_add]
    refine ⟨?_, by rw [rm_quad x hx, hQ]⟩
    rw [dotProduct_mulVec, ← mulVec_transpose, dotProduct_comm]
  have hQf : Q *ᵥ (Qi *ᵥ f) = f := by rw [mulVec_mulVec, hQi, one_mulVec]
  have hq2 : (Qi *ᵥ f) ⬝ᵥ (Q *ᵥ (Qi *ᵥ f)) = f ⬝ᵥ (Qi *ᵥ f) := by rw [hQf, dotProduct_comm]
  have hS : 0 ≤ t.stat := by
    rw [hst, ← hq2]
    have := hpsd.2 (Qi *ᵥ f)
    rw [quad_eq] at this
    positivity
  refine isScoreStat_of h hu z W hW P (fun c d _ => c = 0 ∧ d = 0) ⟨rfl, rfl⟩ _ hS ?_ ?_
  · rintro c d g ⟨rfl, rfl⟩
    rw [(key g).1, (key g).2, hst]
    have := psd_cs hpsd g (Qi *ᵥ f)
    rw [hQf, dotProduct_comm (Qi *ᵥ f)] at this
    simp only [add_zero, zero_mul, ne_eq, OfNat.ofNat_ne_zero, not_false_eq_true, zero_pow, zero_add, div_pow]
    rw [div_mul_div_comm, pow_two r.s2]
    refine div_le_div_of_nonneg_right ?_ (by positivity)
    rw [mul_comm (f ⬝ᵥ _)]; exact this
  · refine ⟨0, 0, Qi *ᵥ f, ⟨rfl, rfl⟩, ?_, ?_⟩
    · rw [(key _).1, hst, dotProduct_comm]; simp
    · rw [(key _).2, hst, hq2]; simp

/-- C83: the joint SLX-error statistic (LM-error plus LM-WX) is the score statistic against `lambda` and
`gamma` free. -/
theorem C83_lm_slxerr [DecidableEq q] {x : Matrix n k ℝ} {y : n → ℝ} {r : Reg n k} (h : reg x y = some r)
    (hu : ∃ i, r.fit.u i ≠ 0) (W : Matrix n n ℝ) (hW : ∀ i, W i i = 0)
    (hW2 : ∃ i j, W i j + W j i ≠ 0) (sel : q → k) (t : Test)
    (ht : lmWX r W sel = some t) (P : Errors n r.s2) :
    IsScoreStat x (W * x.submatrix id sel) W y r.fit.betas r.s2 P {v | v.c = 0}
      (lmSlxErr r (lmErr r W) t).stat := by
  have hs := s2_pos r hu
  obtain ⟨i, j, hij⟩ := hW2
  have htr := tr_t_pos W i j hij
  obtain ⟨Q, Qi, hQ, hQi, hst⟩ := lmWX_eq h W sel t ht
  have hx := (reg_facts h).1
  set z := W * x.submatrix id sel with hz
  set f := zᵀ *ᵥ r.fit.u with hf
  have hpsd : SymPSD Q := by rw [hQ]; exact psd_gram _
  have key : ∀ g : q → ℝ, r.fit.u ⬝ᵥ bdir z W r.fit.predy 0 g = g ⬝ᵥ f ∧
      utu (rm x *ᵥ bdir z W r.fit.predy 0 g) = g ⬝ᵥ (Q *ᵥ g) := by
    intro g
    simp only [bdir, zero_smul, zero_add]
    refine ⟨?_, by rw [rm_quad x hx, hQ]⟩
    rw [dotProduct_mulVec, ← mulVec_transpose, dotProduct_comm]
  have hQf : Q *ᵥ (Qi *ᵥ f) = f := by rw [mulVec_mulVec, hQi, one_mulVec]
  have hq2 : (Qi *ᵥ f) ⬝ᵥ (Q *ᵥ (Qi *ᵥ f)) = f ⬝ᵥ (Qi *ᵥ f) := by rw [hQf, dotProduct_comm]
  have hS0 : 0 ≤ f ⬝ᵥ (Qi *ᵥ f) := by
    rw [← hq2]
    have := hpsd.2 (Qi *ᵥ f)
    rwa [quad_eq] at this
  have hst2 : (lmSlxErr r (lmErr r W) t).stat = utwuDs r W ^ 2 / tr_t W + f ⬝ᵥ (Qi *ᵥ f) / r.s2 := by
    simp only [lmSlxErr, lmErr, hst]
  rw [hst2]
  set a := utwuDs r W
  set τ := tr_t W
  set F := f ⬝ᵥ (Qi *ᵥ f) with hF
  refine isScoreStat_of h hu z W hW P (fun c _ _ => c = 0) rfl _ (by positivity) ?_ ?_
  · rintro c d g rfl
    rw [(key g).1, (key g).2]
    have hcs := psd_cs hpsd g (Qi *ᵥ f)
    rw [hQf, dotProduct_comm (Qi *ᵥ f), ← hF] at hcs
    have hG : 0 ≤ g ⬝ᵥ (Q *ᵥ g) := by
      have := hpsd.2 g
      rwa [quad_eq] at this
    set G := g ⬝ᵥ (Q *ᵥ g)
    set l := g ⬝ᵥ f
    have e1 : (a ^ 2 / τ + F / r.s2) * ((0 + d) ^ 2 * τ + G / r.s2) - (l / r.s2 + (0 + d) * a) ^ 2
        = (a ^ 2 / τ * (G / r.s2) + F / r.s2 * (d ^ 2 * τ) - 2 * (l / r.s2) * (d * a))
          + (G * F - l ^ 2) / r.s2 ^ 2 := by
      field_simp; ring
    have e2 : 0 ≤ (G * F - l ^ 2) / r.s2 ^ 2 := div_nonneg (by linarith) (by positivity)
    have e3 : 0 ≤ a ^ 2 / τ * (G / r.s2) + F / r.s2 * (d ^ 2 * τ) - 2 * (l / r.s2) * (d * a) := by
      have : a ^ 2 / τ * (G / r.s2) + F / r.s2 * (d ^ 2 * τ) - 2 * (l / r.s2) * (d * a)
          = (a ^ 2 * G / τ + F * (d ^ 2 * τ) - 2 * l * (d * a)) / r.s2 := by
        field_simp
      rw [this]
      refine div_nonneg ?_ hs.le
      -- X + Y ≥ 2|l d a| where X*Y = a^2 d^2 G F ≥ (l d a)^2
      set X := a ^ 2 * G / τ
      set Y := F * (d ^ 2 * τ)
      have hX : 0 ≤ X := by positivity
      have hY : 0 ≤ Y := by positivity
      have hXY : (l * (d * a)) ^ 2 ≤ X * Y := by
        have : X * Y = (d * a) ^ 2 * (G * F) := by simp only [X, Y]; field_simp
        rw [this, mul_pow, mul_comm]
        exact mul_le_mul_of_nonneg_left hcs (sq_nonneg _)
      nlinarith [sq_nonneg (X - Y), abs_le_of_sq_le_sq' (show (2 * (l * (d * a))) ^ 2 ≤ (X + Y) ^ 2 by
        nlinarith [sq_nonneg (X - Y)]) (by positivity)]
    linarith
  · refine ⟨0, a / τ, Qi *ᵥ f, rfl, ?_, ?_⟩
    · rw [(key _).1, dotProduct_comm, ← hF]; field_simp; ring
    · rw [(key _).2, hq2]; field_simp; ring

/-- The Durbin statistic as a quadratic form. -/
theorem lmSpDurbin_eq [DecidableEq q] {x : Matrix n k ℝ} {y : n → ℝ} {r : Reg n k} (h : reg x y = some r)
    (hu : ∃ i, r.fit.u i ≠ 0) (W : Matrix n n ℝ) (sel : q → k) (t : Test)
    (ht : lmSpDurbin r W sel = some t) :
    ∃ Q Qi : Matrix (Unit ⊕ q) (Unit ⊕ q) ℝ,
      Q = (rm x * fromCols (Matrix.of fun i (_ : Unit) => (W *ᵥ r.fit.predy) i) (W * x.submatrix id sel))ᵀ
          * (rm x * fromCols (Matrix.of fun i (_ : Unit) => (W *ᵥ r.fit.predy) i) (W * x.submatrix id sel))
        + fromBlocks (Matrix.of fun _ _ => tr_t W * r.s2) 0 0 0 ∧ Q * Qi = 1 ∧
      t.stat = r.s2 * (Sum.elim (fun _ : Unit => (W *ᵥ y) ⬝ᵥ r.fit.u / r.s2)
          (fun j => ((W * x.submatrix id sel)ᵀ *ᵥ r.fit.u) j / r.s2) ⬝ᵥ
        (Qi *ᵥ Sum.elim (fun _ : Unit => (W *ᵥ y) ⬝ᵥ r.fit.u / r.s2)
          (fun j => ((W * x.submatrix id sel)ᵀ *ᵥ r.fit.u) j / r.s2))) := by
  obtain ⟨hx, hrx, hry, hp, huy, -, hxtxi, hxtx, hxu⟩ := reg_facts h
  have hs := s2_pos r hu
  have hn : (0 : ℝ) < r.nn := by
    have : Nonempty n := ⟨hu.choose⟩
    unfold Reg.nn; exact_mod_cast Fintype.card_pos
  unfold lmSpDurbin at ht
  simp only [selCols, hrx, hxtx, hry] at ht
  rw [Option.bind_eq_some_iff] at ht
  obtain ⟨J, hJ, ht⟩ := ht
  rw [Option.map_eq_some_iff] at ht
  obtain ⟨Qi, hQi, rfl⟩ := ht
  obtain ⟨-, -, hJ1, -⟩ := inv?_eq_some hJ
  have hne : r.nn / (2 * r.s2) ≠ 0 := by positivity
  have hpp : ∑ i, (Wᵀ * W + W * W) i i = tr_t W := by
    unfold tr_t; rw [Matrix.add_mul]
  rw [hpp, spd_matrix x hx _ _ (tr_t W * r.s2) _ hne J hJ1] at hQi
  obtain ⟨-, -, hQ, -⟩ := inv?_eq_some hQi
  refine ⟨_, Qi, rfl, hQ, ?_⟩
  simp only
  rw [← dotProduct_mulVec, smul_mulVec, dotProduct_smul, smul_eq_mul]

/-- C83: the joint spatial Durbin statistic is the score statistic against `rho` and `gamma` free. -/
theorem C83_lm_spdurbin [DecidableEq q] {x : Matrix n k ℝ} {y : n → ℝ} {r : Reg n k} (h : reg x y = some r)
    (hu : ∃ i, r.fit.u i ≠ 0) (W : Matrix n n ℝ) (hW : ∀ i, W i i = 0) (sel : q → k) (t : Test)
    (ht : lmSpDurbin r W sel = some t) (P : Errors n r.s2) :
    IsScoreStat x (W * x.submatrix id sel) W y r.fit.betas r.s2 P {v | v.d = 0} t.stat := by
  have hs := s2_pos r hu
  obtain ⟨Q, Qi, hQ, hQi, hst⟩ := lmSpDurbin_eq h hu W sel t ht
  obtain ⟨hx, hrx, hry, hp, huy, -, hxtxi, hxtx, hxu⟩ := reg_facts h
  have hyd := utwyDs_eq h W
  unfold utwyDs at hyd
  rw [hry, dotProduct_comm] at hyd
  rw [hyd] at hst
  set z := W * x.submatrix id sel with hz
  clear_value z
  set dd : Unit ⊕ q → ℝ := Sum.elim (fun _ : Unit => r.fit.u ⬝ᵥ (W *ᵥ r.fit.predy) / r.s2 + utwuDs r W)
    (fun j => (zᵀ *ᵥ r.fit.u) j / r.s2) with hdd
  have htr := tr_t_nonneg W
  have hpsd : SymPSD Q := by
    rw [hQ]; exact psd_add (psd_gram _) (psd_corner _ (by positivity))
  have hbd : ∀ (c : ℝ) (g : q → ℝ), bdir z W r.fit.predy c g
      = fromCols (Matrix.of fun i (_ : Unit) => (W *ᵥ r.fit.predy) i) z *ᵥ Sum.elim (fun _ : Unit => c) g := by
    intro c g
    unfold bdir
    ext i
    simp [mulVec, dotProduct, Fintype.sum_sum_type, mul_comm]
  have key : ∀ (c : ℝ) (g : q → ℝ),
      r.fit.u ⬝ᵥ bdir z W r.fit.predy c g / r.s2 + (c + 0) * utwuDs r W = Sum.elim (fun _ : Unit => c) g ⬝ᵥ dd ∧
      (c + 0) ^ 2 * tr_t W + utu (rm x *ᵥ bdir z W r.fit.predy c g) / r.s2
        = Sum.elim (fun _ : Unit => c) g ⬝ᵥ (Q *ᵥ Sum.elim (fun _ : Unit => c) g) / r.s2 := by
    intro c g
    constructor
    · have : Sum.elim (fun _ : Unit => c) g ⬝ᵥ dd
          = c * (r.fit.u ⬝ᵥ (W *ᵥ r.fit.predy) / r.s2 + utwuDs r W) + g ⬝ᵥ (zᵀ *ᵥ r.fit.u) / r.s2 := by
        simp only [hdd, dotProduct, Fintype.sum_sum_type, Sum.elim_inl, Sum.elim_inr, Finset.univ_unique,
          Finset.sum_singleton, Finset.sum_div, mul_div_assoc]
      rw [this]
      unfold bdir
      have e : r.fit.u ⬝ᵥ (z *ᵥ g) = g ⬝ᵥ (zᵀ *ᵥ r.fit.u) := by
        rw [dotProduct_mulVec, ← mulVec_transpose, dotProduct_comm]
      rw [dotProduct_add, dotProduct_smul, smul_eq_mul, e]
      field_simp
      ring
    · rw [hbd, hQ, add_mulVec, dotProduct_add, rm_quad x hx]
      have hc : Sum.elim (fun _ : Unit => c) g ⬝ᵥ ((fromBlocks (Matrix.of fun _ _ => tr_t W * r.s2) 0 0 0 :
          Matrix (Unit ⊕ q) (Unit ⊕ q) ℝ) *ᵥ Sum.elim (fun _ : Unit => c) g) = tr_t W * r.s2 * c ^ 2 := by
        simp [dotProduct, mulVec, Fintype.sum_sum_type]; ring
      rw [hc]
      field_simp
      ring
  have hQf : Q *ᵥ (Qi *ᵥ dd) = dd := by rw [mulVec_mulVec, hQi, one_mulVec]
  have hq2 : (Qi *ᵥ dd) ⬝ᵥ (Q *ᵥ (Qi *ᵥ dd)) = dd ⬝ᵥ (Qi *ᵥ dd) := by rw [hQf, dotProduct_comm]
  have hS0 : 0 ≤ dd ⬝ᵥ (Qi *ᵥ dd) := by
    rw [← hq2]
    have := hpsd.2 (Qi *ᵥ dd)
    rwa [quad_eq] at this
  rw [hst]
  refine isScoreStat_of h hu z W hW P (fun _ d _ => d = 0) rfl _ (by positivity) ?_ ?_
  · rintro c d g rfl
    rw [(key c g).1, (key c g).2]
    have hcs := psd_cs hpsd (Sum.elim (fun _ : Unit => c) g) (Qi *ᵥ dd)
    rw [hQf, dotProduct_comm (Qi *ᵥ dd)] at hcs
    have : r.s2 * (dd ⬝ᵥ (Qi *ᵥ dd)) *
        (Sum.elim (fun _ : Unit => c) g ⬝ᵥ (Q *ᵥ Sum.elim (fun _ : Unit => c) g) / r.s2)
        = Sum.elim (fun _ : Unit => c) g ⬝ᵥ (Q *ᵥ Sum.elim (fun _ : Unit => c) g) * (dd ⬝ᵥ (Qi *ᵥ dd)) := by
      field_simp
    rw [this]; exact hcs
  · have hw : Sum.elim (fun _ : Unit => r.s2 * (Qi *ᵥ dd) (Sum.inl ())) (fun j => r.s2 * (Qi *ᵥ dd) (Sum.inr j))
        = r.s2 • (Qi *ᵥ dd) := by
      ext s; rcases s with s | s <;> rfl
    refine ⟨r.s2 * (Qi *ᵥ dd) (Sum.inl ()), 0, fun j => r.s2 * (Qi *ᵥ dd) (Sum.inr j), rfl, ?_, ?_⟩
    · rw [(key _ _).1, hw, smul_dotProduct, dotProduct_comm, smul_eq_mul]
    · rw [(key _ _).2, hw, mulVec_smul, smul_dotProduct, dotProduct_smul, hq2, smul_eq_mul, smul_eq_mul]
      field_simp

end ols

/-- Non-vacuity for C83: the hypotheses of all its theorems hold for three units on a path, with the data of
the OLS example and the lag of the second regressor; errors with the fitted variance exist. -/
example : ∃ r, reg exX exY = some r ∧ (∃ i, r.fit.u i ≠ 0) ∧ Nonempty (Errors (Fin 3) r.s2) ∧
    (¬ ∃ v, (!![0, 1, 0; 1, 0, 1; 0, 1, 0] : Matrix (Fin 3) (Fin 3) ℝ) *ᵥ r.fit.predy = exX *ᵥ v) ∧
    (∀ i, (!![0, 1, 0; 1, 0, 1; 0, 1, 0] : Matrix (Fin 3) (Fin 3) ℝ) i i = 0) ∧
    (∃ i j, (!![0, 1, 0; 1, 0, 1; 0, 1, 0] : Matrix (Fin 3) (Fin 3) ℝ) i j
      + (!![0, 1, 0; 1, 0, 1; 0, 1, 0] : Matrix (Fin 3) (Fin 3) ℝ) j i ≠ 0) ∧
    (∃ sd, lmSpDurbin r !![0, 1, 0; 1, 0, 1; 0, 1, 0] (fun _ : Fin 1 => (1 : Fin 2)) = some sd) ∧
    (∃ t, lmWX r !![0, 1, 0; 1, 0, 1; 0, 1, 0] (fun _ : Fin 1 => (1 : Fin 2)) = some t) := by
  obtain ⟨r, hr, hu, hlag, sd, hsd⟩ := LM.exDurbin
  refine ⟨r, hr, hu, ⟨Errors.uniform _ (s2_pos r hu).le⟩, hlag, ?_, ⟨0, 1, by simp⟩, ⟨sd, hsd⟩, ?_⟩
  · intro i; fin_cases i <;> simp
  · obtain ⟨t, ht, -⟩ := C18_robust_durbin exX exY r hr _ _ hu sd hsd
    exact ⟨t, ht⟩

end Spreg.Score
