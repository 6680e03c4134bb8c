import Verif.Model.NSLX
import Verif.Props.SUR
import Mathlib.Analysis.SpecialFunctions.Pow.Deriv
/-
C109: the fitted values and criterion of NSLX. C110: its analytic gradient. C111: its variance matrix.
-/
namespace Spreg.NSLX
open Matrix Spreg.Lin

variable {n k h : Type} [Fintype n] [Fintype k] [Fintype h] [DecidableEq n] [DecidableEq k] [DecidableEq h]

/-- The kernel: `exp(-a v)` or `v^a` (specification). -/
noncomputable def kern (t : Transform) (a v : ℝ) : ℝ :=
  match t with
  | .exponential => Real.exp (-a * v)
  | .power => v ^ a

/-- Spatial lag at `r` with kernel weights, over the neighbours of `r` (specification). -/
noncomputable def kernLag (t : Transform) (a : ℝ) (w : Sparse n) (x : n → ℝ) (r : n) : ℝ :=
  ∑ j, match w r j with
    | none => 0
    | some v => kern t a v * x j

theorem entry_some {t : Transform} {a v e : ℝ} (he : entry t a v = some e) : e = kern t a v := by
  cases t with
  | exponential =>
    simp only [entry, Option.some.injEq] at he
    rw [← he, kern, neg_mul, mul_comm]
  | power =>
    simp only [entry] at he
    split_ifs at he
    exact (Option.some.inj he).symm

theorem spLag_some {f : ℝ → Option ℝ} {w : Sparse n} {x : n → ℝ} {z : n → ℝ} (hz : spLag f w x = some z) :
    (∀ i j v, w i j = some v → (f v).isSome) ∧ z = fun i => ∑ j, ((w i j).bind f).getD 0 * x j := by
  unfold spLag at hz
  split_ifs at hz with hc
  exact ⟨hc, (Option.some.inj hz).symm⟩

theorem spLag_of {f : ℝ → Option ℝ} {w : Sparse n} (x : n → ℝ) (hc : ∀ i j v, w i j = some v → (f v).isSome) :
    spLag f w x = some fun i => ∑ j, ((w i j).bind f).getD 0 * x j := by
  unfold spLag
  rw [if_pos hc]

theorem nlmod_some {f : Transform → ℝ → ℝ → Option ℝ} {w : h → Sparse n} {t : h → Transform} {xw : Matrix n h ℝ} {alpha : h → ℝ}
    {wx : Matrix n h ℝ} (hw : nlmod f w t xw alpha = some wx) :
    (∀ i r j v, w i r j = some v → (f (t i) (alpha i) v).isSome) ∧
    ∀ r i, wx r i = ∑ j, ((w i r j).bind (f (t i) (alpha i))).getD 0 * xw j i := by
  unfold nlmod at hw
  split_ifs at hw with hc
  have hx := Option.some.inj hw
  have h2 : ∀ i, ∃ z, spLag (f (t i) (alpha i)) (w i) (fun r => xw r i) = some z := fun i => Option.isSome_iff_exists.1 (hc i)
  refine ⟨fun i => ?_, fun r i => ?_⟩
  · obtain ⟨z, hz⟩ := h2 i
    exact (spLag_some hz).1
  · obtain ⟨z, hz⟩ := h2 i
    rw [← hx]
    simp only [of_apply]
    have : (spLag (f (t i) (alpha i)) (w i) fun r => xw r i).get (hc i) = z := Option.get_of_eq_some _ hz
    rw [this, (spLag_some hz).2]

theorem nlmod_of {f : Transform → ℝ → ℝ → Option ℝ} {w : h → Sparse n} {t : h → Transform} (xw : Matrix n h ℝ) {alpha : h → ℝ}
    (hc : ∀ i r j v, w i r j = some v → (f (t i) (alpha i) v).isSome) : ∃ wx, nlmod f w t xw alpha = some wx := by
  unfold nlmod
  rw [dif_pos fun i => by rw [spLag_of _ (hc i)]; rfl]
  exact ⟨_, rfl⟩

theorem nlmod_none {f : Transform → ℝ → ℝ → Option ℝ} {w : h → Sparse n} {t : h → Transform} (xw : Matrix n h ℝ) {alpha : h → ℝ}
    {i : h} {r j : n} {v : ℝ} (hw : w i r j = some v) (hf : f (t i) (alpha i) v = none) : nlmod f w t xw alpha = none := by
  cases hx : nlmod f w t xw alpha with
  | none => rfl
  | some wx =>
    have := (nlmod_some hx).1 i r j v hw
    rw [hf] at this
    cases this

theorem nlmod_entry {w : h → Sparse n} {t : h → Transform} {xw : Matrix n h ℝ} {alpha : h → ℝ} {wx : Matrix n h ℝ}
    (hw : nlmod entry w t xw alpha = some wx) (r : n) (i : h) : wx r i = kernLag (t i) (alpha i) (w i) (fun j => xw j i) r := by
  obtain ⟨hd, he⟩ := nlmod_some hw
  rw [he, kernLag]
  refine Finset.sum_congr rfl fun j _ => ?_
  cases hv : w i r j with
  | none => simp
  | some v =>
    obtain ⟨e, hee⟩ := Option.isSome_iff_exists.1 (hd i r j v hv)
    simp only [Option.bind_some, hee, Option.getD_some]
    rw [entry_some hee]

/-- C109: the fitted values are `X b` plus the kernel-weighted lags of the selected columns, each with its own parameter, weights
and kernel; residuals, sum of squares and variance belong to these fitted values. -/
theorem C109_fit {w : h → Sparse n} {t : h → Transform} {y : n → ℝ} {x : Matrix n k ℝ} {xw : Matrix n h ℝ} {b : k → ℝ}
    {alpha : h → ℝ} {f : Fit n k h} (hf : baseNSLX w t y x xw b alpha = some f) :
    f.b = b ∧ f.alpha = alpha ∧
    (∀ r, f.predy r = ∑ j, x r j * b j + ∑ i, kernLag (t i) (alpha i) (w i) (fun j => xw j i) r) ∧
    (∀ r, f.u r = y r - f.predy r) ∧ f.utu = ∑ r, f.u r ^ 2 ∧ f.sig2 = f.utu / Fintype.card n := by
  simp only [baseNSLX, nslxobj, Option.bind_eq_some_iff, Option.map_eq_some_iff] at hf
  obtain ⟨_, ⟨wx, hwx, rfl⟩, wx', hwx', rfl⟩ := hf
  rw [hwx] at hwx'
  obtain rfl := Option.some.inj hwx'
  refine ⟨rfl, rfl, fun r => ?_, fun r => rfl, ?_, rfl⟩
  · simp only [Pi.add_apply, mulVec, dotProduct, rowSum, nlmod_entry hwx]
  · simp only [dotProduct, pow_two, Pi.sub_apply, Pi.add_apply]
    exact Finset.sum_congr rfl fun r _ => by ring

/-- C109: a minimiser of the criterion given to the optimiser is a nonlinear least squares estimate. -/
theorem C109_least_squares {w : h → Sparse n} {t : h → Transform} {y : n → ℝ} {x : Matrix n k ℝ} {xw : Matrix n h ℝ} {b : k → ℝ}
    {alpha : h → ℝ} {f : Fit n k h} (hf : baseNSLX w t y x xw b alpha = some f)
    (hmin : ∀ b' alpha' s s', nslxobj w t y x xw b alpha = some s → nslxobj w t y x xw b' alpha' = some s' → s ≤ s')
    (b' : k → ℝ) (alpha' : h → ℝ) (hpos : ∀ i, 0 ≤ alpha' i) (hw : ∀ i r j v, w i r j = some v → 0 ≤ v) :
    f.utu ≤ ∑ r, (y r - (∑ j, x r j * b' j + ∑ i, kernLag (t i) (alpha' i) (w i) (fun j => xw j i) r)) ^ 2 := by
  have hd : ∃ wx, nlmod entry w t xw alpha' = some wx := by
    refine nlmod_of xw fun i r j v hv => ?_
    unfold entry
    cases t i with
    | exponential => rfl
    | power =>
      dsimp only
      rw [if_pos]
      · rfl
      · rcases (hw i r j v hv).eq_or_lt with h0 | h0
        · exact Or.inr ⟨h0.symm, hpos i⟩
        · exact Or.inl h0
  obtain ⟨wx, hwx⟩ := hd
  have h0 : nslxobj w t y x xw b alpha = some f.utu := by
    simp only [baseNSLX, Option.bind_eq_some_iff, Option.map_eq_some_iff] at hf
    obtain ⟨s, hs, wx', -, rfl⟩ := hf
    exact hs
  have h2 : nslxobj w t y x xw b' alpha' = some (∑ r, (y r - (∑ j, x r j * b' j + ∑ i, kernLag (t i) (alpha' i) (w i) (fun j => xw j i) r)) ^ 2) := by
    simp only [nslxobj, hwx, Option.map_some, Option.some.injEq]
    simp only [dotProduct, pow_two, Pi.sub_apply, mulVec, rowSum, nlmod_entry hwx]
    exact Finset.sum_congr rfl fun r _ => by ring
  exact hmin b' alpha' _ _ h0 h2

/-! ### Gradient -/

theorem hasDerivAt_kern_power {v : ℝ} (hv : 0 < v) (a : ℝ) : HasDerivAt (fun a => kern .power a v) (v ^ a * Real.log v) a := by
  have := (hasDerivAt_id a).const_rpow hv
  simpa [kern, mul_comm] using this

theorem hasDerivAt_kern_exp (v a : ℝ) : HasDerivAt (fun a => kern .exponential a v) (-v * Real.exp (-a * v)) a := by
  have h1 : HasDerivAt (fun a : ℝ => -a * v) (-v) a := by
    simpa using ((hasDerivAt_id a).neg.mul_const v)
  exact h1.exp.congr_deriv (by ring)

/-- C110, partial: for the power kernel and positive stored weights the gradient exists and entry `(r, i)` is the derivative of the
fitted value at `r` with respect to parameter `i`. Missing: weights that are 0, `C110_power_nan_violated`, and the exponential
kernel, `C110_exponential_violated`. -/
theorem C110_power_partial (w : h → Sparse n) (t : h → Transform) (xw : Matrix n h ℝ) (alpha : h → ℝ) (ht : ∀ i, t i = .power)
    (hw : ∀ i r j v, w i r j = some v → 0 < v) :
    ∃ wax, nlmod gradEntry w t xw alpha = some wax ∧
      ∀ r i, HasDerivAt (fun a => kernLag (t i) a (w i) (fun j => xw j i) r) (wax r i) (alpha i) := by
  obtain ⟨wax, hx⟩ := nlmod_of (f := gradEntry) (w := w) (t := t) xw (alpha := alpha) fun i r j v hv => by
    rw [ht i]
    simp only [gradEntry, if_pos (hw i r j v hv), Option.isSome_some]
  refine ⟨wax, hx, fun r i => ?_⟩
  rw [(nlmod_some hx).2, ht i]
  unfold kernLag
  refine HasDerivAt.fun_sum fun j _ => ?_
  cases hv : w i r j with
  | none => simpa using hasDerivAt_const (alpha i) (0 : ℝ)
  | some v =>
    simp only [Option.bind_some, gradEntry, if_pos (hw i r j v hv), Option.getD_some]
    exact (hasDerivAt_kern_power (hw i r j v hv) (alpha i)).mul_const (xw j i)

/-- C110 fails for the exponential kernel (the default): the gradient used for the variances is the derivative times
`log(alpha d)`, so the two agree for a neighbour at scaled distance `d` only if `alpha d = e`. -/
theorem C110_exponential_violated (a d : ℝ) (ha : 0 < a) (hd : 0 < d) :
    ∃ g, gradEntry .exponential a d = some g ∧ g = Real.log (a * d) * deriv (fun a => kern .exponential a d) a ∧
      (g = deriv (fun a => kern .exponential a d) a ↔ a * d = Real.exp 1) := by
  have hp : 0 < d * a := mul_pos hd ha
  have hD := (hasDerivAt_kern_exp d a).deriv
  have hne : -d * Real.exp (-a * d) ≠ 0 := mul_ne_zero (neg_ne_zero.2 hd.ne') (Real.exp_pos _).ne'
  refine ⟨-(Real.exp (-(d * a)) * (Real.log (d * a) * d)), by simp only [gradEntry, if_pos hp], ?_, ?_⟩
  · rw [hD, mul_comm d a, show -(a * d) = -a * d by ring]; ring
  · have e : -(Real.exp (-(d * a)) * (Real.log (d * a) * d)) = Real.log (a * d) * (-d * Real.exp (-a * d)) := by
      rw [mul_comm d a, show -(a * d) = -a * d by ring]; ring
    rw [hD, e]
    constructor
    · intro h1
      have h2 : Real.log (a * d) = 1 := by
        have := mul_right_cancel₀ hne (h1.trans (one_mul _).symm)
        exact this
      rw [← h2, Real.exp_log (mul_pos ha hd)]
    · intro h1
      rw [h1, Real.log_exp, one_mul]

/-- C110 fails where one nearest neighbour is used: all scaled distances are 1, and at the starting value `alpha = 1` of the optimiser
the gradient is 0, although the derivative is `-exp(-1)` times the neighbour's value; the variance matrix then cannot be
computed, whatever the data. -/
theorem C110_exponential_one_neighbour_violated [Nonempty h] (w : h → Sparse n) (t : h → Transform) (x : Matrix n k ℝ) (xw : Matrix n h ℝ)
    (s : ℝ) (ht : ∀ i, t i = .exponential) (hw : ∀ i r j v, w i r j = some v → v = 1) :
    nlmod gradEntry w t xw (fun _ => 1) = some 0 ∧ analyticVm w t x xw (fun _ => 1) s = none := by
  have hg : ∀ i, gradEntry (t i) 1 1 = some 0 := by intro i; rw [ht i]; simp [gradEntry]
  obtain ⟨wax, hx⟩ := nlmod_of (f := gradEntry) (w := w) (t := t) xw (alpha := fun _ => 1) fun i r j v hv => by
    rw [hw i r j v hv, hg]; rfl
  have h0 : wax = 0 := by
    ext r i
    rw [(nlmod_some hx).2, Matrix.zero_apply]
    refine Finset.sum_eq_zero fun j _ => ?_
    cases hv : w i r j with
    | none => simp
    | some v => rw [hw i r j v hv, Option.bind_some, hg]; simp
  rw [h0] at hx
  refine ⟨hx, ?_⟩
  unfold analyticVm
  rw [hx]
  have hz : inv? ((0 : Matrix n h ℝ)ᵀ * (0 : Matrix n h ℝ)) = none := by
    rw [Matrix.mul_zero]
    cases hi : inv? (0 : Matrix h h ℝ) with
    | none => rfl
    | some B =>
      obtain ⟨-, -, h1, -⟩ := inv?_eq_some hi
      rw [Matrix.zero_mul] at h1
      obtain ⟨i⟩ := ‹Nonempty h›
      have := congrFun (congrFun h1 i) i
      simp at this
  cases inv? (xᵀ * x) with
  | none => rfl
  | some xi => simp only [Option.bind_some, hz, Option.map_none]

/-- C110 fails for the power kernel as soon as one stored weight is 0 (which `make_wnslx` always stores, `C113_farthest_violated`):
the gradient contains NaN and there is no variance matrix, whatever the data and estimates. -/
theorem C110_power_nan_violated (w : h → Sparse n) (t : h → Transform) (x : Matrix n k ℝ) (xw : Matrix n h ℝ) (alpha : h → ℝ)
    (s : ℝ) (i : h) (r j : n) (ht : t i = .power) (hw : w i r j = some 0) : analyticVm w t x xw alpha s = none := by
  have hx : nlmod gradEntry w t xw alpha = none := nlmod_none xw hw (by rw [ht]; simp [gradEntry])
  unfold analyticVm
  rw [hx]
  cases inv? (xᵀ * x) <;> rfl

/-! ### Variance matrix -/

/-- Jacobian of the fitted values in `(b, alpha)` (specification): the regressors and the derivatives of the lags. -/
def jac (x : Matrix n k ℝ) (wax : Matrix n h ℝ) : Matrix n (k ⊕ h) ℝ := fromCols x wax

theorem jac_gram (x : Matrix n k ℝ) (wax : Matrix n h ℝ) :
    (jac x wax)ᵀ * jac x wax = fromBlocks (xᵀ * x) (xᵀ * wax) (waxᵀ * x) (waxᵀ * wax) := by
  rw [jac, transpose_fromCols, fromRows_mul_fromCols]

/-- `v'M^-1 v >= 2 v'z - z'Mz` for a positive semidefinite invertible matrix. -/
theorem inv_quad_ge {ι : Type} [Fintype ι] [DecidableEq ι] (J : Matrix n ι ℝ) (hJ : IsUnit (Jᵀ * J).det) (v z : ι → ℝ) :
    2 * (v ⬝ᵥ z) - z ⬝ᵥ ((Jᵀ * J) *ᵥ z) ≤ v ⬝ᵥ ((Jᵀ * J)⁻¹ *ᵥ v) := by
  set M := Jᵀ * J with hM
  have hMs : Mᵀ = M := by rw [hM]; simp
  have hMis : (M⁻¹)ᵀ = M⁻¹ := by rw [transpose_nonsing_inv, hMs]
  have h0 : 0 ≤ (M⁻¹ *ᵥ v - z) ⬝ᵥ (M *ᵥ (M⁻¹ *ᵥ v - z)) := by
    have : (M⁻¹ *ᵥ v - z) ⬝ᵥ (M *ᵥ (M⁻¹ *ᵥ v - z)) = utu (J *ᵥ (M⁻¹ *ᵥ v - z)) := by
      rw [hM, ← mulVec_mulVec, dotProduct_mulVec, vecMul_transpose, ← utu_eq_dot]
    rw [this]
    exact utu_nonneg _
  have h1 : M *ᵥ (M⁻¹ *ᵥ v) = v := by rw [mulVec_mulVec, mul_nonsing_inv _ hJ, one_mulVec]
  rw [mulVec_sub, h1, sub_dotProduct, dotProduct_sub, dotProduct_sub] at h0
  have h2 : (M⁻¹ *ᵥ v) ⬝ᵥ (M *ᵥ z) = z ⬝ᵥ v := by
    rw [dotProduct_comm, ← vecMul_transpose, hMs, ← dotProduct_mulVec, h1]
  have h3 : (M⁻¹ *ᵥ v) ⬝ᵥ v = v ⬝ᵥ (M⁻¹ *ᵥ v) := dotProduct_comm _ _
  rw [h2, h3, dotProduct_comm z v] at h0
  linarith

/-- C111: with the gradient `wax` the reported variance matrix is the one of nonlinear least squares, `sig2 (J'J)^-1` with
`J = [X, wax]`, exactly when the regressors are orthogonal to the gradient, since the cross products are left out. In all cases the
reported variances are at most the right ones. -/
theorem C111_vm_partial {w : h → Sparse n} {t : h → Transform} {x : Matrix n k ℝ} {xw : Matrix n h ℝ} {alpha : h → ℝ} {s : ℝ}
    {V : Matrix (k ⊕ h) (k ⊕ h) ℝ} {wax : Matrix n h ℝ} (hV : analyticVm w t x xw alpha s = some V)
    (hx : nlmod gradEntry w t xw alpha = some wax) (hs : 0 < s) (hJ : IsUnit ((jac x wax)ᵀ * jac x wax).det) :
    (V = s • ((jac x wax)ᵀ * jac x wax)⁻¹ ↔ xᵀ * wax = 0) ∧
    ∀ j, V j j ≤ (s • ((jac x wax)ᵀ * jac x wax)⁻¹) j j := by
  simp only [analyticVm, hx, Option.bind_eq_some_iff, Option.bind_some, Option.map_eq_some_iff] at hV
  obtain ⟨xi, hxi, wi, hwi, rfl⟩ := hV
  obtain ⟨hxu, hxi', hx1, hx2⟩ := inv?_eq_some hxi
  obtain ⟨hwu, hwi', hw1, hw2⟩ := inv?_eq_some hwi
  have hsu : IsUnit s := isUnit_iff_ne_zero.2 hs.ne'
  constructor
  · constructor
    · intro h1
      have h2 : fromBlocks xi 0 0 wi = ((jac x wax)ᵀ * jac x wax)⁻¹ := by
        have := congrArg (fun A => s⁻¹ • A) h1
        simpa [smul_smul, inv_mul_cancel₀ hs.ne'] using this
      have h3 : ((jac x wax)ᵀ * jac x wax) * fromBlocks xi 0 0 wi = 1 := by rw [h2, mul_nonsing_inv _ hJ]
      rw [jac_gram, fromBlocks_multiply, ← fromBlocks_one, fromBlocks_inj] at h3
      have h4 : xᵀ * wax * wi = 0 := by simpa using h3.2.1
      have h5 := congrArg (· * (waxᵀ * wax)) h4
      simpa [Matrix.mul_assoc _ wi, hw2] using h5
    · intro h1
      congr 1
      symm
      apply Matrix.inv_eq_right_inv
      have h2 : waxᵀ * x = 0 := by
        have := congrArg transpose h1
        simpa using this
      rw [jac_gram, h1, h2, fromBlocks_multiply, ← fromBlocks_one]
      simp [hx1, hw1]
  · intro j
    rw [Matrix.smul_apply, Matrix.smul_apply, smul_eq_mul, smul_eq_mul]
    refine mul_le_mul_of_nonneg_left ?_ hs.le
    cases j with
    | inl j =>
      have := inv_quad_ge (jac x wax) hJ (Sum.elim (Pi.single j 1) 0) (Sum.elim (xi *ᵥ Pi.single j 1) 0)
      rw [jac_gram, fromBlocks_mulVec] at this
      simp only [Sum.elim_comp_inl, Sum.elim_comp_inr, mulVec_zero, add_zero, mulVec_mulVec, hx1, one_mulVec] at this
      rw [sumElim_dotProduct_sumElim, sumElim_dotProduct_sumElim, ← jac_gram] at this
      have e : Sum.elim (Pi.single j 1) (0 : h → ℝ) = (Pi.single (Sum.inl j) 1 : k ⊕ h → ℝ) := by
        funext i; rcases i with i | i <;> simp [Pi.single_apply]
      rw [e] at this
      simp at this
      simp
      linarith
    | inr j =>
      have := inv_quad_ge (jac x wax) hJ (Sum.elim 0 (Pi.single j 1)) (Sum.elim 0 (wi *ᵥ Pi.single j 1))
      rw [jac_gram, fromBlocks_mulVec] at this
      simp only [Sum.elim_comp_inl, Sum.elim_comp_inr, mulVec_zero, zero_add, mulVec_mulVec, hw1, one_mulVec] at this
      rw [sumElim_dotProduct_sumElim, sumElim_dotProduct_sumElim, ← jac_gram] at this
      have e : Sum.elim (0 : k → ℝ) (Pi.single j 1) = (Pi.single (Sum.inr j) 1 : k ⊕ h → ℝ) := by
        funext i; rcases i with i | i <;> simp [Pi.single_apply]
      rw [e] at this
      simp at this
      simp
      linarith

theorem inv_quad_gt {ι : Type} [Fintype ι] [DecidableEq ι] (J : Matrix n ι ℝ) (hJ : IsUnit (Jᵀ * J).det) (v z : ι → ℝ)
    (hne : (Jᵀ * J) *ᵥ z ≠ v) : 2 * (v ⬝ᵥ z) - z ⬝ᵥ ((Jᵀ * J) *ᵥ z) < v ⬝ᵥ ((Jᵀ * J)⁻¹ *ᵥ v) := by
  set M := Jᵀ * J with hM
  have hMs : Mᵀ = M := by rw [hM]; simp
  have h1 : M *ᵥ (M⁻¹ *ᵥ v) = v := by rw [mulVec_mulVec, mul_nonsing_inv _ hJ, one_mulVec]
  have h0 : 0 < (M⁻¹ *ᵥ v - z) ⬝ᵥ (M *ᵥ (M⁻¹ *ᵥ v - z)) := by
    have : (M⁻¹ *ᵥ v - z) ⬝ᵥ (M *ᵥ (M⁻¹ *ᵥ v - z)) = utu (J *ᵥ (M⁻¹ *ᵥ v - z)) := by
      rw [hM, ← mulVec_mulVec, dotProduct_mulVec, vecMul_transpose, ← utu_eq_dot]
    rw [this]
    refine lt_of_le_of_ne (utu_nonneg _) fun e => hne ?_
    have e2 := (utu_eq_zero _).1 e.symm
    have e3 : M *ᵥ (M⁻¹ *ᵥ v - z) = 0 := by rw [hM, ← mulVec_mulVec, e2, mulVec_zero]
    rw [mulVec_sub, h1] at e3
    exact (sub_eq_zero.1 e3).symm
  rw [mulVec_sub, h1, sub_dotProduct, dotProduct_sub, dotProduct_sub] at h0
  have h2 : (M⁻¹ *ᵥ v) ⬝ᵥ (M *ᵥ z) = z ⬝ᵥ v := by
    rw [dotProduct_comm, ← vecMul_transpose, hMs, ← dotProduct_mulVec, h1]
  have h3 : (M⁻¹ *ᵥ v) ⬝ᵥ v = v ⬝ᵥ (M⁻¹ *ᵥ v) := dotProduct_comm _ _
  rw [h2, h3, dotProduct_comm z v] at h0
  linarith

/-- C111 fails: unless the regressors are orthogonal to the gradient, the reported variance of at least one regression coefficient is
strictly smaller than that of nonlinear least squares. -/
theorem C111_understated_violated {w : h → Sparse n} {t : h → Transform} {x : Matrix n k ℝ} {xw : Matrix n h ℝ} {alpha : h → ℝ} {s : ℝ}
    {V : Matrix (k ⊕ h) (k ⊕ h) ℝ} {wax : Matrix n h ℝ} (hV : analyticVm w t x xw alpha s = some V)
    (hx : nlmod gradEntry w t xw alpha = some wax) (hs : 0 < s) (hJ : IsUnit ((jac x wax)ᵀ * jac x wax).det) (h0 : xᵀ * wax ≠ 0) :
    ∃ j : k, V (.inl j) (.inl j) < (s • ((jac x wax)ᵀ * jac x wax)⁻¹) (.inl j) (.inl j) := by
  simp only [analyticVm, hx, Option.bind_eq_some_iff, Option.bind_some, Option.map_eq_some_iff] at hV
  obtain ⟨xi, hxi, wi, hwi, rfl⟩ := hV
  obtain ⟨hxu, hxi', hx1, hx2⟩ := inv?_eq_some hxi
  by_contra hcon
  push Not at hcon
  have key : ∀ j : k, (waxᵀ * x) *ᵥ (xi *ᵥ Pi.single j 1) = 0 := by
    intro j
    by_contra hj
    have hlt := inv_quad_gt (jac x wax) hJ (Sum.elim (Pi.single j 1) 0) (Sum.elim (xi *ᵥ Pi.single j 1) 0) (by
      rw [jac_gram, fromBlocks_mulVec]
      intro e
      apply hj
      funext i
      have := congrFun e (.inr i)
      simpa using this)
    rw [jac_gram, fromBlocks_mulVec] at hlt
    simp only [Sum.elim_comp_inl, Sum.elim_comp_inr, mulVec_zero, add_zero, mulVec_mulVec, hx1, one_mulVec] at hlt
    rw [sumElim_dotProduct_sumElim, sumElim_dotProduct_sumElim, ← jac_gram] at hlt
    have e : Sum.elim (Pi.single j 1) (0 : h → ℝ) = (Pi.single (Sum.inl j) 1 : k ⊕ h → ℝ) := by
      funext i; rcases i with i | i <;> simp [Pi.single_apply]
    rw [e] at hlt
    have h2 := hcon j
    rw [Matrix.smul_apply, Matrix.smul_apply, smul_eq_mul, smul_eq_mul] at h2
    have h3 := le_of_mul_le_mul_left h2 hs
    simp at hlt
    simp at h3
    linarith
  apply h0
  have h1 : waxᵀ * x * xi = 0 := by
    ext i j
    have := congrFun (key j) i
    rw [mulVec_mulVec] at this
    simpa using this
  have h2 := congrArg (· * (xᵀ * x)) h1
  simp only [Matrix.mul_assoc _ xi, hx2, Matrix.mul_one, Matrix.zero_mul] at h2
  have h3 := congrArg transpose h2
  simpa using h3

/-! ### Example -/

/-- Two units that are neighbours at scaled distance 1; power kernel with weight 2 (positive weights). -/
noncomputable def exW (v : ℝ) : Sparse (Fin 2) := fun i j => if i = j then none else some v

theorem exGrad (v a : ℝ) (hv : 0 < v) (x : Fin 2 → ℝ) :
    nlmod gradEntry (fun _ : Unit => exW v) (fun _ => .power) (Matrix.of fun r _ => x r) (fun _ => a) =
      some (Matrix.of fun r _ => v ^ a * Real.log v * x (1 - r)) := by
  obtain ⟨wax, hx⟩ := nlmod_of (f := gradEntry) (w := fun _ : Unit => exW v) (t := fun _ => .power) (Matrix.of fun r _ => x r) (alpha := fun _ => a)
    fun i r j u hu => by
      unfold exW at hu
      split_ifs at hu
      rw [← Option.some.inj hu]
      simp [gradEntry, hv]
  rw [hx]
  congr 1
  ext r i
  rw [(nlmod_some hx).2]
  fin_cases r <;> simp [exW, gradEntry, hv, Fin.sum_univ_two]

/-- The hypotheses of `C111_vm_partial` and `C111_understated_violated` are met: a constant and the lag of `(1, 2)`. -/
example : ∃ V wax, analyticVm (fun _ : Unit => exW 2) (fun _ => .power) (Matrix.of fun _ _ => 1 : Matrix (Fin 2) Unit ℝ)
      (Matrix.of fun r _ => ![1, 2] r) (fun _ => 1) 1 = some V ∧
    nlmod gradEntry (fun _ : Unit => exW 2) (fun _ => .power) (Matrix.of fun r _ => ![1, 2] r) (fun _ => 1) = some wax ∧
    IsUnit ((jac (Matrix.of fun _ _ => 1 : Matrix (Fin 2) Unit ℝ) wax)ᵀ * jac (Matrix.of fun _ _ => 1 : Matrix (Fin 2) Unit ℝ) wax).det ∧
    (Matrix.of fun _ _ => 1 : Matrix (Fin 2) Unit ℝ)ᵀ * wax ≠ 0 := by
  have hg := exGrad 2 1 (by norm_num) ![1, 2]
  have hl : (0 : ℝ) < Real.log 2 := Real.log_pos (by norm_num)
  obtain ⟨c, hc, hc0⟩ : ∃ c : ℝ, (2 : ℝ) ^ (1 : ℝ) * Real.log 2 = c ∧ 0 < c := ⟨_, rfl, by positivity⟩
  rw [hc] at hg
  set wax : Matrix (Fin 2) Unit ℝ := Matrix.of fun r _ => c * ![1, 2] (1 - r) with hwax
  have h1 : IsUnit ((Matrix.of fun _ _ => 1 : Matrix (Fin 2) Unit ℝ)ᵀ * (Matrix.of fun _ _ => 1 : Matrix (Fin 2) Unit ℝ)).det := by
    rw [det_unique, isUnit_iff_ne_zero]
    simp [Matrix.mul_apply]
  have h2 : IsUnit (waxᵀ * wax).det := by
    rw [det_unique, isUnit_iff_ne_zero]
    simp [Matrix.mul_apply, wax, Fin.sum_univ_two]
    nlinarith [mul_pos hc0 hc0]
  refine ⟨_, wax, by
    unfold analyticVm
    rw [inv?_of_isUnit h1, Option.bind_some, hg, Option.bind_some, inv?_of_isUnit h2, Option.map_some], hg, ?_, ?_⟩
  · rw [xtx_isUnit_iff]
    intro v hv
    have e0 := congrFun hv 0
    have e1 := congrFun hv 1
    simp [jac, mulVec, dotProduct, Fintype.sum_sum_type, wax] at e0 e1
    have e2 : c * v (.inr ()) = 0 := by linarith
    have e3 : v (.inr ()) = 0 := by
      rcases mul_eq_zero.1 e2 with h | h
      · linarith
      · exact h
    funext j
    rcases j with j | j
    · rw [e3] at e0; simpa using e0
    · exact e3
  · intro h0
    have := congrFun (congrFun h0 ()) ()
    simp [Matrix.mul_apply, wax, Fin.sum_univ_two] at this
    linarith

end Spreg.NSLX
