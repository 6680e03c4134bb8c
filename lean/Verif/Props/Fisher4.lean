import Verif.Props.Fisher2
import Verif.Props.PanelML6
import Verif.Props.PanelMLEx
/-
C127: the information matrices of the fixed effects panel models are what the Fisher information of the model with individual
effects leaves for the reported parameters.
-/
namespace Spreg.PanelML
open Matrix Spreg.Lin Spreg.ML Spreg.Gauss
open scoped Kronecker

variable {τ n k : Type} [Fintype τ] [Fintype n] [Fintype k] [DecidableEq τ] [DecidableEq n] [DecidableEq k]

theorem one_bigW : (1 : Matrix (τ × n) (τ × n) ℝ) = bigW τ 1 := by unfold bigW; rw [one_kronecker_one]

theorem filt_bigW (W : Matrix n n ℝ) (rho : ℝ) : 1 - rho • bigW τ W = bigW τ (1 - rho • W) := by
  rw [one_bigW]
  ext a b
  simp only [bigW, Matrix.sub_apply, Matrix.smul_apply, kroneckerMap_apply, smul_eq_mul]
  ring

theorem bigW_unit (A : Matrix n n ℝ) (g : n → ℝ) :
    bigW τ A *ᵥ (fun a => g a.2) = fun a : τ × n => (A *ᵥ g) a.2 := by
  funext a
  simp only [bigW, mulVec, dotProduct, kroneckerMap_apply, Fintype.sum_prod_type, one_apply]
  rw [Finset.sum_eq_single a.1]
  · simp
  · intro s _ hs
    simp [hs.symm]
  · simp

/-- Least squares on unit effects: the least length of `z + D g` is that of the demeaned `z`. -/
theorem demean_least [Nonempty τ] (z : τ × n → ℝ) (h : (n → ℝ) → (n → ℝ)) (hh : Function.Surjective h) :
    IsLeast (Set.range fun g => (z + fun a : τ × n => h g a.2) ⬝ᵥ (z + fun a : τ × n => h g a.2))
      ((quasi τ n 0 *ᵥ z) ⬝ᵥ (quasi τ n 0 *ᵥ z)) := by
  constructor
  · obtain ⟨g, hg⟩ := hh fun i => -((∑ s, z (s, i)) / Fintype.card τ)
    refine ⟨g, ?_⟩
    have : (z + fun a : τ × n => h g a.2) = quasi τ n 0 *ᵥ z := by
      funext a
      rw [quasi0_apply, hg]
      simp only [Pi.add_apply]
      ring
    dsimp only
    rw [this]
  · rintro _ ⟨g, rfl⟩
    have h1 := utu_quasi0_le (z + fun a : τ × n => h g a.2)
    rw [mulVec_add, quasi0_unit, add_zero, utu_eq_dot, utu_eq_dot] at h1
    exact h1

theorem isLeast_affine {S : Set ℝ} {m : ℝ} (h : IsLeast S m) (c d : ℝ) (hc : 0 < c) :
    IsLeast ((fun s => s / c + d) '' S) (m / c + d) := by
  refine ⟨⟨m, h.1, rfl⟩, ?_⟩
  rintro _ ⟨s, hs, rfl⟩
  have := h.2 hs
  have := (div_le_div_iff_of_pos_right hc).2 this
  simpa using this

/-- C127 for ML_LagFE. The model is `y = rho W y + x b + mu + v`, with an effect `mu_i` of each unit. In every direction
`(db, dr, ds)` of the reported parameters, the quadratic form of the code's information matrix is the least Fisher
information over the directions `g` of the individual effects: the information that remains when the effects are unknown. Its
inverse is the reported covariance matrix. -/
theorem C127_lagFE [Nonempty τ] (x : Matrix (τ × n) k ℝ) (W ai : Matrix n n ℝ) (hW : ∀ i, W i i = 0) (b : k → ℝ) (mu : n → ℝ)
    (rho sig2 : ℝ) (hs : 0 < sig2) (hai : inv? (filledA W rho) = some ai) (db : k → ℝ) (dr ds : ℝ)
    (P : Dist (sarCov (panelW τ W) (rho + 0 * dr) (sig2 + 0 * ds))) :
    let v : k ⊕ (Unit ⊕ Unit) → ℝ := Sum.elim db (Sum.elim (fun _ => dr) fun _ => ds)
    IsLeast (Set.range fun g : n → ℝ => fisherInfo
        (fun s => (1 - (rho + s * dr) • panelW τ W)⁻¹ *ᵥ (x *ᵥ (b + s • db) + fun a => mu a.2 + s * g a.2))
        (fun s => sarCov (panelW τ W) (rho + s * dr) (sig2 + s * ds)) P)
      (v ⬝ᵥ (lagFEInfo x (W * ai) b sig2 *ᵥ v)) := by
  intro v
  revert P
  rw [← bigW_spec]
  intro P
  rw [filledA_eq W hW] at hai
  obtain ⟨hA0, rfl, hr0, hl0⟩ := inv?_eq_some hai
  have hA : IsUnit (1 - rho • bigW τ W).det := by rw [filt_bigW, det_bigW]; exact hA0.pow _
  have hinv : (1 - rho • bigW τ W)⁻¹ = bigW τ (1 - rho • W)⁻¹ := by
    apply Matrix.inv_eq_right_inv
    rw [filt_bigW, bigW_mul, hr0, ← one_bigW]
  set G := W * (1 - rho • W)⁻¹ with hG
  have hGb : bigW τ W * (1 - rho • bigW τ W)⁻¹ = bigW τ G := by rw [hinv, bigW_mul]
  set z : τ × n → ℝ := x *ᵥ db + dr • (bigW τ G *ᵥ (x *ᵥ b)) with hz
  have hfi : ∀ g : n → ℝ, fisherInfo
        (fun s => (1 - (rho + s * dr) • bigW τ W)⁻¹ *ᵥ (x *ᵥ (b + s • db) + fun a => mu a.2 + s * g a.2))
        (fun s => sarCov (bigW τ W) (rho + s * dr) (sig2 + s * ds)) P =
      ((z + fun a : τ × n => (g + dr • (G *ᵥ mu)) a.2) ⬝ᵥ (z + fun a : τ × n => (g + dr • (G *ᵥ mu)) a.2)) / sig2 +
      (dr ^ 2 * (Fintype.card τ * (G * G).trace + Fintype.card τ * (Gᵀ * G).trace)
        + 2 * dr * (ds / sig2) * (Fintype.card τ * G.trace) + (ds / sig2) ^ 2 * (Fintype.card (τ × n) / 2)) := by
    intro g
    have hF := filt_inv_line (bigW τ W) rho dr hA
    have hx := VD2.mulVec (MD2.const x) (VD2.line b db)
    have hmu : VD2 (fun s : ℝ => x *ᵥ (b + s • db) + fun a : τ × n => mu a.2 + s * g a.2)
        (x *ᵥ db + fun a : τ × n => g a.2) := by
      have e : (fun s : ℝ => x *ᵥ (b + s • db) + fun a : τ × n => mu a.2 + s * g a.2) =
          fun s : ℝ => (x *ᵥ b + fun a : τ × n => mu a.2) + s • (x *ᵥ db + fun a : τ × n => g a.2) := by
        funext s
        rw [mulVec_add, mulVec_smul]
        funext a
        simp only [Pi.add_apply, Pi.smul_apply, smul_eq_mul]
        ring
      rw [e]
      exact VD2.line _ _
    have hm : VD2 (fun s => (1 - (rho + s * dr) • bigW τ W)⁻¹ *ᵥ (x *ᵥ (b + s • db) + fun a : τ × n => mu a.2 + s * g a.2))
        ((1 - rho • bigW τ W)⁻¹ *ᵥ (z + fun a : τ × n => (g + dr • (G *ᵥ mu)) a.2)) := by
      obtain ⟨m', m'', h1, h2, h3⟩ := VD2.mulVec hF hmu
      refine ⟨m', m'', h1, h2, h3.trans ?_⟩
      have e0 : (fun a : τ × n => mu a.2 + 0 * g a.2) = fun a => mu a.2 := by funext a; ring
      have e1 : (z + fun a : τ × n => (g + dr • (G *ᵥ mu)) a.2) =
          (x *ᵥ db + fun a : τ × n => g a.2) + dr • (bigW τ G *ᵥ (x *ᵥ b + fun a : τ × n => mu a.2)) := by
        rw [mulVec_add, bigW_unit, hz]
        funext a
        simp only [Pi.add_apply, Pi.smul_apply, smul_eq_mul]
        ring
      rw [e0, e1]
      simp only [zero_mul, add_zero, zero_smul]
      rw [← hGb, mulVec_add _ (x *ᵥ db + _), mulVec_smul, mulVec_mulVec _ (1 - rho • bigW τ W)⁻¹, smul_mulVec,
        ← Matrix.mul_assoc, add_comm]
    have hC := sarCov_deriv (bigW τ W) rho sig2 dr ds hA
    have h0 : sarCov (bigW τ W) (rho + 0 * dr) (sig2 + 0 * ds) = sarCov (bigW τ W) rho sig2 := by
      rw [zero_mul, zero_mul, add_zero, add_zero]
    have hfi := fisher P hm hC (by rw [h0]; exact sarCov_det _ rho sig2 hs.ne' hA)
    rw [hfi, h0, sarCov_trace _ rho sig2 dr ds hs.ne' hA _ rfl, sarCov_inv _ rho sig2 _ hs.ne' hA, mulVec_mulVec,
      mul_nonsing_inv _ hA, one_mulVec, hGb, bigW_transpose, bigW_mul, bigW_mul, bigW_trace, bigW_trace, bigW_trace]
  have hq : v ⬝ᵥ (lagFEInfo x G b sig2 *ᵥ v) = ((quasi τ n 0 *ᵥ z) ⬝ᵥ (quasi τ n 0 *ᵥ z)) / sig2 +
      (dr ^ 2 * (Fintype.card τ * (G * G).trace + Fintype.card τ * (Gᵀ * G).trace)
        + 2 * dr * (ds / sig2) * (Fintype.card τ * G.trace) + (ds / sig2) ^ 2 * (Fintype.card (τ × n) / 2)) := by
    rw [hG, lagFEInfo_eq, ← quad_eq, lagInfo_quad _ _ sig2 hs.ne' _ _ _ v db dr ds rfl rfl rfl, ← hG]
    have : (quasi τ n 0 * x) *ᵥ db + dr • (bigW τ G *ᵥ ((quasi τ n 0 * x) *ᵥ b)) = quasi τ n 0 *ᵥ z := by
      rw [hz, mulVec_add, mulVec_smul, mulVec_mulVec, mulVec_mulVec, mulVec_mulVec, mulVec_mulVec, quasi_comm,
        Matrix.mul_assoc]
    rw [this]
  rw [hq]
  have hl := isLeast_affine (demean_least z (fun g => g + dr • (G *ᵥ mu)) (add_right_surjective _)) sig2
    (dr ^ 2 * (Fintype.card τ * (G * G).trace + Fintype.card τ * (Gᵀ * G).trace)
        + 2 * dr * (ds / sig2) * (Fintype.card τ * G.trace) + (ds / sig2) ^ 2 * (Fintype.card (τ × n) / 2)) hs
  rw [← Set.range_comp] at hl
  convert hl using 2
  funext g
  exact hfi g

/-- C127 for ML_ErrorFE. The model is `y = x b + mu + u`, `u = lam W u + v`. The reported covariance matrix of the
coefficients and lambda is the corner of the inverse of a matrix whose quadratic form, in every direction `(db, dl, ds)`, is the
least Fisher information over the directions `g` of the individual effects. -/
theorem C127_errFE [Nonempty τ] [Nonempty n] (y : τ × n → ℝ) (x : Matrix (τ × n) k ℝ) (W : Matrix n n ℝ) (hW : ∀ i, W i i = 0)
    (lam : ℝ) (f : ErrFit τ n k) (h : errFE true y x W lam = some f) (h0 : f.eFiltered ≠ 0)
    (vm : Matrix (k ⊕ Unit) (k ⊕ Unit) ℝ) (hv : errFEVm W f = some vm) :
    ∃ I : Matrix (k ⊕ Fin 2) (k ⊕ Fin 2) ℝ, IsUnit I.det ∧
      vm = I⁻¹.submatrix (Sum.map id fun _ => 0) (Sum.map id fun _ => 0) ∧
      ∀ (mu : n → ℝ) (db : k → ℝ) (dl ds : ℝ) (P : Dist (sarCov (panelW τ W) (lam + 0 * dl) (f.sig2 + 0 * ds))),
        let v : k ⊕ Fin 2 → ℝ := Sum.elim db ![dl, ds]
        IsLeast (Set.range fun g : n → ℝ => fisherInfo
            (fun s => x *ᵥ (f.b + s • db) + fun a => mu a.2 + s * g a.2)
            (fun s => sarCov (panelW τ W) (lam + s * dl) (f.sig2 + s * ds)) P) (v ⬝ᵥ (I *ᵥ v)) := by
  rw [← bigW_spec]
  unfold errFE at h
  simp only [Option.map_eq_some_iff, if_true] at h
  obtain ⟨B, hB, hf⟩ := h
  obtain ⟨hu, rfl, -⟩ := inv?_eq_some hB
  have hlam : f.lam = lam := by rw [← hf]
  have hsf : f.sig2 = (f.eFiltered ⬝ᵥ f.eFiltered) / NT τ n := by rw [← hf]
  have hvb : f.varb = f.sig2 • ((quasi τ n 0 * x - lam • (bigW τ W * (quasi τ n 0 * x)))ᵀ *
        (quasi τ n 0 * x - lam • (bigW τ W * (quasi τ n 0 * x))))⁻¹ := by rw [← hf]
  have hs : 0 < f.sig2 := by
    rw [hsf, ← utu_eq_dot]
    have hpos : 0 < utu f.eFiltered := lt_of_le_of_ne (utu_nonneg _) fun e => h0 ((utu_eq_zero _).1 e.symm)
    refine div_pos hpos ?_
    rw [← card_prod]
    exact_mod_cast Fintype.card_pos
  unfold errFEVm at hv
  rw [hlam] at hv
  simp only [Option.bind_eq_some_iff] at hv
  obtain ⟨ai, hai, hv⟩ := hv
  have htr := traces_bigW (τ := τ) W ai lam hai
  rw [filledA_eq W hW] at hai
  obtain ⟨hA0, rfl, hr0, hl0⟩ := inv?_eq_some hai
  set xs := quasi τ n 0 * x - lam • (bigW τ W * (quasi τ n 0 * x)) with hxs
  set G := W * (1 - lam • W)⁻¹ with hG
  have hvm := C122_err_vm xs f.sig2 hs _ hu vm (by
    unfold errVm errInfo
    rw [← hvb, card_prod, ← mul_add]
    exact hv : errVm (Fintype.card (τ × n)) f.sig2 (xsᵀ * xs)⁻¹ (Fintype.card τ * G.trace, Fintype.card τ * (G * G).trace,
      Fintype.card τ * (Gᵀ * G).trace) = some vm)
  refine ⟨_, hvm.1, hvm.2, ?_⟩
  intro mu db dl ds P v
  have hA : IsUnit (1 - lam • bigW τ W).det := by rw [filt_bigW, det_bigW]; exact hA0.pow _
  have hinv : (1 - lam • bigW τ W)⁻¹ = bigW τ (1 - lam • W)⁻¹ := by
    apply Matrix.inv_eq_right_inv
    rw [filt_bigW, bigW_mul, hr0, ← one_bigW]
  have hGb : bigW τ W * (1 - lam • bigW τ W)⁻¹ = bigW τ G := by rw [hinv, bigW_mul]
  set c : ℝ := dl ^ 2 * (Fintype.card τ * (G * G).trace + Fintype.card τ * (Gᵀ * G).trace)
        + 2 * dl * (ds / f.sig2) * (Fintype.card τ * G.trace) + (ds / f.sig2) ^ 2 * (Fintype.card (τ × n) / 2) with hc
  set z : τ × n → ℝ := (1 - lam • bigW τ W) *ᵥ (x *ᵥ db) with hz
  have hfi : ∀ g : n → ℝ, fisherInfo (fun s => x *ᵥ (f.b + s • db) + fun a => mu a.2 + s * g a.2)
        (fun s => sarCov (bigW τ W) (lam + s * dl) (f.sig2 + s * ds)) P =
      ((z + fun a : τ × n => ((1 - lam • W) *ᵥ g) a.2) ⬝ᵥ (z + fun a : τ × n => ((1 - lam • W) *ᵥ g) a.2)) / f.sig2 + c := by
    intro g
    have hmu : VD2 (fun s : ℝ => x *ᵥ (f.b + s • db) + fun a : τ × n => mu a.2 + s * g a.2)
        (x *ᵥ db + fun a : τ × n => g a.2) := by
      have e : (fun s : ℝ => x *ᵥ (f.b + s • db) + fun a : τ × n => mu a.2 + s * g a.2) =
          fun s : ℝ => (x *ᵥ f.b + fun a : τ × n => mu a.2) + s • (x *ᵥ db + fun a : τ × n => g a.2) := by
        funext s
        rw [mulVec_add, mulVec_smul]
        funext a
        simp only [Pi.add_apply, Pi.smul_apply, smul_eq_mul]
        ring
      rw [e]
      exact VD2.line _ _
    have hC := sarCov_deriv (bigW τ W) lam f.sig2 dl ds hA
    have h0 : sarCov (bigW τ W) (lam + 0 * dl) (f.sig2 + 0 * ds) = sarCov (bigW τ W) lam f.sig2 := by
      rw [zero_mul, zero_mul, add_zero, add_zero]
    have hfi := fisher P hmu hC (by rw [h0]; exact sarCov_det _ lam f.sig2 hs.ne' hA)
    rw [hfi, h0, sarCov_trace _ lam f.sig2 dl ds hs.ne' hA _ rfl, sarCov_inv _ lam f.sig2 _ hs.ne' hA, hGb, bigW_transpose,
      bigW_mul, bigW_mul, bigW_trace, bigW_trace, bigW_trace, ← hc, mulVec_add, ← hz]
    have : (1 - lam • bigW τ W) *ᵥ (fun a : τ × n => g a.2) = fun a : τ × n => ((1 - lam • W) *ᵥ g) a.2 := by
      rw [filt_bigW, bigW_unit]
    rw [this]
  have hzq : quasi τ n 0 *ᵥ z = xs *ᵥ db := by
    rw [hz, hxs, mulVec_mulVec, mulVec_mulVec, filt_bigW, quasi_comm, ← filt_bigW, Matrix.mul_assoc, Matrix.sub_mul,
      Matrix.one_mul, Matrix.smul_mul]
  have hq : v ⬝ᵥ (fromBlocks (f.sig2⁻¹ • (xsᵀ * xs)) 0 0 (errInfo (Fintype.card (τ × n)) f.sig2
      (Fintype.card τ * G.trace, Fintype.card τ * (G * G).trace, Fintype.card τ * (Gᵀ * G).trace)) *ᵥ v) =
      ((quasi τ n 0 *ᵥ z) ⬝ᵥ (quasi τ n 0 *ᵥ z)) / f.sig2 + c := by
    rw [hzq, fromBlocks_mulVec, sumElim_dotProduct_sumElim]
    simp only [v, Sum.elim_comp_inl, Sum.elim_comp_inr, zero_mulVec, add_zero, zero_add]
    rw [smul_mulVec, dotProduct_smul, ← mulVec_mulVec, dotProduct_mulVec, vecMul_transpose, smul_eq_mul, ← div_eq_inv_mul]
    congr 1
    rw [hc]
    simp only [errInfo, dotProduct, mulVec, Fin.sum_univ_two, Matrix.of_apply, Matrix.cons_val', Matrix.cons_val_zero,
      Matrix.cons_val_one, Matrix.cons_val_fin_one]
    have := hs.ne'
    field_simp
    ring
  rw [hq]
  have hsurj : Function.Surjective fun g : n → ℝ => (1 - lam • W) *ᵥ g := fun w =>
    ⟨(1 - lam • W)⁻¹ *ᵥ w, by dsimp only; rw [mulVec_mulVec, hr0, one_mulVec]⟩
  have hl := isLeast_affine (demean_least z _ hsurj) f.sig2 c hs
  rw [← Set.range_comp] at hl
  convert hl using 2
  funext g
  exact hfi g

theorem exW_inv : (1 - (1 / 2 : ℝ) • exW)⁻¹ = !![4 / 3, 2 / 3; 2 / 3, 4 / 3] := by
  apply Matrix.inv_eq_right_inv
  ext i j
  fin_cases i <;> fin_cases j <;>
    norm_num [exW, Matrix.mul_apply, Fin.sum_univ_two, Matrix.sub_apply, Matrix.smul_apply, Matrix.one_apply]

theorem exW_diag : ∀ i, exW i i = 0 := by intro i; fin_cases i <;> rfl

theorem exW_ai : inv? (filledA exW (1 / 2)) = some !![4 / 3, 2 / 3; 2 / 3, 4 / 3] := by
  rw [filledA_eq _ exW_diag, inv?_of_isUnit (exA _ (by rw [abs_of_pos (by norm_num)]; norm_num)), exW_inv]

/-- Non-vacuity of `C127_lagFE`: two units, two periods. -/
example : (∀ i, exW i i = 0) ∧ (∃ ai, inv? (filledA exW (1 / 2)) = some ai) ∧
    Nonempty (Dist (sarCov (panelW (Fin 2) exW) (1 / 2 + 0 * 1) (3 + 0 * 1))) :=
  ⟨exW_diag, ⟨_, exW_ai⟩, sarDist _ _ _ (by norm_num)⟩

/-- Non-vacuity of `C127_errFE`: the model is estimated and the covariance matrix is computed. -/
example : ∃ f vm, errFE true exY exX exW (1 / 2) = some f ∧ f.eFiltered ≠ 0 ∧ errFEVm exW f = some vm := by
  obtain ⟨f, h, -, h0⟩ := ex_errFE
  have hlam : f.lam = 1 / 2 := by
    unfold errFE at h
    simp only [Option.map_eq_some_iff, if_true] at h
    obtain ⟨B, hB, hf⟩ := h
    rw [← hf]
  have hsf : f.sig2 = (f.eFiltered ⬝ᵥ f.eFiltered) / NT (Fin 2) (Fin 2) := by
    unfold errFE at h
    simp only [Option.map_eq_some_iff, if_true] at h
    obtain ⟨B, hB, hf⟩ := h
    rw [← hf]
  have hs : f.sig2 ≠ 0 := by
    rw [hsf, ← utu_eq_dot]
    have hpos : 0 < utu f.eFiltered := lt_of_le_of_ne (utu_nonneg _) fun e => h0 ((utu_eq_zero _).1 e.symm)
    exact (div_pos hpos (by norm_num [NT])).ne'
  refine ⟨f, ?_⟩
  unfold errFEVm
  rw [hlam, exW_ai, Option.bind_some]
  dsimp only
  rw [inv?_of_isUnit, Option.map_some]
  · exact ⟨_, h, h0, rfl⟩
  · rw [isUnit_iff_ne_zero, Matrix.det_fin_two_of]
    norm_num [Matrix.trace, exW, Fin.sum_univ_two, Matrix.mul_apply, NT]
    field_simp
    norm_num

end Spreg.PanelML
