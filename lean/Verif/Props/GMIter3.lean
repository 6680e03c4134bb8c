import Verif.Props.GMIter2
import Mathlib.Algebra.Order.Chebyshev
/-
C86, homoskedastic errors: the variance matrices of error_sp_hom.py.
-/
namespace Spreg.GM
open Matrix Spreg.Lin Spreg.LM

variable {n k l : Type} [Fintype n] [Fintype k] [Fintype l]

/-! ### Moments -/

theorem m2_nonneg (u : n → ℝ) : 0 ≤ m2 u := by
  unfold m2
  exact div_nonneg (by rw [← utu_eq_dot]; exact utu_nonneg u) N_nonneg

/-- With mean zero, the second moment matrix of `(u, u² - s2)` is `[s2, m3; m3, m4 - s2²]`. -/
theorem moment_cond (u : n → ℝ) : 0 ≤ m4 u - m2 u ^ 2 ∧ (∑ i, u i = 0 → m3 u ^ 2 ≤ m2 u * (m4 u - m2 u ^ 2)) := by
  rcases isEmpty_or_nonempty n with hn | hn
  · simp [m2, m3, m4, dotProduct]
  have hN : 0 < N n := by unfold N; exact_mod_cast Fintype.card_pos
  have key : ∀ t : ℝ, (∑ i, (t * u i + (u i ^ 2 - m2 u)) ^ 2) / N n
      = t ^ 2 * m2 u + 2 * t * (m3 u - m2 u * ((∑ i, u i) / N n)) + (m4 u - m2 u ^ 2) := by
    intro t
    have e : ∑ i, (t * u i + (u i ^ 2 - m2 u)) ^ 2
        = t ^ 2 * (u ⬝ᵥ u) + 2 * t * ((∑ i, u i ^ 3) - m2 u * ∑ i, u i) + (∑ i, u i ^ 4)
          - 2 * m2 u * (u ⬝ᵥ u) + N n * m2 u ^ 2 := by
      have hc : N n * m2 u ^ 2 = ∑ _i : n, m2 u ^ 2 := by
        rw [Finset.sum_const, Finset.card_univ, nsmul_eq_mul]; rfl
      rw [hc]
      simp only [dotProduct, Finset.mul_sum, ← Finset.sum_sub_distrib, ← Finset.sum_add_distrib]
      exact Finset.sum_congr rfl fun i _ => by ring
    have hu : u ⬝ᵥ u = N n * m2 u := by unfold m2; field_simp
    have h3 : ∑ i, u i ^ 3 = N n * m3 u := by unfold m3; field_simp
    have h4 : ∑ i, u i ^ 4 = N n * m4 u := by unfold m4; field_simp
    rw [e, hu, h3, h4]
    field_simp
    ring
  have hpos : ∀ t : ℝ, 0 ≤ (∑ i, (t * u i + (u i ^ 2 - m2 u)) ^ 2) / N n := fun t =>
    div_nonneg (Finset.sum_nonneg fun _ _ => sq_nonneg _) hN.le
  constructor
  · have := hpos 0
    rw [key 0] at this
    linarith
  · intro h0
    have hq : ∀ t : ℝ, 0 ≤ m2 u * (t * t) + (2 * m3 u) * t + (m4 u - m2 u ^ 2) := by
      intro t
      have := hpos t
      rw [key t, h0] at this
      simp only [zero_div, mul_zero, sub_zero] at this
      linarith
    have := discrim_le_zero hq
    unfold discrim at this
    nlinarith

/-- A form with a positive semidefinite 2 by 2 kernel at each observation. -/
theorem psd_pair (X Y : Matrix n k ℝ) (a b c : ℝ) (ha : 0 ≤ a) (hc : 0 ≤ c) (hb : b ^ 2 ≤ a * c) :
    SymPSD (a • (Xᵀ * X) + b • (Xᵀ * Y + Yᵀ * X) + c • (Yᵀ * Y)) := by
  refine ⟨?_, fun v => ?_⟩
  · simp only [transpose_add, transpose_smul, transpose_mul, transpose_transpose]
    rw [add_comm (Yᵀ * X)]
  · rw [quad_eq]
    have g : ∀ P Q : Matrix n k ℝ, v ⬝ᵥ ((Pᵀ * Q) *ᵥ v) = (P *ᵥ v) ⬝ᵥ (Q *ᵥ v) := by
      intro P Q; rw [← mulVec_mulVec, dotProduct_mulVec, vecMul_transpose]
    simp only [add_mulVec, smul_mulVec, dotProduct_add, dotProduct_smul, smul_eq_mul, g]
    set p := X *ᵥ v
    set q := Y *ᵥ v
    rw [dotProduct_comm q p]
    have : a * p ⬝ᵥ p + b * (p ⬝ᵥ q + p ⬝ᵥ q) + c * q ⬝ᵥ q
        = ∑ i, (a * p i ^ 2 + 2 * b * (p i * q i) + c * q i ^ 2) := by
      simp only [dotProduct, Finset.mul_sum, ← Finset.sum_add_distrib]
      exact Finset.sum_congr rfl fun i _ => by ring
    rw [this]
    refine Finset.sum_nonneg fun i _ => ?_
    rcases ha.eq_or_lt with h0 | h0
    · have hb0 : b = 0 := by
        have : b ^ 2 ≤ 0 := by rw [← h0] at hb; simpa using hb
        nlinarith [sq_nonneg b, pow_eq_zero_iff (two_ne_zero) |>.1 (le_antisymm this (sq_nonneg b))]
      rw [← h0, hb0]; simp; positivity
    · have : 0 ≤ a * (a * p i ^ 2 + 2 * b * (p i * q i) + c * q i ^ 2) := by
        have : a * (a * p i ^ 2 + 2 * b * (p i * q i) + c * q i ^ 2)
            = (a * p i + b * q i) ^ 2 + (a * c - b ^ 2) * q i ^ 2 := by ring
        rw [this]
        have : 0 ≤ (a * c - b ^ 2) * q i ^ 2 := mul_nonneg (by linarith) (sq_nonneg _)
        positivity
      exact nonneg_of_mul_nonneg_right this h0

/-- Off-diagonal entries of two matrices, as two columns. -/
def offCols [DecidableEq n] (A1 A2 : Matrix n n ℝ) : Matrix (n × n) (Fin 2) ℝ :=
  Matrix.of fun ab c => if ab.1 = ab.2 then 0 else ![A1 ab.1 ab.2, A2 ab.1 ab.2] c

theorem tr_split [DecidableEq n] (A B : Matrix n n ℝ) (hB : Bᵀ = B) :
    ∑ i, (A * B) i i = (∑ ab : n × n, if ab.1 = ab.2 then 0 else A ab.1 ab.2 * B ab.1 ab.2) + ∑ i, A i i * B i i := by
  have hb : ∀ i j, B j i = B i j := fun i j => by rw [← transpose_apply B i j, hB]
  rw [Fintype.sum_prod_type, ← Finset.sum_add_distrib]
  refine Finset.sum_congr rfl fun i _ => ?_
  rw [mul_apply]
  simp only [hb i]
  rw [← Finset.add_sum_erase _ _ (Finset.mem_univ i),
    ← Finset.add_sum_erase Finset.univ (fun j => if i = j then 0 else A i j * B i j) (Finset.mem_univ i)]
  simp only [if_true, zero_add]
  rw [add_comm]
  congr 1
  refine Finset.sum_congr rfl fun j hj => ?_
  rw [if_neg (Finset.ne_of_mem_erase hj).symm]

/-- The weighting matrix as a sum of Gram-like terms. -/
theorem vcHom_eq [DecidableEq n] (A1 A2 : Matrix n n ℝ) (h1 : A1ᵀ = A1) (h2 : A2ᵀ = A2) (hd : ∀ i, A2 i i = 0)
    (us a1 a2 : n → ℝ) :
    vcHom A1 A2 us a1 a2 = (1 / N n) • ((2 * m2 us ^ 2) • ((offCols A1 A2)ᵀ * offCols A1 A2)
      + (m2 us • ((cols2 a1 a2)ᵀ * cols2 a1 a2)
        + m3 us • ((cols2 a1 a2)ᵀ * cols2 (fun i => A1 i i) 0 + (cols2 (fun i => A1 i i) 0)ᵀ * cols2 a1 a2)
        + (m4 us - m2 us ^ 2) • ((cols2 (fun i => A1 i i) 0)ᵀ * cols2 (fun i => A1 i i) 0))) := by
  have t11 := tr_split A1 A1 h1
  have t12 := tr_split A1 A2 h2
  have t22 := tr_split A2 A2 h2
  simp only [hd, mul_zero, Finset.sum_const_zero, add_zero] at t12 t22
  have o : ∀ c d : Fin 2, ((offCols A1 A2)ᵀ * offCols A1 A2) c d
      = ∑ ab : n × n, if ab.1 = ab.2 then 0 else (![A1 ab.1 ab.2, A2 ab.1 ab.2] c) * (![A1 ab.1 ab.2, A2 ab.1 ab.2] d) := by
    intro c d
    rw [mul_apply]
    refine Finset.sum_congr rfl fun ab _ => ?_
    simp only [offCols, transpose_apply, of_apply]
    split_ifs <;> simp
  have g : ∀ (P Q : n → Fin 2 → ℝ) (c d : Fin 2), ((Matrix.of P)ᵀ * Matrix.of Q) c d = ∑ i, P i c * Q i d := by
    intro P Q c d; simp [mul_apply]
  unfold vcHom
  simp only [mul_smul_comm, Matrix.smul_apply, smul_eq_mul, ← Finset.mul_sum, t11, t12, t22]
  ext c d
  simp only [of_apply, Matrix.smul_apply, Matrix.add_apply, smul_eq_mul, o, cols2, g, dotProduct]
  have e1 : (∑ x : n × n, if x.1 = x.2 then 0 else A2 x.1 x.2 * A1 x.1 x.2)
      = ∑ x : n × n, if x.1 = x.2 then 0 else A1 x.1 x.2 * A2 x.1 x.2 :=
    Finset.sum_congr rfl fun x _ => by split_ifs <;> ring
  have e2 : ∑ i, a2 i * a1 i = ∑ i, a1 i * a2 i := Finset.sum_congr rfl fun x _ => mul_comm _ _
  have e3 : ∑ i, A1 i i * a2 i = ∑ i, a2 i * A1 i i := Finset.sum_congr rfl fun x _ => mul_comm _ _
  have e4 : ∑ i, A1 i i * a1 i = ∑ i, a1 i * A1 i i := Finset.sum_congr rfl fun x _ => mul_comm _ _
  fin_cases c <;> fin_cases d <;> simp [div_eq_inv_mul, e1, e2, e3, e4]
  · left; ring
  · left; ring
  · left; ring
  · left; ring

/-- The joint variance of the instruments' and the quadratic moments. -/
theorem psi_joint_psd [DecidableEq n] (A1 A2 : Matrix n n ℝ) (h1 : A1ᵀ = A1) (h2 : A2ᵀ = A2) (hd : ∀ i, A2 i i = 0)
    (us a1 a2 : n → ℝ) (h : Matrix n l ℝ)
    (hc : m3 us ^ 2 ≤ m2 us * (m4 us - m2 us ^ 2) ∨ ∀ i, A1 i i = 0) :
    SymPSD (fromBlocks (m2 us • ((1 / N n) • (hᵀ * h)))
      ((1 / N n) • (m3 us • (hᵀ * cols2 (fun i => A1 i i) 0) + m2 us • (hᵀ * cols2 a1 a2)))
      ((1 / N n) • (m3 us • (hᵀ * cols2 (fun i => A1 i i) 0) + m2 us • (hᵀ * cols2 a1 a2)))ᵀ
      (vcHom A1 A2 us a1 a2)) := by
  have hN : (0 : ℝ) ≤ 1 / N n := by have := N_nonneg (n := n); positivity
  rw [vcHom_eq A1 A2 h1 h2 hd]
  set D := cols2 (fun i => A1 i i) (0 : n → ℝ) with hD
  set A := cols2 a1 a2
  set O := offCols A1 A2
  set X := fromCols h A
  set Y := fromCols (0 : Matrix n l ℝ) D with hY
  have e : fromBlocks (m2 us • ((1 / N n) • (hᵀ * h)))
      ((1 / N n) • (m3 us • (hᵀ * D) + m2 us • (hᵀ * A)))
      ((1 / N n) • (m3 us • (hᵀ * D) + m2 us • (hᵀ * A)))ᵀ
      ((1 / N n) • ((2 * m2 us ^ 2) • (Oᵀ * O) + (m2 us • (Aᵀ * A) + m3 us • (Aᵀ * D + Dᵀ * A)
        + (m4 us - m2 us ^ 2) • (Dᵀ * D))))
      = (1 / N n) • (m2 us • (Xᵀ * X) + m3 us • (Xᵀ * Y + Yᵀ * X) + (m4 us - m2 us ^ 2) • (Yᵀ * Y))
        + (1 / N n) • (fromBlocks 0 0 0 ((2 * m2 us ^ 2) • (Oᵀ * O))) := by
    simp only [X, Y, transpose_fromCols, fromRows_mul_fromCols, fromBlocks_smul, fromBlocks_add, transpose_zero,
      Matrix.zero_mul, Matrix.mul_zero, smul_zero, add_zero, zero_add, transpose_smul, transpose_add, transpose_mul,
      transpose_transpose]
    congr 1
    · rw [smul_comm]
    · rw [add_comm]
    · rw [add_comm]
    · rw [← smul_add]
      congr 1
      abel
  rw [e]
  refine psd_add (psd_smul ?_ _ hN) (psd_smul (psd_block psd_zero (psd_smul (psd_gram O) _ (by positivity))) _ hN)
  rcases hc with hc | hc
  · exact psd_pair X Y _ _ _ (m2_nonneg us) (moment_cond us).1 hc
  · have hY0 : Y = 0 := by
      have : D = 0 := by
        ext i c; fin_cases c
        · exact hc i
        · rfl
      rw [hY, this]
      ext i c; rcases c with c | c <;> rfl
    rw [hY0]
    simp only [transpose_zero, Matrix.zero_mul, Matrix.mul_zero, add_zero, smul_zero]
    exact psd_smul (psd_gram X) _ (m2_nonneg us)

/-- Assembly of the variance matrix of `get_omega_hom` and `get_omega_hom_ols` from the joint variance. -/
theorem omega_psd [DecidableEq l] {N' : ℝ} (hN : 0 ≤ N') {S11 : Matrix l l ℝ} {S12 : Matrix l (Fin 2) ℝ}
    {psi psii : Matrix (Fin 2) (Fin 2) ℝ} {J : Matrix (Fin 2) Unit ℝ} {ji : Matrix Unit Unit ℝ} {p : Matrix l k ℝ}
    (hS : SymPSD (fromBlocks S11 S12 S12ᵀ psi)) (hpsi : SymPSD psi) (h1 : psi * psii = 1)
    (h2 : (Jᵀ * (psii * J)) * ji = 1) :
    SymPSD (fromBlocks (N' • (pᵀ * S11 * p)) (((pᵀ * S12) * (psii * J)) * (N' • ji))
      (((pᵀ * S12) * (psii * J)) * (N' • ji))ᵀ (N' • ji)) := by
  have hpi : psiiᵀ = psii := (psd_inv' hpsi h1).1
  have hj : jiᵀ = ji := unit_symm ji
  have key := psd_smul (psd_conj hS (fromBlocks pᵀ 0 0 (ji * (Jᵀ * psii)))) N' hN
  rw [fromBlocks_transpose, fromBlocks_multiply, fromBlocks_multiply, fromBlocks_smul] at key
  simp only [transpose_transpose, transpose_zero, transpose_mul, hpi, hj, Matrix.mul_zero, Matrix.zero_mul, add_zero,
    zero_add] at key
  have e22 : ji * (Jᵀ * psii) * (psi * (psii * J * ji)) = ji := by
    have : ji * (Jᵀ * psii) * (psi * (psii * J * ji)) = ji * Jᵀ * psii * (psi * psii) * J * ji := by
      simp only [Matrix.mul_assoc]
    rw [this, h1, Matrix.mul_one]
    have : ji * Jᵀ * psii * J * ji = ji * ((Jᵀ * (psii * J)) * ji) := by simp only [Matrix.mul_assoc]
    rw [this, h2, Matrix.mul_one]
  rw [e22] at key
  convert key using 2
  · simp only [Matrix.mul_assoc]
  · simp only [Matrix.mul_smul, Matrix.mul_assoc]
  · simp only [Matrix.mul_smul, Matrix.mul_assoc, transpose_smul, transpose_mul, transpose_transpose, hpi, hj]

theorem chooseA1_symm [DecidableEq n] [Nonempty n] {a1 : String} {W A1 : Matrix n n ℝ} (h : chooseA1 a1 W = .ok A1) :
    A1ᵀ = A1 ∧ (a1 = "het" → ∀ i, A1 i i = 0) := by
  unfold chooseA1 at h
  split_ifs at h with h1 h2 h3
  · cases h
    exact ⟨(C15_A1hom W false).2.1, fun hh => absurd (h1.symm.trans hh) (by decide)⟩
  · cases h
    exact ⟨(C15_A1hom W true).2.1, fun hh => absurd (h2.symm.trans hh) (by decide)⟩
  · cases h
    exact ⟨(C15_A1het W).2.2, fun _ => (C15_A1het W).1⟩

theorem pHom_ok [DecidableEq k] [DecidableEq l] {h : Matrix n l ℝ} {zs : Matrix n k ℝ} {p : Matrix l k ℝ}
    (hN : N n ≠ 0) (hp : pHom h zs = .ok p) (hthi : Matrix l l ℝ) (h1 : (hᵀ * h) * hthi = 1)
    (O : Matrix k k ℝ) (hO : (zsᵀ * (h * (hthi * (hᵀ * zs)))) * O = 1) :
    (1 / N n) • (pᵀ * ((1 / N n) • (hᵀ * h)) * p) = O := by
  unfold pHom at hp
  obtain ⟨Hi, hHi, hp⟩ := bind_ok hp
  obtain ⟨pi, hpi, hp⟩ := bind_ok hp
  cases hp
  obtain ⟨-, hHi', hH1, -⟩ := invE_ok hHi
  obtain ⟨-, -, hM1, -⟩ := invE_ok hpi
  have hHie : Hi = N n • hthi := by
    have : ((1 / N n) • (hᵀ * h)) * (N n • hthi) = 1 := by
      rw [Matrix.smul_mul, Matrix.mul_smul, smul_smul, h1, one_div, inv_mul_cancel₀ hN, one_smul]
    rw [hHi']; exact inv_eq_right_inv this
  have hths : hthiᵀ = hthi := by
    rw [← inv_eq_right_inv h1]; exact xtxi_symm h
  subst hHie
  set B := zsᵀ * (h * (hthi * (hᵀ * zs))) with hB
  have hBs : Bᵀ = B := by
    simp only [hB, transpose_mul, transpose_transpose, hths, Matrix.mul_assoc]
  have hM : ((1 / N n) • (hᵀ * zs))ᵀ * (N n • hthi * ((1 / N n) • (hᵀ * zs))) = (1 / N n) • B := by
    simp only [hB, transpose_smul, transpose_mul, transpose_transpose, Matrix.smul_mul, Matrix.mul_smul, smul_smul,
      Matrix.mul_assoc]
    congr 1
    field_simp
  rw [hM] at hM1
  have hpe : pi = N n • O := by
    have e1 : (1 / N n) • B * (N n • O) = 1 := by
      rw [Matrix.smul_mul, Matrix.mul_smul, smul_smul, hO, one_div, inv_mul_cancel₀ hN, one_smul]
    rw [← inv_eq_right_inv hM1]; exact inv_eq_right_inv e1
  have hOs : Oᵀ = O := by rw [← inv_eq_right_inv hO, transpose_nonsing_inv, hBs]
  subst hpe
  have e : (1 / N n) • ((N n • hthi * ((1 / N n) • (hᵀ * zs)) * (N n • O))ᵀ * ((1 / N n) • (hᵀ * h))
      * (N n • hthi * ((1 / N n) • (hᵀ * zs)) * (N n • O)))
      = O * (zsᵀ * h * hthi * ((hᵀ * h) * hthi) * (hᵀ * zs)) * O := by
    simp only [transpose_smul, transpose_mul, transpose_transpose, hths, hOs, Matrix.smul_mul, Matrix.mul_smul, smul_smul,
      Matrix.mul_assoc]
    have : 1 / N n * (N n * (1 / N n * (N n * (1 / N n * (N n * (1 / N n * N n)))))) = 1 := by field_simp
    first
      | rw [this, one_smul]
      | (conv_lhs => lhs; equals 1 => field_simp
         rw [one_smul])
  rw [e, h1, Matrix.mul_one]
  have : zsᵀ * h * hthi * (hᵀ * zs) = B := by simp only [hB, Matrix.mul_assoc]
  rw [this, Matrix.mul_assoc, hO, Matrix.mul_one]

/-- C86 (partial), homoskedastic errors with endogenous variables: the variance matrix is symmetric positive
semidefinite if the filtered residuals of the fitted model sum to zero, or if `A1 = 'het'`. Missing: without that the
weighting matrix can be indefinite, see `C86_hom_weight_violated`. -/
theorem C86_hom_endog_partial [DecidableEq n] [DecidableEq k] [DecidableEq l] [Nonempty n]
    {opt : Moments (Fin 2) (Fin 2) → Option (Matrix (Fin 2) (Fin 2) ℝ) → Py ℝ}
    {W : Matrix n n ℝ} {z : Matrix n k ℝ} {h : Matrix n l ℝ} {y : n → ℝ} {maxIter : ℕ} {epsilon : ℝ} {a1 : String}
    {f : IterFit n k} (hf : gmEndogErrorHom opt W z h y maxIter epsilon a1 = .ok f) (hW : ∀ i, W i i = 0)
    (hc : ∑ i, f.eFiltered i = 0 ∨ a1 = "het") : SymPSD f.vm := by
  have hN : N n ≠ 0 := N_ne_zero
  have hN0 : (0 : ℝ) ≤ 1 / N n := by have := N_nonneg (n := n); positivity
  unfold gmEndogErrorHom at hf
  obtain ⟨A1, hA, hf⟩ := bind_ok hf
  obtain ⟨o, ho, hf⟩ := bind_ok hf
  obtain ⟨lam1, h1, hf⟩ := bind_ok hf
  obtain ⟨⟨lst, it⟩, hl, hf⟩ := bind_ok hf
  obtain ⟨s, hs, hf⟩ := bind_ok hf
  obtain ⟨vm, hvm, hf⟩ := bind_ok hf
  cases hf
  simp only at hc ⊢
  obtain ⟨hA1s, hA1h⟩ := chooseA1_symm hA
  obtain ⟨hA2s, hA2d, -⟩ := C15_A2hom W
  have hA2d' : ∀ i, A2hom W i i = 0 := fun i => by rw [hA2d, hW]
  unfold omegaHom at hvm
  simp only at hvm
  obtain ⟨p, hp, hvm⟩ := bind_ok hvm
  obtain ⟨psii, hpsii, hvm⟩ := bind_ok hvm
  obtain ⟨hthi, hhi, hvm⟩ := bind_ok hvm
  obtain ⟨O, hO, hvm⟩ := bind_ok hvm
  obtain ⟨ji, hji, hvm⟩ := bind_ok hvm
  cases hvm
  obtain ⟨-, -, hpsi1, -⟩ := invE_ok hpsii
  obtain ⟨-, -, hhi1, -⟩ := invE_ok hhi
  obtain ⟨-, -, hO1, -⟩ := invE_ok hO
  obtain ⟨-, -, hji1, -⟩ := invE_ok hji
  set us := spFilter W s.lam s.u with hus
  set zs := spFilterM W s.lam z
  set a := aHom A1 (A2hom W) h p zs us
  have hcc : m3 us ^ 2 ≤ m2 us * (m4 us - m2 us ^ 2) ∨ ∀ i, A1 i i = 0 := by
    rcases hc with hc | hc
    · exact Or.inl ((moment_cond us).2 hc)
    · exact Or.inr (hA1h hc)
  have hJ := psi_joint_psd A1 (A2hom W) hA1s hA2s hA2d' us a.1 a.2 h hcc
  have hpsi : SymPSD (vcHom A1 (A2hom W) us a.1 a.2) := by
    have := psi_joint_psd A1 (A2hom W) hA1s hA2s hA2d' us a.1 a.2 h hcc
    refine ⟨?_, fun v => ?_⟩
    · have := this.1
      rw [fromBlocks_transpose, fromBlocks_inj] at this
      exact this.2.2.2
    · have := this.2 (Sum.elim 0 v)
      simpa [Fintype.sum_sum_type] using this
  have hpO := pHom_ok hN hp hthi hhi1 O hO1
  have := omega_psd (p := p) hN0 hJ hpsi hpsi1 hji1
  convert this using 2
  rw [← hpO]
  simp only [Matrix.mul_smul, Matrix.smul_mul, smul_smul]
  congr 1
  ring

/-- C86 (partial), homoskedastic errors without endogenous variables: the variance matrix is symmetric positive
semidefinite if `A1 = 'het'`, or if the filtered residuals sum to zero and the lagged regressors are orthogonal to the
diagonal of `A1` (or lambda is 0). Missing: the code uses the regressors instead of the filtered regressors in the
covariance of coefficients and lambda, see `C86_hom_violated`. -/
theorem C86_hom_partial [DecidableEq n] [DecidableEq k] [Nonempty n]
    {opt : Moments (Fin 2) (Fin 2) → Option (Matrix (Fin 2) (Fin 2) ℝ) → Py ℝ}
    {W A1 : Matrix n n ℝ} {x : Matrix n k ℝ} {y : n → ℝ} {maxIter : ℕ} {epsilon : ℝ} {a1 : String}
    {f : IterFit n k} (hf : gmErrorHom opt W x y maxIter epsilon a1 = .ok f) (hW : ∀ i, W i i = 0)
    (hA : chooseA1 a1 W = .ok A1)
    (hc : a1 = "het" ∨ (∑ i, f.eFiltered i = 0 ∧ (f.lam = 0 ∨ ∀ j, ∑ i, (∑ m, W i m * x m j) * A1 i i = 0))) :
    SymPSD f.vm := by
  have hN : N n ≠ 0 := N_ne_zero
  have hN0 : (0 : ℝ) ≤ 1 / N n := by have := N_nonneg (n := n); positivity
  unfold gmErrorHom at hf
  obtain ⟨A1', hA', hf⟩ := bind_ok hf
  have hAe : A1' = A1 := by rw [hA] at hA'; cases hA'; rfl
  subst hAe
  obtain ⟨o, ho, hf⟩ := bind_ok hf
  obtain ⟨lam1, h1, hf⟩ := bind_ok hf
  obtain ⟨⟨lst, it⟩, hl, hf⟩ := bind_ok hf
  obtain ⟨s, hs, hf⟩ := bind_ok hf
  obtain ⟨vm, hvm, hf⟩ := bind_ok hf
  cases hf
  simp only at hc ⊢
  obtain ⟨hA1s, hA1h⟩ := chooseA1_symm hA
  obtain ⟨hA2s, hA2d, -⟩ := C15_A2hom W
  have hA2d' : ∀ i, A2hom W i i = 0 := fun i => by rw [hA2d, hW]
  unfold omegaHomOls at hvm
  simp only at hvm
  obtain ⟨p, hp, hvm⟩ := bind_ok hvm
  obtain ⟨psii, hpsii, hvm⟩ := bind_ok hvm
  obtain ⟨O, hO, hvm⟩ := bind_ok hvm
  obtain ⟨ji, hji, hvm⟩ := bind_ok hvm
  cases hvm
  obtain ⟨-, hpe, hp1, hp2⟩ := invE_ok hp
  obtain ⟨-, -, hpsi1, -⟩ := invE_ok hpsii
  obtain ⟨-, hOe, hO1, -⟩ := invE_ok hO
  obtain ⟨-, -, hji1, -⟩ := invE_ok hji
  set us := spFilter W s.lam s.u with hus
  set xs := spFilterM W s.lam x with hxs
  have hcc : m3 us ^ 2 ≤ m2 us * (m4 us - m2 us ^ 2) ∨ ∀ i, A1' i i = 0 := by
    rcases hc with hc | hc
    · exact Or.inr (hA1h hc)
    · exact Or.inl ((moment_cond us).2 hc.1)
  have hx : xᵀ * cols2 (fun i => A1' i i) 0 = xsᵀ * cols2 (fun i => A1' i i) 0 := by
    have key : s.lam • ((W * x)ᵀ * cols2 (fun i => A1' i i) 0) = 0 := by
      rcases hc with hc | ⟨-, hc | hc⟩
      · have : cols2 (fun i => A1' i i) (0 : n → ℝ) = 0 := by
          ext i c; fin_cases c
          · exact hA1h hc i
          · rfl
        rw [this, Matrix.mul_zero, smul_zero]
      · rw [hc, zero_smul]
      · have : (W * x)ᵀ * cols2 (fun i => A1' i i) 0 = 0 := by
          ext j c; fin_cases c
          · simp only [mul_apply, transpose_apply, cols2, of_apply]
            simpa [mul_apply] using hc j
          · simp [mul_apply, cols2]
        rw [this, smul_zero]
    rw [hxs, spFilterM, transpose_sub, transpose_smul, Matrix.sub_mul, Matrix.smul_mul, key, sub_zero]
  have hJ := psi_joint_psd A1' (A2hom W) hA1s hA2s hA2d' us 0 0 xs hcc
  have hz0 : cols2 (0 : n → ℝ) (0 : n → ℝ) = 0 := by ext i c; fin_cases c <;> rfl
  rw [hz0, Matrix.mul_zero, smul_zero, add_zero, ← hx] at hJ
  have hpsi : SymPSD (vcHom A1' (A2hom W) us 0 0) := by
    refine ⟨?_, fun v => ?_⟩
    · have := hJ.1
      rw [fromBlocks_transpose, fromBlocks_inj] at this
      exact this.2.2.2
    · have := hJ.2 (Sum.elim 0 v)
      simpa [Fintype.sum_sum_type] using this
  have := omega_psd (p := p) hN0 hJ hpsi hpsi1 hji1
  convert this using 2
  have hps : pᵀ = p := by
    rw [hpe, transpose_nonsing_inv, transpose_smul, transpose_mul, transpose_transpose]
  have hpO : (1 / N n) • p = O := by
    have : (xsᵀ * xs) * ((1 / N n) • p) = 1 := by
      rw [Matrix.mul_smul, ← Matrix.smul_mul]; exact hp1
    rw [← inv_eq_right_inv this, hOe]
  have : pᵀ * (m2 us • ((1 / N n) • (xsᵀ * xs))) * p = m2 us • p := by
    rw [hps, Matrix.mul_smul, hp2, Matrix.smul_mul, Matrix.one_mul]
  rw [this, ← hpO, smul_comm]

/-- C86 fails for `GM_Error_Hom` with the default `A1 = 'hom'`: a design for which the fit returns and the variance
matrix of the coefficients and lambda is not positive semidefinite (the implied squared correlation of the coefficient and
lambda exceeds 1), even though the filtered residuals sum to zero. The cause is `reg.x` in place of the filtered regressors,
error_sp_hom.py:1714. -/
theorem C86_hom_violated : ∃ f, gmErrorHom (fun _ _ => .ok (-1 / 2)) !![0, 1, 0; 1, 0, 0; 1, 0, 0]
    (Matrix.of fun i (_ : Unit) => (![-2, 2, 1] : Fin 3 → ℝ) i) ![-2, -2, 7] 1 (1 / 100000) "hom" = .ok f ∧
    ∑ i, f.eFiltered i = 0 ∧ ¬ SymPSD f.vm := by
  set W : Matrix (Fin 3) (Fin 3) ℝ := !![0, 1, 0; 1, 0, 0; 1, 0, 0] with hW
  set x : Matrix (Fin 3) Unit ℝ := Matrix.of fun i (_ : Unit) => (![-2, 2, 1] : Fin 3 → ℝ) i with hx
  set y : Fin 3 → ℝ := ![-2, -2, 7] with hy
  have unit1 : ∀ a : ℝ, a ≠ 0 → (Matrix.of fun (_ _ : Unit) => a) * (Matrix.of fun _ _ => 1 / a) = 1 := by
    intro a ha; ext i j; simp [mul_apply, ha]
  have hxx : xᵀ * x = Matrix.of fun _ _ => 9 := by
    ext i j; simp [hx, mul_apply, Fin.sum_univ_three]; norm_num
  have hd : IsUnit (xᵀ * x).det := by rw [hxx]; exact isUnit_det_of_right_inverse (unit1 9 (by norm_num))
  have ho : olsE x y = .ok (olsWith x y (xᵀ * x)⁻¹) := by unfold olsE; rw [ols_of_isUnit _ _ hd]
  set xs : Matrix (Fin 3) Unit ℝ := Matrix.of fun i (_ : Unit) => (![-1, 1, 0] : Fin 3 → ℝ) i with hxs
  set us : Fin 3 → ℝ := ![-3, -3, 6] with hus
  have hF : spFilterM W (-1 / 2) x = xs := by
    ext i j; fin_cases i <;> simp [spFilterM, hxs, hx, hW, mul_apply, Fin.sum_univ_three, vecHead, vecTail] <;> norm_num
  have hFy : spFilter W (-1 / 2) y = us := by
    ext i; fin_cases i <;> simp [spFilter, hus, hy, hW, mulVec, dotProduct, Fin.sum_univ_three] <;> norm_num
  have hxsx : xsᵀ * xs = Matrix.of fun _ _ => 2 := by
    ext i j; simp [hxs, mul_apply, Fin.sum_univ_three]; norm_num
  have hds : IsUnit (xsᵀ * xs).det := by rw [hxsx]; exact isUnit_det_of_right_inverse (unit1 2 (by norm_num))
  have hos : olsE xs us = .ok (olsWith xs us (xsᵀ * xs)⁻¹) := by unfold olsE; rw [ols_of_isUnit _ _ hds]
  have hxy : xsᵀ *ᵥ us = 0 := by
    ext j; simp [hxs, hus, mulVec, dotProduct, Fin.sum_univ_three]
  have hb : (olsWith xs us (xsᵀ * xs)⁻¹).betas = 0 := by
    have : (olsWith xs us (xsᵀ * xs)⁻¹).betas = (xsᵀ * xs)⁻¹ *ᵥ (xsᵀ *ᵥ us) := rfl
    rw [this, hxy, mulVec_zero]
  have hA1 : A1hom W false = !![1, 0, 0; 0, 0, 0; 0, 0, -1] := by
    unfold A1hom
    ext i j
    fin_cases i <;> fin_cases j <;>
      simp [hW, mul_apply, Fin.sum_univ_three, Matrix.diagonal, N] <;> norm_num
  have hA2 : A2hom W = !![0, 1, 1/2; 1, 0, 0; 1/2, 0, 0] := by
    unfold A2hom
    ext i j
    fin_cases i <;> fin_cases j <;> simp [hW] <;> norm_num
  set A1 : Matrix (Fin 3) (Fin 3) ℝ := !![1, 0, 0; 0, 0, 0; 0, 0, -1] with hA1d
  set A2 : Matrix (Fin 3) (Fin 3) ℝ := !![0, 1, 1/2; 1, 0, 0; 1/2, 0, 0] with hA2d
  set M := momentsHom W A1 A2 y with hM
  have hstep : homStep (fun _ _ => .ok (-1 / 2)) W A1 A2 x y (-1 / 2) = .ok ⟨0, x *ᵥ 0, y, M, -1 / 2⟩ := by
    unfold homStep
    rw [hF, hFy, hos]
    simp only [bind, Except.bind, hb, pure, Except.pure]
    have : y - x *ᵥ (0 : Unit → ℝ) = y := by rw [mulVec_zero, sub_zero]
    rw [this]
  have h2 : m2 us = 18 := by simp [m2, hus, N, dotProduct, Fin.sum_univ_three]; norm_num
  have h3 : m3 us = 54 := by simp [m3, hus, N, Fin.sum_univ_three]; norm_num
  have h4 : m4 us = 486 := by simp [m4, hus, N, Fin.sum_univ_three]; norm_num
  have hpsi : vcHom A1 A2 us 0 0 = !![108, 0; 0, 540] := by
    unfold vcHom
    rw [h2, h3, h4]
    ext i j
    fin_cases i <;> fin_cases j <;>
      simp [hA1d, hA2d, mul_apply, Fin.sum_univ_three, N, dotProduct] <;> norm_num
  have hG : jac M.G (-1 / 2) = Matrix.of fun i (_ : Unit) => ![12, 6] i := by
    simp only [hM, jac, momentsHom]
    ext i j
    fin_cases i <;>
      simp [hW, hA1d, hA2d, hy, mul_apply, mulVec, vecMul, dotProduct, Fin.sum_univ_three, Fin.sum_univ_two, N] <;>
      norm_num
  have hpi : (!![108, 0; 0, 540] : Matrix (Fin 2) (Fin 2) ℝ) * !![1/108, 0; 0, 1/540] = 1 := by
    ext i j
    fin_cases i <;> fin_cases j <;> simp [mul_apply, Fin.sum_univ_two]
  have hjj : (Matrix.of fun i (_ : Unit) => (![12, 6] : Fin 2 → ℝ) i)ᵀ *
      ((!![1/108, 0; 0, 1/540] : Matrix (Fin 2) (Fin 2) ℝ) * (Matrix.of fun i (_ : Unit) => (![12, 6] : Fin 2 → ℝ) i))
      = Matrix.of fun _ _ => 7 / 5 := by
    ext i j; simp [mul_apply, Fin.sum_univ_two, vecHead, vecTail]; norm_num
  have hpx : (1 / N (Fin 3)) • (Matrix.of fun (_ _ : Unit) => (2 : ℝ)) = Matrix.of fun _ _ => 2 / 3 := by
    ext i j; simp [N]; norm_num
  have hvm : ∃ vm, omegaHomOls W A1 A2 x y (-1 / 2) M.G = .ok vm ∧ vm (.inl ()) (.inl ()) = 9 ∧
      vm (.inr ()) (.inr ()) = 5 / 21 ∧ vm (.inl ()) (.inr ()) = -15 / 7 ∧ vm (.inr ()) (.inl ()) = -15 / 7 := by
    unfold omegaHomOls
    simp only
    rw [hF, hFy, hxsx, hpx, hpsi, hG, h2, h3,
      invE_of_isUnit (isUnit_det_of_right_inverse (unit1 (2 / 3) (by norm_num))),
      invE_of_isUnit (isUnit_det_of_right_inverse (unit1 2 (by norm_num))),
      invE_of_isUnit (isUnit_det_of_right_inverse hpi),
      inv_eq_right_inv (unit1 (2 / 3) (by norm_num)), inv_eq_right_inv (unit1 2 (by norm_num)), inv_eq_right_inv hpi]
    simp only [bind, Except.bind]
    rw [hjj, invE_of_isUnit (isUnit_det_of_right_inverse (unit1 (7 / 5) (by norm_num))),
      inv_eq_right_inv (unit1 (7 / 5) (by norm_num))]
    refine ⟨_, rfl, ?_, ?_, ?_, ?_⟩ <;>
      simp [mul_apply, cols2, hx, hA1d, N, Fin.sum_univ_three, Fin.sum_univ_two, vecHead, vecTail] <;> norm_num
  obtain ⟨vm, hvm, v1, v2, v3, v4⟩ := hvm
  have hbd : chooseA1 "hom" W = .ok A1 := by unfold chooseA1; rw [if_pos rfl, hA1]
  refine ⟨⟨0, -1 / 2, x *ᵥ 0, y, y - (-1 / 2 : ℝ) • (W *ᵥ y), vm, 1, iterMsg 1 1⟩, ?_, ?_, ?_⟩
  · unfold gmErrorHom
    rw [hbd, ho, hA2]
    simp only [bind, Except.bind, gmLoop]
    rw [if_pos (by norm_num), hstep]
    simp only [bound, pure, Except.pure]
    rw [hvm]
  · simp [hy, hW, mulVec, dotProduct, Fin.sum_univ_three]; norm_num
  · intro h
    have := h.2 (Sum.elim (fun _ => 15 / 63) (fun _ => 1))
    simp only [dotProduct, mulVec, Fintype.sum_sum_type, Finset.univ_unique, Finset.sum_singleton, Sum.elim_inl,
      Sum.elim_inr, PUnit.default_eq_unit, v1, v2, v3, v4] at this
    norm_num at this

/-- C86, unknown `A1`: neither homoskedastic estimator accepts another name for the matrix of the first moment; the model
stops with `UnboundLocalError` before fitting anything. -/
theorem C86_unknown_A1 [DecidableEq n] [DecidableEq k] [DecidableEq l]
    (opt : Moments (Fin 2) (Fin 2) → Option (Matrix (Fin 2) (Fin 2) ℝ) → Py ℝ) (W : Matrix n n ℝ)
    (x : Matrix n k ℝ) (h : Matrix n l ℝ) (y : n → ℝ) (maxIter : ℕ) (epsilon : ℝ) (a1 : String) :
    (a1 ≠ "hom" ∧ a1 ≠ "hom_sc" ∧ a1 ≠ "het") →
      gmErrorHom opt W x y maxIter epsilon a1 = .error .unboundLocal ∧
      gmEndogErrorHom opt W x h y maxIter epsilon a1 = .error .unboundLocal := by
  rintro ⟨h1, h2, h3⟩
  have : chooseA1 a1 W = .error .unboundLocal := by unfold chooseA1; rw [if_neg h1, if_neg h2, if_neg h3]
  constructor
  · unfold gmErrorHom; rw [this]; rfl
  · unfold gmEndogErrorHom; rw [this]; rfl

/-- C86 fails for the weighting matrix of `GM_Endog_Error_Hom`: on this design the first diagonal entry is negative, so
every optimiser that (like `optim_moments`, which takes a Cholesky factor) rejects a weighting matrix that is not positive
semidefinite makes the pass of the loop raise `LinAlgError`. -/
theorem C86_hom_weight_violated (opt : Moments (Fin 2) (Fin 2) → Option (Matrix (Fin 2) (Fin 2) ℝ) → Py ℝ)
    (hopt : ∀ M V, ¬ SymPSD V → opt M (some V) = .error .linAlgError) :
    homEndogStep opt !![0, 1, 0; 1, 0, 0; 1, 0, 0] (A1hom !![0, 1, 0; 1, 0, 0; 1, 0, 0] false)
      (A2hom !![0, 1, 0; 1, 0, 0; 1, 0, 0]) (Matrix.of fun i (_ : Unit) => (![1, 3, 0] : Fin 3 → ℝ) i)
      (Matrix.of fun i (_ : Unit) => (![1, 1, -2] : Fin 3 → ℝ) i) ![1, 1, 1] 0 = .error .linAlgError := by
  set W : Matrix (Fin 3) (Fin 3) ℝ := !![0, 1, 0; 1, 0, 0; 1, 0, 0] with hW
  set z : Matrix (Fin 3) Unit ℝ := Matrix.of fun i (_ : Unit) => (![1, 3, 0] : Fin 3 → ℝ) i with hz
  set h : Matrix (Fin 3) Unit ℝ := Matrix.of fun i (_ : Unit) => (![1, 1, -2] : Fin 3 → ℝ) i with hh
  set y : Fin 3 → ℝ := ![1, 1, 1] with hy
  have unit1 : ∀ a : ℝ, a ≠ 0 → (Matrix.of fun (_ _ : Unit) => a) * (Matrix.of fun _ _ => 1 / a) = 1 := by
    intro a ha; ext i j; simp [mul_apply, ha]
  have hA1 : A1hom W false = !![1, 0, 0; 0, 0, 0; 0, 0, -1] := by
    unfold A1hom
    ext i j
    fin_cases i <;> fin_cases j <;>
      simp [hW, mul_apply, Fin.sum_univ_three, Matrix.diagonal, N] <;> norm_num
  set A1 : Matrix (Fin 3) (Fin 3) ℝ := !![1, 0, 0; 0, 0, 0; 0, 0, -1] with hA1d
  rw [hA1]
  have hhh : hᵀ * h = Matrix.of fun _ _ => 6 := by
    ext i j; simp [hh, mul_apply, Fin.sum_univ_three]; norm_num
  have hzh : zᵀ * h = Matrix.of fun _ _ => 4 := by
    ext i j; simp [hz, hh, mul_apply, Fin.sum_univ_three]; norm_num
  have hhz : hᵀ * z = Matrix.of fun _ _ => 4 := by
    ext i j; simp [hz, hh, mul_apply, Fin.sum_univ_three]; norm_num
  have hd : IsUnit (hᵀ * h).det := by rw [hhh]; exact isUnit_det_of_right_inverse (unit1 6 (by norm_num))
  have hhi : (hᵀ * h)⁻¹ = Matrix.of fun _ _ => 1 / 6 := by rw [hhh]; exact inv_eq_right_inv (unit1 6 (by norm_num))
  have hq : zᵀ * h * (hᵀ * h)⁻¹ * (zᵀ * h)ᵀ = Matrix.of fun _ _ => 16 / 6 := by
    rw [hzh, hhi]; ext i j; simp [mul_apply]; norm_num
  have hdz : IsUnit (zᵀ * h * (hᵀ * h)⁻¹ * (zᵀ * h)ᵀ).det := by
    rw [hq]; exact isUnit_det_of_right_inverse (unit1 _ (by norm_num))
  obtain ⟨t, ht⟩ := tslsZH_of_isUnit z h y hd hdz
  have htE : tslsE z h y = .ok t := by unfold tslsE; rw [ht]
  have hhy : hᵀ *ᵥ y = 0 := by ext j; simp [hh, hy, mulVec, dotProduct, Fin.sum_univ_three]; norm_num
  have htb : t.betas = 0 := by
    obtain ⟨-, f1, f2, f4, f3, f5, -, -⟩ := tslsZH_facts ht
    simp [f5, hhy]
  have hF : spFilterM W 0 z = z := by simp [spFilterM]
  have hFy : spFilter W 0 y = y := by simp [spFilter]
  have n3 : N (Fin 3) = 3 := by simp [N]
  have hp : pHom h z = .ok (Matrix.of fun _ _ => 3 / 4) := by
    unfold pHom
    have e1 : (1 / N (Fin 3)) • (hᵀ * h) = Matrix.of fun _ _ => 2 := by
      rw [hhh, n3]; ext i j; simp; norm_num
    have e2 : (1 / N (Fin 3)) • (hᵀ * z) = Matrix.of fun _ _ => 4 / 3 := by
      rw [hhz, n3]; ext i j; simp; norm_num
    simp only
    rw [e1, e2, invE_of_isUnit (isUnit_det_of_right_inverse (unit1 2 (by norm_num))),
      inv_eq_right_inv (unit1 2 (by norm_num))]
    simp only [bind, Except.bind]
    have e3 : (Matrix.of fun (_ _ : Unit) => (1 / 2 : ℝ)) * (Matrix.of fun (_ _ : Unit) => (4 / 3 : ℝ)) =
        Matrix.of fun _ _ => 2 / 3 := by ext i j; simp [mul_apply]; norm_num
    have e4 : (Matrix.of fun (_ _ : Unit) => (4 / 3 : ℝ))ᵀ * (Matrix.of fun (_ _ : Unit) => (2 / 3 : ℝ)) =
        Matrix.of fun _ _ => 8 / 9 := by ext i j; simp [mul_apply]; norm_num
    rw [e3, e4, invE_of_isUnit (isUnit_det_of_right_inverse (unit1 (8 / 9) (by norm_num))),
      inv_eq_right_inv (unit1 (8 / 9) (by norm_num))]
    simp only [pure, Except.pure]
    congr 1
    ext i j; simp [mul_apply]; norm_num
  unfold homEndogStep
  rw [hF, hFy]
  simp only
  rw [htE, hp]
  simp only [bind, Except.bind, htb, mulVec_zero, sub_zero]
  rw [hFy, hopt]
  intro hS
  have := hS.2 (Pi.single 0 1)
  simp only [dotProduct, mulVec, Fin.sum_univ_two, Pi.single_eq_same, Pi.single_apply] at this
  simp [vcHom, aHom, m2, m3, m4, n3, hA1d, hz, hh, hy, mul_apply, mulVec, dotProduct, Fin.sum_univ_three] at this
  norm_num at this

end Spreg.GM
