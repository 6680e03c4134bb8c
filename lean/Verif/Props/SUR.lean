import Verif.Model.SUR
import Verif.Props.OLS
import Verif.Props.LM
import Mathlib.LinearAlgebra.Matrix.Kronecker
import Mathlib.Analysis.Matrix.PosDef
import Mathlib.Analysis.Matrix.Spectrum
import Mathlib.Analysis.Matrix.Order
import Mathlib.Tactic
/-
C40, C41, C49: seemingly unrelated regressions.
-/
namespace Spreg.SUR
open Matrix Spreg.Lin
open scoped Kronecker

/-! ### C40: dictionaries and stacked arrays -/

section Dict
variable {α : Type}

/-- The dictionary with blocks `bs` under the keys `0, 1, ...`. -/
def dictOf (bs : List (List α)) : List (ℕ × List α) := bs.zipIdx.map fun p => (p.2, p.1)

theorem mat2dict_append (pre : List α) : ∀ (bs : List (List α)) (r : ℕ),
    mat2dictLoop (pre ++ bs.flatten) pre.length (bs.map List.length) r = (bs.zipIdx r).map fun p => (p.2, p.1) := by
  intro bs
  induction bs generalizing pre with
  | nil => intro r; rfl
  | cons b bs ih =>
    intro r
    have := ih (pre ++ b) (r + 1)
    simp only [List.map_cons, mat2dictLoop, List.flatten_cons, List.zipIdx_cons]
    rw [List.drop_left, List.take_left]
    simp only [List.append_assoc, List.length_append] at this
    rw [this]

theorem find_zipIdx (bs : List (List α)) : ∀ (s t : ℕ), t < bs.length →
    ((bs.zipIdx s).map fun p => (p.2, p.1)).find? (fun p => p.1 = s + t) = some (s + t, bs.getD t []) := by
  induction bs with
  | nil => intro s t h; simp at h
  | cons b bs ih =>
    intro s t h
    rw [List.zipIdx_cons, List.map_cons, List.find?_cons]
    cases t with
    | zero => simp
    | succ t =>
      have := ih (s + 1) t (by simpa using h)
      rw [show s + (t + 1) = s + 1 + t by ring]
      simp only
      rw [show (decide (s = s + 1 + t)) = false by simp; omega]
      simp only
      rw [this]; simp

theorem mapM_getKey (bs : List (List α)) : ∀ (l : List ℕ), (∀ t ∈ l, t < bs.length) →
    l.mapM (getKey (dictOf bs)) = .ok (l.map fun t => bs.getD t [])
  | [], _ => rfl
  | t :: l, h => by
    have h1 : getKey (dictOf bs) t = .ok (bs.getD t []) := by
      unfold getKey dictOf
      have := find_zipIdx bs 0 t (h t (by simp))
      simp only [Nat.zero_add] at this
      rw [this]
    rw [List.mapM_cons, h1, mapM_getKey bs l (fun a ha => h a (by simp [ha]))]
    rfl

theorem range_getD (bs : List (List α)) : (List.range bs.length).map (fun t => bs.getD t []) = bs := by
  apply List.ext_getElem
  · simp
  · intro i h1 h2
    simp at h1
    simp [List.getD_eq_getElem?_getD, h1]

theorem dict2mat_dictOf (bs : List (List α)) (h : bs ≠ []) : dict2mat (dictOf bs) = .ok bs.flatten := by
  unfold dict2mat
  have hl : (dictOf bs).length = bs.length := by simp [dictOf]
  rw [hl, mapM_getKey bs _ (by simp), range_getD]
  simp [Except.bind, h]

/-- C40: splitting the stacked array of a dictionary by the sizes of its blocks gives the dictionary back. -/
theorem C40_dict_mat_dict (bs : List (List α)) (h : bs ≠ []) :
    ∃ m, dict2mat (dictOf bs) = .ok m ∧ mat2dict m (bs.map List.length) = dictOf bs := by
  refine ⟨bs.flatten, dict2mat_dictOf bs h, ?_⟩
  have := mat2dict_append [] bs 0
  simpa [mat2dict, dictOf] using this

theorem mat2dict_eq (mat : List α) : ∀ (ks : List ℕ) (ki r : ℕ), ∃ bs : List (List α),
    mat2dictLoop mat ki ks r = (bs.zipIdx r).map (fun p => (p.2, p.1)) ∧ bs.length = ks.length ∧
      bs.flatten = (mat.drop ki).take ks.sum := by
  intro ks
  induction ks with
  | nil => intro ki r; exact ⟨[], rfl, rfl, by simp⟩
  | cons k ks ih =>
    intro ki r
    obtain ⟨bs, h1, h2, h3⟩ := ih (ki + k) (r + 1)
    refine ⟨(mat.drop ki).take k :: bs, ?_, by simp [h2], ?_⟩
    · rw [mat2dictLoop, h1, List.zipIdx_cons, List.map_cons]
    · rw [List.flatten_cons, h3, List.sum_cons, List.take_add, List.drop_drop]

/-- C40: stacking the blocks of a split array gives back its first `sum ndim` rows; so it gives the array
back whenever the sizes add up to at least its number of rows. -/
theorem C40_mat_dict_mat (mat : List α) (ks : List ℕ) (h : ks ≠ []) :
    dict2mat (mat2dict mat ks) = .ok (mat.take ks.sum) ∧
      (mat.length ≤ ks.sum → dict2mat (mat2dict mat ks) = .ok mat) := by
  obtain ⟨bs, h1, h2, h3⟩ := mat2dict_eq mat ks 0 0
  have hbs : bs ≠ [] := by
    intro h0; rw [h0] at h2; simp at h2; exact h (List.length_eq_zero_iff.1 h2.symm)
  have e : dict2mat (mat2dict mat ks) = .ok (mat.take ks.sum) := by
    unfold mat2dict
    rw [h1]
    have := dict2mat_dictOf bs hbs
    unfold dictOf at this
    rw [this, h3, List.drop_zero]
  exact ⟨e, fun hle => by rw [e, List.take_of_length_le hle]⟩

/-- C40 (position): block `r` of a split array starts after the sizes of the blocks before it. -/
theorem C40_position (mat : List α) (ks : List ℕ) (r : ℕ) (hr : r < ks.length) :
    getKey (mat2dict mat ks) r = .ok ((mat.drop (ks.take r).sum).take (ks.getD r 0)) := by
  have key : ∀ (ks : List ℕ) (ki s r : ℕ), r < ks.length →
      (mat2dictLoop mat ki ks s).find? (fun p => p.1 = s + r) =
        some (s + r, (mat.drop (ki + (ks.take r).sum)).take (ks.getD r 0)) := by
    intro ks
    induction ks with
    | nil => intro _ _ _ h; simp at h
    | cons k ks ih =>
      intro ki s r h
      rw [mat2dictLoop, List.find?_cons]
      cases r with
      | zero => simp
      | succ r =>
        rw [show (decide ((s, List.take k (List.drop ki mat)).1 = s + (r + 1))) = false by simp]
        simp only
        rw [show s + (r + 1) = s + 1 + r by ring, ih (ki + k) (s + 1) r (by simpa using h)]
        simp [Nat.add_assoc]
  have := key ks 0 0 r hr
  unfold getKey mat2dict
  simp only [Nat.zero_add] at this
  rw [this]

example : dict2mat (mat2dict [1, 2, 3, 4, 5] [2, 3]) = .ok [1, 2, 3, 4, 5] := by
  rw [(C40_mat_dict_mat _ _ (by simp)).1]; rfl

end Dict

/-! ### C41: generalised least squares -/

variable {n R : Type} [Fintype n] [Fintype R] [DecidableEq R] [DecidableEq n] {K : R → Type} [∀ r, Fintype (K r)]
  [∀ r, DecidableEq (K r)]

/-- Specification: the block-diagonal regressor matrix of the stacked system. -/
def bigZ (X : ∀ r, Matrix n (K r) ℝ) : Matrix (R × n) (Stk K) ℝ :=
  Matrix.of fun p q => if p.1 = q.1 then X q.1 p.2 q.2 else 0

/-- Specification: the stacked dependent variables. -/
def bigY (y : R → n → ℝ) : R × n → ℝ := fun p => y p.1 p.2

/-- Specification: the covariance matrix of the stacked errors, `Sigma ⊗ I`. -/
def omega (n : Type) [DecidableEq n] (sig : Matrix R R ℝ) : Matrix (R × n) (R × n) ℝ := sig ⊗ₖ (1 : Matrix n n ℝ)

/-- Stacked coefficient vector. -/
def stackB (b : ∀ r, K r → ℝ) : Stk K → ℝ := fun p => b p.1 p.2

theorem omega_inv (sig : Matrix R R ℝ) : (omega n sig)⁻¹ = omega n sig⁻¹ := by
  unfold omega
  rw [inv_kronecker]; simp

theorem omega_mulVec (S : Matrix R R ℝ) (v : R × n → ℝ) (p : R × n) :
    (omega n S *ᵥ v) p = ∑ t, S p.1 t * v (t, p.2) := by
  simp [omega, mulVec, dotProduct, Fintype.sum_prod_type, Matrix.one_apply]

theorem Zt_mulVec (X : ∀ r, Matrix n (K r) ℝ) (v : R × n → ℝ) (q : Stk K) :
    ((bigZ X)ᵀ *ᵥ v) q = ∑ i, X q.1 i q.2 * v (q.1, i) := by
  simp [bigZ, mulVec, dotProduct, Fintype.sum_prod_type]

theorem Z_mulVec (X : ∀ r, Matrix n (K r) ℝ) (b : Stk K → ℝ) (p : R × n) :
    (bigZ X *ᵥ b) p = (X p.1 *ᵥ fun j => b ⟨p.1, j⟩) p.2 := by
  simp only [bigZ, mulVec, dotProduct, Matrix.of_apply, ite_mul, zero_mul]
  rw [Fintype.sum_sigma]
  rw [Finset.sum_eq_single p.1]
  · simp
  · intro t _ ht; simp [Ne.symm ht]
  · simp

theorem resid_stack (X : ∀ r, Matrix n (K r) ℝ) (y : R → n → ℝ) (b : ∀ r, K r → ℝ) (p : R × n) :
    (bigY y - bigZ X *ᵥ stackB b) p = surResids y X b p.2 p.1 := by
  simp only [Pi.sub_apply, Z_mulVec]
  rfl

theorem xsigx_eq (X : ∀ r, Matrix n (K r) ℝ) (S : Matrix R R ℝ) :
    (Matrix.of fun p q => (Matrix.of fun i j => crossXX X p.1 q.1 i j * S p.1 q.1 : Matrix (K p.1) (K q.1) ℝ) p.2 q.2 :
      Matrix (Stk K) (Stk K) ℝ) = (bigZ X)ᵀ * omega n S * bigZ X := by
  ext p q
  rw [Matrix.mul_assoc]
  show _ = ((bigZ X)ᵀ *ᵥ (fun a => (omega n S * bigZ X) a q)) p
  rw [Zt_mulVec]
  have : ∀ a : R × n, (omega n S * bigZ X) a q = S a.1 q.1 * X q.1 a.2 q.2 := by
    intro a
    show (omega n S *ᵥ fun c => bigZ X c q) a = _
    rw [omega_mulVec]
    simp [bigZ]
  simp only [this]
  simp only [crossXX, Matrix.of_apply, Matrix.mul_apply, Matrix.transpose_apply, Finset.sum_mul]
  exact Finset.sum_congr rfl fun i _ => by ring

theorem xsigy_eq (X : ∀ r, Matrix n (K r) ℝ) (y : R → n → ℝ) (S : Matrix R R ℝ) :
    (fun p : Stk K => ∑ t, S p.1 t * crossXy X y p.1 t p.2) = (bigZ X)ᵀ *ᵥ (omega n S *ᵥ bigY y) := by
  funext p
  rw [Zt_mulVec]
  simp only [omega_mulVec]
  simp only [crossXy, mulVec, dotProduct, Matrix.transpose_apply, bigY, Finset.mul_sum]
  rw [Finset.sum_comm]
  exact Finset.sum_congr rfl fun i _ => Finset.sum_congr rfl fun t _ => by ring

/-- The estimate, in terms of the stacked system. -/
theorem surEst_some (X : ∀ r, Matrix n (K r) ℝ) (y : R → n → ℝ) (E : Matrix n R ℝ) (e : Est R K)
    (h : surEst (crossXX X) (crossXy X y) E = some e) :
    e.sig = sigOf E ∧ IsUnit e.sig.det ∧ IsUnit ((bigZ X)ᵀ * omega n e.sig⁻¹ * bigZ X).det ∧
      e.varb = ((bigZ X)ᵀ * omega n e.sig⁻¹ * bigZ X)⁻¹ ∧
      stackB e.b = e.varb *ᵥ ((bigZ X)ᵀ *ᵥ (omega n e.sig⁻¹ *ᵥ bigY y)) := by
  unfold surEst at h
  simp only [Option.bind_eq_some_iff, Option.map_eq_some_iff] at h
  obtain ⟨sigi, h1, varb, h2, rfl⟩ := h
  obtain ⟨h1a, rfl, -, -⟩ := inv?_eq_some h1
  rw [xsigx_eq] at h2
  obtain ⟨h2a, rfl, -, -⟩ := inv?_eq_some h2
  refine ⟨rfl, h1a, h2a, rfl, ?_⟩
  simp only
  rw [← xsigy_eq]
  rfl

theorem surEst_of_isUnit (X : ∀ r, Matrix n (K r) ℝ) (y : R → n → ℝ) (E : Matrix n R ℝ)
    (h1 : IsUnit (sigOf E).det) (h2 : IsUnit ((bigZ X)ᵀ * omega n (sigOf E)⁻¹ * bigZ X).det) :
    ∃ e, surEst (crossXX X) (crossXy X y) E = some e := by
  unfold surEst
  simp only [inv?_of_isUnit h1, Option.bind_some]
  rw [xsigx_eq, inv?_of_isUnit h2]
  exact ⟨_, rfl⟩

/-- C41: the SUR coefficients solve the generalised least squares equations of the stacked system with
error covariance `Sigma ⊗ I`, and `varb` is the inverse of the GLS cross product. -/
theorem C41_gls (X : ∀ r, Matrix n (K r) ℝ) (y : R → n → ℝ) (E : Matrix n R ℝ) (e : Est R K)
    (h : surEst (crossXX X) (crossXy X y) E = some e) :
    (bigZ X)ᵀ *ᵥ ((omega n e.sig)⁻¹ *ᵥ (bigY y - bigZ X *ᵥ stackB e.b)) = 0 ∧
      e.varb * ((bigZ X)ᵀ * (omega n e.sig)⁻¹ * bigZ X) = 1 ∧
      e.sig = (1 / (Fintype.card n : ℝ)) • (Eᵀ * E) := by
  obtain ⟨h1, h2, h3, h4, h5⟩ := surEst_some X y E e h
  refine ⟨?_, ?_, h1⟩
  · rw [omega_inv, mulVec_sub, mulVec_sub, h5, h4]
    simp only [mulVec_mulVec]
    simp only [← Matrix.mul_assoc]
    rw [Matrix.mul_nonsing_inv _ h3, Matrix.one_mul, sub_self]
  · rw [omega_inv, h4, Matrix.nonsing_inv_mul _ h3]

theorem sig_psd (E : Matrix n R ℝ) : SymPSD (sigOf E) := psd_smul (psd_gram E) _ (by positivity)

/-- Quadratic form of a nonsingular positive semidefinite matrix's inverse. -/
theorem inv_quad {S : Matrix R R ℝ} (h : SymPSD S) (hu : IsUnit S.det) (g : R → ℝ) :
    0 ≤ g ⬝ᵥ (S⁻¹ *ᵥ g) ∧ (g ⬝ᵥ (S⁻¹ *ᵥ g) = 0 ↔ g = 0) :=
  LM.psd_inv h (Matrix.mul_nonsing_inv _ hu) g

theorem inv_psd {S : Matrix R R ℝ} (h : SymPSD S) (hu : IsUnit S.det) : SymPSD S⁻¹ := by
  refine ⟨by rw [transpose_nonsing_inv, h.1], fun v => ?_⟩
  rw [quad_eq]; exact (inv_quad h hu v).1

theorem omega_quad (S : Matrix R R ℝ) (v : R × n → ℝ) :
    v ⬝ᵥ (omega n S *ᵥ v) = ∑ i, (fun r => v (r, i)) ⬝ᵥ (S *ᵥ fun r => v (r, i)) := by
  simp only [dotProduct, omega_mulVec, Fintype.sum_prod_type]
  rw [Finset.sum_comm]
  rfl

theorem omega_symm {S : Matrix R R ℝ} (h : Sᵀ = S) : (omega n S)ᵀ = omega n S := by
  unfold omega
  rw [← kroneckerMap_transpose, h, transpose_one]

/-- The quadratic form of the stacked residuals is `tr(S E'E)`. -/
theorem omega_trace (S : Matrix R R ℝ) (E : Matrix n R ℝ) :
    (fun p : R × n => E p.2 p.1) ⬝ᵥ (omega n S *ᵥ fun p : R × n => E p.2 p.1) = (S * (Eᵀ * E)).trace := by
  rw [omega_quad]
  simp only [dotProduct, mulVec, Matrix.trace, Matrix.diag, Matrix.mul_apply, Matrix.transpose_apply, Finset.mul_sum]
  rw [Finset.sum_comm]
  refine Finset.sum_congr rfl fun r _ => ?_
  rw [Finset.sum_comm]
  exact Finset.sum_congr rfl fun t _ => Finset.sum_congr rfl fun i _ => by ring

/-- Whether the cross product of the stacked GLS problem is invertible. -/
theorem gls_isUnit_iff (X : ∀ r, Matrix n (K r) ℝ) {S : Matrix R R ℝ} (h : SymPSD S) (hu : IsUnit S.det) :
    IsUnit ((bigZ X)ᵀ * omega n S⁻¹ * bigZ X).det ↔ ∀ r, IsUnit ((X r)ᵀ * X r).det := by
  have hz : (∀ r, IsUnit ((X r)ᵀ * X r).det) ↔ ∀ b : Stk K → ℝ, bigZ X *ᵥ b = 0 → b = 0 := by
    simp only [xtx_isUnit_iff]
    constructor
    · intro H b hb
      funext p
      have := H p.1 (fun j => b ⟨p.1, j⟩) (by
        funext i
        have := congrFun hb (p.1, i)
        rw [Z_mulVec] at this
        exact this)
      exact congrFun this p.2
    · intro H r c hc
      have := H (fun p => if h : p.1 = r then c (h ▸ p.2) else 0) (by
        funext p
        rw [Z_mulVec]
        by_cases hp : p.1 = r
        · obtain ⟨a, i⟩ := p
          subst hp
          simpa using congrFun hc i
        · simp [hp, mulVec, dotProduct])
      funext j
      simpa using congrFun this ⟨r, j⟩
  rw [hz, isUnit_iff_ne_zero, ne_eq, ← exists_mulVec_eq_zero_iff]
  push Not
  have hsum : ∀ b : Stk K → ℝ, (bigZ X *ᵥ b) ⬝ᵥ (omega n S⁻¹ *ᵥ (bigZ X *ᵥ b)) =
      b ⬝ᵥ (((bigZ X)ᵀ * omega n S⁻¹ * bigZ X) *ᵥ b) := by
    intro b
    rw [← mulVec_mulVec, ← mulVec_mulVec, dotProduct_mulVec b, vecMul_transpose]
  constructor
  · intro H b hb
    by_contra hne
    exact H b hne (by rw [← mulVec_mulVec, hb, mulVec_zero])
  · intro H b hne hb
    have h0 := hsum b
    rw [hb, dotProduct_zero, omega_quad] at h0
    have h1 := (Finset.sum_eq_zero_iff_of_nonneg fun i _ => (inv_quad h hu _).1).1 h0
    apply hne
    apply H
    funext p
    have := (inv_quad h hu _).2.1 (h1 p.2 (Finset.mem_univ _))
    exact congrFun this p.1

/-- C41: the estimate exists exactly when the residual covariance matrix is nonsingular and every equation
has linearly independent regressors. -/
theorem C41_exists_iff (X : ∀ r, Matrix n (K r) ℝ) (y : R → n → ℝ) (E : Matrix n R ℝ) :
    (∃ e, surEst (crossXX X) (crossXy X y) E = some e) ↔
      IsUnit (sigOf E).det ∧ ∀ r, IsUnit ((X r)ᵀ * X r).det := by
  constructor
  · rintro ⟨e, he⟩
    obtain ⟨h1, h2, h3, -, -⟩ := surEst_some X y E e he
    rw [h1] at h2 h3
    exact ⟨h2, (gls_isUnit_iff X (sig_psd E) h2).1 h3⟩
  · rintro ⟨h1, h2⟩
    exact surEst_of_isUnit X y E h1 ((gls_isUnit_iff X (sig_psd E) h1).2 h2)

/-- C41: the SUR coefficients minimise the generalised sum of squares `e' (Sigma⁻¹ ⊗ I) e` over all
coefficients. -/
theorem C41_minimises (X : ∀ r, Matrix n (K r) ℝ) (y : R → n → ℝ) (E : Matrix n R ℝ) (e : Est R K)
    (h : surEst (crossXX X) (crossXy X y) E = some e) (b : ∀ r, K r → ℝ) :
    (e.sig⁻¹ * ((surResids y X e.b)ᵀ * surResids y X e.b)).trace ≤
      (e.sig⁻¹ * ((surResids y X b)ᵀ * surResids y X b)).trace := by
  obtain ⟨h1, h2, -, -, -⟩ := surEst_some X y E e h
  have hg := (C41_gls X y E e h).1
  rw [omega_inv] at hg
  have hpsd : SymPSD e.sig := by rw [h1]; exact sig_psd E
  rw [← omega_trace, ← omega_trace]
  have e1 : ∀ b : ∀ r, K r → ℝ, (fun p : R × n => surResids y X b p.2 p.1) = bigY y - bigZ X *ᵥ stackB b := by
    intro b; funext p; rw [resid_stack]
  rw [e1, e1]
  set S := omega n e.sig⁻¹
  set u := bigY y - bigZ X *ᵥ stackB e.b
  have e2 : bigY y - bigZ X *ᵥ stackB b = u + bigZ X *ᵥ (stackB e.b - stackB b) := by
    rw [mulVec_sub]; simp only [u]; abel
  set d := stackB e.b - stackB b
  rw [e2]
  have hS : Sᵀ = S := omega_symm (inv_psd hpsd h2).1
  have c1 : (bigZ X *ᵥ d) ⬝ᵥ (S *ᵥ u) = 0 := by
    rw [dotProduct_comm, dotProduct_mulVec, ← mulVec_transpose, hg, zero_dotProduct]
  have c2 : u ⬝ᵥ (S *ᵥ (bigZ X *ᵥ d)) = 0 := by
    rw [dotProduct_mulVec, ← mulVec_transpose, hS, dotProduct_comm, c1]
  have c3 : 0 ≤ (bigZ X *ᵥ d) ⬝ᵥ (S *ᵥ (bigZ X *ᵥ d)) := by
    rw [omega_quad]
    exact Finset.sum_nonneg fun i _ => (inv_quad hpsd h2 _).1
  rw [mulVec_add, add_dotProduct, dotProduct_add, dotProduct_add, c1, c2]
  linarith

/-- C41: the SUR covariance matrix of the coefficients is symmetric positive semidefinite. -/
theorem C41_varb_psd (X : ∀ r, Matrix n (K r) ℝ) (y : R → n → ℝ) (E : Matrix n R ℝ) (e : Est R K)
    (h : surEst (crossXX X) (crossXy X y) E = some e) : SymPSD e.varb := by
  obtain ⟨h1, h2, h3, h4, -⟩ := surEst_some X y E e h
  have hpsd : SymPSD e.sig := by rw [h1]; exact sig_psd E
  have hx : SymPSD ((bigZ X)ᵀ * omega n e.sig⁻¹ * bigZ X) := by
    refine ⟨?_, fun v => ?_⟩
    · rw [transpose_mul, transpose_mul, transpose_transpose, omega_symm (inv_psd hpsd h2).1, Matrix.mul_assoc]
    · rw [quad_eq, ← mulVec_mulVec, ← mulVec_mulVec, dotProduct_mulVec v, vecMul_transpose, omega_quad]
      exact Finset.sum_nonneg fun i _ => (inv_quad hpsd h2 _).1
  rw [h4]
  refine ⟨by rw [transpose_nonsing_inv, hx.1], fun v => ?_⟩
  rw [quad_eq]
  exact (LM.psd_inv hx (Matrix.mul_nonsing_inv _ h3) v).1

theorem ols_of_normal {k : Type} [Fintype k] [DecidableEq k] (x : Matrix n k ℝ) (y : n → ℝ) (b : k → ℝ)
    (hu : IsUnit (xᵀ * x).det) (h : xᵀ *ᵥ (y - x *ᵥ b) = 0) : ∃ f, ols x y = some f ∧ f.betas = b := by
  refine ⟨_, ols_of_isUnit x y hu, ?_⟩
  rw [mulVec_sub, sub_eq_zero, mulVec_mulVec] at h
  show (xᵀ * x)⁻¹ *ᵥ (xᵀ *ᵥ y) = b
  rw [h, mulVec_mulVec, Matrix.nonsing_inv_mul _ hu, one_mulVec]

/-- The GLS equations written equation by equation. -/
theorem gls_rows (X : ∀ r, Matrix n (K r) ℝ) (y : R → n → ℝ) (E : Matrix n R ℝ) (e : Est R K)
    (h : surEst (crossXX X) (crossXy X y) E = some e) (r : R) (j : K r) :
    ∑ i, X r i j * ∑ t, e.sig⁻¹ r t * surResids y X e.b i t = 0 := by
  have hg := congrFun (C41_gls X y E e h).1 ⟨r, j⟩
  rw [omega_inv, Zt_mulVec] at hg
  simp only [omega_mulVec, resid_stack, Pi.zero_apply] at hg
  exact hg

theorem resid_eq (X : ∀ r, Matrix n (K r) ℝ) (y : R → n → ℝ) (b : ∀ r, K r → ℝ) (r : R) :
    (fun i => surResids y X b i r) = y r - X r *ᵥ b r := rfl

/-- C41 (nesting, 1): with a diagonal residual covariance matrix the SUR coefficients are the OLS
coefficients of each equation. -/
theorem C41_diagonal_ols (X : ∀ r, Matrix n (K r) ℝ) (y : R → n → ℝ) (E : Matrix n R ℝ) (e : Est R K)
    (h : surEst (crossXX X) (crossXy X y) E = some e) (hd : ∀ r t, r ≠ t → e.sig r t = 0) (r : R) :
    ∃ f, ols (X r) (y r) = some f ∧ f.betas = e.b r := by
  obtain ⟨h1, h2, -, -, -⟩ := surEst_some X y E e h
  have hu := ((C41_exists_iff X y E).1 ⟨e, h⟩).2 r
  apply ols_of_normal _ _ _ hu
  have hdi : e.sig = Matrix.diagonal fun r => e.sig r r := by
    ext a b
    by_cases hab : a = b
    · subst hab; simp
    · rw [hd a b hab, Matrix.diagonal_apply_ne _ hab]
  have hne : ∀ r, e.sig r r ≠ 0 := by
    rw [hdi, Matrix.det_diagonal, isUnit_iff_ne_zero] at h2
    intro a
    exact Finset.prod_ne_zero_iff.1 h2 a (Finset.mem_univ _)
  have hinv : ∀ a b, e.sig⁻¹ a b = if a = b then (e.sig a a)⁻¹ else 0 := by
    have : e.sig⁻¹ = Matrix.diagonal fun r => (e.sig r r)⁻¹ := by
      apply Matrix.inv_eq_right_inv
      rw [hdi, Matrix.diagonal_mul_diagonal]
      simp only [Matrix.diagonal_apply_eq]
      rw [← Matrix.diagonal_one]
      congr 1
      funext a
      exact mul_inv_cancel₀ (hne a)
    intro a b
    rw [this, Matrix.diagonal_apply]
  funext j
  have := gls_rows X y E e h r j
  simp only [hinv, ite_mul, zero_mul, Finset.sum_ite_eq, Finset.mem_univ, if_true] at this
  have e3 : ∑ i, X r i j * ((e.sig r r)⁻¹ * surResids y X e.b i r) =
      (e.sig r r)⁻¹ * ∑ i, X r i j * surResids y X e.b i r := by
    rw [Finset.mul_sum]; exact Finset.sum_congr rfl fun i _ => by ring
  rw [e3] at this
  have := (mul_eq_zero.1 this).resolve_left (inv_ne_zero (hne r))
  exact this

/-- C41 (nesting, 2): if all equations have the same regressors, the SUR coefficients are the OLS
coefficients of each equation, whatever the covariance matrix. -/
theorem C41_same_regressors_ols {k : Type} [Fintype k] [DecidableEq k] (x : Matrix n k ℝ) (y : R → n → ℝ)
    (E : Matrix n R ℝ) (e : Est R fun _ => k)
    (h : surEst (K := fun _ : R => k) (crossXX fun _ => x) (crossXy (fun _ => x) y) E = some e) (r : R) :
    ∃ f, ols x (y r) = some f ∧ f.betas = e.b r := by
  obtain ⟨h1, h2, -, -, -⟩ := surEst_some _ y E e h
  have hu := ((C41_exists_iff (fun _ : R => x) y E).1 ⟨e, h⟩).2 r
  apply ols_of_normal _ _ _ hu
  funext j
  set g : R → ℝ := fun t => ∑ i, x i j * surResids y (fun _ => x) e.b i t
  have hg : e.sig⁻¹ *ᵥ g = 0 := by
    funext r
    have := gls_rows (fun _ : R => x) y E e h r j
    simp only [mulVec, dotProduct, g, Pi.zero_apply, Finset.mul_sum] at this ⊢
    rw [Finset.sum_comm, ← this]
    exact Finset.sum_congr rfl fun i _ => Finset.sum_congr rfl fun t _ => by ring
  have : g = 0 := by
    have h3 := congrArg (fun v => e.sig *ᵥ v) hg
    simpa [mulVec_mulVec, Matrix.mul_nonsing_inv _ h2] using h3
  exact congrFun this r

end Spreg.SUR
