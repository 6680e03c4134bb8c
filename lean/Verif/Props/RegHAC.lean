import Verif.Props.LagRegimes
import Verif.Model.PooledRegimes
/-
HAC standard errors with regimes (C163).
-/
set_option linter.unusedSectionVars false
namespace Spreg.LagReg
open Matrix Spreg Spreg.Lin Spreg.RegimesMat

variable {n k l m ρ : Type} [Fintype n] [Fintype k] [Fintype l] [Fintype m] [Fintype ρ] [DecidableEq ρ]
  [DecidableEq k] [DecidableEq l] [DecidableEq m]

/-- Cross product of the moment conditions of two regimes through the kernel: the sum over `i` in regime `r` and `j` in regime `s`
of `K i j u_i u_j h_i h_j'`. -/
def crossHAC (g : n → ρ) (h : Matrix n l ℝ) (u : n → ℝ) (K : Matrix n n ℝ) (r s : ρ) : Matrix l l ℝ :=
  Matrix.of fun a b => ∑ i : {i // g i = r}, ∑ j : {j // g j = s}, K i.1 j.1 * (u i.1 * u j.1) * (h i.1 a * h j.1 b)

theorem crossHAC_self (g : n → ρ) (h : Matrix n l ℝ) (u : n → ℝ) (K : Matrix n n ℝ) (r : ρ) :
    crossHAC g h u K r r = psi0HAC (RegimesMat.sub h g r) (subv u g r) (subW g K r) := by
  ext a b
  simp only [crossHAC, psi0HAC, of_apply, mul_apply, transpose_apply, broadcast, RegimesMat.sub, subv, subW, Finset.mul_sum]
  refine Finset.sum_congr rfl fun i _ => Finset.sum_congr rfl fun j _ => ?_
  ring

theorem psi0HAC_expand (g : n → ρ) (h : Matrix n l ℝ) (u : n → ℝ) (K : Matrix n n ℝ) (a b : l) (r s : ρ) :
    psi0HAC (expand h g) u K (a, r) (b, s) = crossHAC g h u K r s a b := by
  simp only [crossHAC, psi0HAC, of_apply, mul_apply, transpose_apply, broadcast, expand, Finset.mul_sum]
  rw [sum_sub g r fun i => ∑ j : {j // g j = s}, K i j.1 * (u i * u j.1) * (h i a * h j.1 b)]
  refine Finset.sum_congr rfl fun i _ => ?_
  rw [sum_sub g s fun j => K i j * (u i * u j) * (h i a * h j b)]
  split
  · refine Finset.sum_congr rfl fun j _ => ?_
    split
    · ring
    · simp
  · simp

theorem block_sandwich (A : ρ → Matrix k l ℝ) (P : Matrix (l × ρ) (l × ρ) ℝ) (Q : ρ → ρ → Matrix l l ℝ)
    (hP : ∀ a b r s, P (a, r) (b, s) = Q r s a b) (a b : k) (r s : ρ) :
    (blockDiagonal A * (P * (blockDiagonal A)ᵀ)) (a, r) (b, s) = (A r * (Q r s * (A s)ᵀ)) a b := by
  have e1 : ∀ c r', (P * (blockDiagonal A)ᵀ) (c, r') (b, s) = (Q r' s * (A s)ᵀ) c b := by
    intro c r'
    simp only [mul_apply, transpose_apply]
    rw [Fintype.sum_prod_type_right, Finset.sum_eq_single s]
    · refine Finset.sum_congr rfl fun d _ => ?_
      rw [blockDiagonal_apply, if_pos rfl, hP]
    · intro t _ ht
      refine Finset.sum_eq_zero fun d _ => ?_
      rw [blockDiagonal_apply, if_neg (Ne.symm ht), mul_zero]
    · simp
  rw [mul_apply (M := A r), mul_apply, Fintype.sum_prod_type_right, Finset.sum_eq_single r]
  · refine Finset.sum_congr rfl fun d _ => ?_
    rw [blockDiagonal_apply, if_pos rfl, e1]
  · intro t _ ht
    refine Finset.sum_eq_zero fun d _ => ?_
    rw [blockDiagonal_apply, if_neg (Ne.symm ht), zero_mul]
  · simp


/-- What the joint HAC variance matrix is in terms of the separate regressions: `P r` turns the moment conditions of regime `r`
into its coefficients, `h` are the instruments (the regressors for OLS), `u r` the residuals of the regime's own regression. -/
structure HACBlocks (g : n → ρ) (h : Matrix n l ℝ) (K : Matrix n n ℝ) (V : Matrix (k × ρ) (k × ρ) ℝ) (P : ρ → Matrix k l ℝ)
    (u : ∀ r, {i // g i = r} → ℝ) : Prop where
  /-- the block of a regime is the HAC variance matrix of the regime's own regression, with the kernel weights among its
  observations -/
  own : ∀ r a b, V (a, r) (b, r) = (P r * (psi0HAC (RegimesMat.sub h g r) (u r) (subW g K r) * (P r)ᵀ)) a b
  /-- the covariances between two regimes come from the kernel weights between their observations -/
  cross : ∀ r s a b, V (a, r) (b, s) = ∑ i : {i // g i = r}, ∑ j : {j // g j = s},
    K i.1 j.1 * (u r i * (P r *ᵥ h i.1) a) * (u s j * (P s *ᵥ h j.1) b)
  /-- without kernel weights between regimes the coefficients of different regimes are uncorrelated -/
  apart : GM.NoLinks g K → ∀ r s a b, r ≠ s → V (a, r) (b, s) = 0

theorem hacBlocks (g : n → ρ) (h : Matrix n l ℝ) (K : Matrix n n ℝ) (P : ρ → Matrix k l ℝ) (u : n → ℝ)
    (V : Matrix (k × ρ) (k × ρ) ℝ) (hV : V = blockDiagonal P * (psi0HAC (expand h g) u K * (blockDiagonal P)ᵀ)) :
    HACBlocks g h K V P fun r => subv u g r := by
  have hb : ∀ r s a b, V (a, r) (b, s) = (P r * (crossHAC g h u K r s * (P s)ᵀ)) a b := by
    intro r s a b
    rw [hV]
    exact block_sandwich P _ (crossHAC g h u K) (fun a b r s => psi0HAC_expand g h u K a b r s) a b r s
  have hc : ∀ r s a b, V (a, r) (b, s) = ∑ i : {i // g i = r}, ∑ j : {j // g j = s},
      K i.1 j.1 * (subv u g r i * (P r *ᵥ h i.1) a) * (subv u g s j * (P s *ᵥ h j.1) b) := by
    intro r s a b
    rw [hb]
    simp only [mul_apply, crossHAC, of_apply, transpose_apply, mulVec, dotProduct, subv, Finset.mul_sum, Finset.sum_mul]
    rw [Finset.sum_comm]
    have e : ∀ d : l, (∑ c : l, ∑ i : {i // g i = r}, ∑ j : {j // g j = s},
        P r a c * (K i.1 j.1 * (u i.1 * u j.1) * (h i.1 c * h j.1 d) * P s b d)) =
        ∑ i : {i // g i = r}, ∑ j : {j // g j = s}, ∑ c : l,
        P r a c * (K i.1 j.1 * (u i.1 * u j.1) * (h i.1 c * h j.1 d) * P s b d) := by
      intro d
      rw [Finset.sum_comm]
      exact Finset.sum_congr rfl fun i _ => Finset.sum_comm
    simp only [e]
    rw [Finset.sum_comm]
    refine Finset.sum_congr rfl fun i _ => ?_
    rw [Finset.sum_comm]
    refine Finset.sum_congr rfl fun j _ => Finset.sum_congr rfl fun d _ => Finset.sum_congr rfl fun c _ => ?_
    ring
  refine ⟨fun r a b => by rw [hb, crossHAC_self], hc, fun hK r s a b hrs => ?_⟩
  rw [hc]
  refine Finset.sum_eq_zero fun i _ => Finset.sum_eq_zero fun j _ => ?_
  rw [hK i.1 j.1 (by rw [i.2, j.2]; exact hrs)]
  ring

/-- **C163.** Two-stage least squares with regimes and `robust="hac"`: every coefficient varies, all regimes are estimated jointly.
The block of a regime in the variance matrix is the HAC variance matrix of the regime's own regression with the kernel weights
among its observations; the covariances between regimes come from the kernel weights between regimes. -/
theorem C163_tsls (z : Matrix n k ℝ) (h : Matrix n l ℝ) (g : n → ρ) (y : n → ℝ) (K : Matrix n n ℝ)
    (fs : ∀ r, TSLSFit {i // g i = r} k l)
    (hfs : ∀ r, tslsZH (RegimesMat.sub z g r) (RegimesMat.sub h g r) (subv y g r) = some (fs r)) :
    ∃ f, tslsZH (expand z g) (expand h g) y = some f ∧
      HACBlocks g h K (sandwichTSLS f.varb f.zthhthi (psi0HAC (expand h g) f.u K))
        (fun r => (fs r).varb * (fs r).zthhthi) (fun r => (fs r).u) ∧
      ∀ r a b, sandwichTSLS f.varb f.zthhthi (psi0HAC (expand h g) f.u K) (a, r) (b, r) =
        sandwichTSLS (fs r).varb (fs r).zthhthi (psi0HAC (RegimesMat.sub h g r) (fs r).u (subW g K r)) a b := by
  obtain ⟨f, hf, hA⟩ := (tsls_expand z h g y).1 fs hfs
  have hr := fun r => tslsZH_facts (hfs r)
  have hp := tslsZH_facts hf
  have e1 : f.varb = blockDiagonal fun r => (fs r).varb := by
    ext ⟨a, r⟩ ⟨b, s⟩
    rw [hA.varb, blockDiagonal_apply]
  have e2 : f.zthhthi = blockDiagonal fun r => (fs r).zthhthi := by
    rw [hp.2.2.1, expand_inv h g fun r => (hr r).1, expand_cross, ← blockDiagonal_mul]
    congr 1
    funext r
    rw [(hr r).2.2.1]
  have e3 : (fun r => subv f.u g r) = fun r => (fs r).u := by
    funext r ⟨i, hi⟩
    subst hi
    exact hA.u i
  have hB : HACBlocks g h K (sandwichTSLS f.varb f.zthhthi (psi0HAC (expand h g) f.u K))
        (fun r => (fs r).varb * (fs r).zthhthi) (fun r => (fs r).u) := by
    rw [← e3]
    refine hacBlocks g h K _ f.u _ ?_
    rw [sandwichTSLS, e1, e2, ← blockDiagonal_mul]
  exact ⟨f, hf, hB, fun r a b => hB.own r a b⟩

/-- **C163.** `OLS_Regimes` with `robust="hac"`. -/
theorem C163_ols (x : Matrix n k ℝ) (g : n → ρ) (y : n → ℝ) (K : Matrix n n ℝ) (nk errSep : Bool)
    (fs : ∀ r, OLSFit {i // g i = r} k)
    (hfs : ∀ r, ols (RegimesMat.sub x g r) (subv y g r) = some (fs r)) :
    ∃ e, Pooled.olsStep g (expand x g) y (.hac K) nk errSep = .ok e ∧ (∀ r a, e.betas (a, r) = (fs r).betas a) ∧
      HACBlocks g x K e.vm (fun r => (fs r).xtxi) (fun r => (fs r).u) ∧
      ∀ r a b, e.vm (a, r) (b, r) = Pooled.vmOLS (.hac (subW g K r)) nk (RegimesMat.sub x g r) (fs r) a b := by
  obtain ⟨f, hf, h1, -, h3, h4, -⟩ := C28_pooled x y g fs hfs
  have hE : GM.olsE (expand x g) y = .ok f := by rw [GM.olsE, hf]
  have e1 : f.xtxi = blockDiagonal fun r => (fs r).xtxi := by
    ext ⟨a, r⟩ ⟨b, s⟩
    rw [h4, blockDiagonal_apply]
  have hs : ∀ r, ((fs r).xtxi)ᵀ = (fs r).xtxi := fun r => by
    obtain ⟨-, e⟩ := ols_eq_some (hfs r)
    rw [e]
    exact xtxi_symm _
  have e3 : (fun r => subv f.u g r) = fun r => (fs r).u := by
    funext r ⟨i, hi⟩
    subst hi
    exact h3 i
  have hB : HACBlocks g x K (sandwichOLS f.xtxi (psi0HAC (expand x g) f.u K)) (fun r => (fs r).xtxi) (fun r => (fs r).u) := by
    rw [← e3]
    refine hacBlocks g x K _ f.u _ ?_
    rw [sandwichOLS, e1, blockDiagonal_transpose]
    simp only [hs]
  refine ⟨⟨f.betas, sandwichOLS f.xtxi (psi0HAC (expand x g) f.u K), f.u, f.predy,
    Pooled.s2 nk (Fintype.card (k × ρ)) f.u⟩, ?_, h1, hB, fun r a b => ?_⟩
  · rw [Pooled.olsStep, hE]
    rfl
  · refine (hB.own r a b).trans ?_
    simp only [hs]
    rfl

variable {kx ke kq : Type} [Fintype kx] [Fintype ke] [Fintype kq] [DecidableEq kx] [DecidableEq ke] [DecidableEq kq]
  [DecidableEq n]

/-- **C163.** `GM_Lag_Regimes` with `regime_lag_sep=True` and `robust="hac"`: the blocks are the HAC variance matrices of the
separate spatial lag models. -/
theorem C163_lag (g : n → ρ) (W K : Matrix n n ℝ) (hW : GM.NoLinks g W) (x : Matrix n kx ℝ) (yend : Matrix n ke ℝ)
    (q : Matrix n kq ℝ) (y : n → ℝ) (L : ℕ) (lagQ : Bool)
    (fs : ∀ r, TSLSFit {i // g i = r} ((Unit ⊕ kx) ⊕ (ke ⊕ Unit)) ((Unit ⊕ kx) ⊕ (kq ⊕ LagCol kx kq lagQ × Fin L)))
    (hfs : ∀ r, gmLag (subW g W r) (RegimesMat.sub x g r) (RegimesMat.sub yend g r) (RegimesMat.sub q g r) (subv y g r)
      L lagQ = some (fs r)) :
    ∃ f, gmLagRegimes g W x yend q y L lagQ = some f ∧
      HACBlocks g (lagH W x q L lagQ) K (sandwichTSLS f.varb f.zthhthi (psi0HAC (expand (lagH W x q L lagQ) g) f.u K))
        (fun r => (fs r).varb * (fs r).zthhthi) (fun r => (fs r).u) ∧
      ∀ r a b, sandwichTSLS f.varb f.zthhthi (psi0HAC (expand (lagH W x q L lagQ) g) f.u K) (a, r) (b, r) =
        sandwichTSLS (fs r).varb (fs r).zthhthi (psi0HAC (lagH (subW g W r) (RegimesMat.sub x g r) (RegimesMat.sub q g r) L lagQ)
          (fs r).u (subW g K r)) a b := by
  have h := C163_tsls (lagZ W x yend y) (lagH W x q L lagQ) g y K fs
  simp only [sub_lagZ g W hW, sub_lagH g W hW] at h
  exact h hfs

/-- The hypotheses are met by the example of C147, with any kernel. -/
theorem C163_example : GM.NoLinks Prod.fst exW ∧ ∃ f, gmLagRegimes (ρ := Fin 2) Prod.fst exW exX exE exE exY 1 true = some f := by
  refine ⟨C147_example.1, ?_⟩
  choose fs hfs using C147_example.2
  obtain ⟨f, hf, -⟩ := C163_lag Prod.fst exW 1 C147_example.1 exX exE exE exY 1 true fs hfs
  exact ⟨f, hf⟩

end Spreg.LagReg
