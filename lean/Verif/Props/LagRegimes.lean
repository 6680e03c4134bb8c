import Verif.Model.LagRegimes
import Verif.Props.WRegimes
import Verif.Props.RegimesMat
/-
Spatial lag models with one spatial coefficient per regime are the separate spatial lag models (C147).
-/
namespace Spreg.LagReg
open Matrix Spreg Spreg.Lin Spreg.RegimesMat

variable {n k l ρ : Type} [Fintype n] [Fintype k] [Fintype l] [Fintype ρ] [DecidableEq ρ]

/-! ### Two-stage least squares, framed -/

omit [Fintype k] [Fintype l] in
theorem expand_cross [DecidableEq k] [DecidableEq l] (z : Matrix n k ℝ) (h : Matrix n l ℝ) (g : n → ρ) :
    (expand z g)ᵀ * expand h g = blockDiagonal fun r => (RegimesMat.sub z g r)ᵀ * RegimesMat.sub h g r := by
  ext ⟨j, r⟩ ⟨j', r'⟩
  rw [blockDiagonal_apply, mul_apply]
  simp only [expand, RegimesMat.sub, transpose_apply, of_apply]
  split
  · next e =>
    obtain rfl : r = r' := e
    rw [mul_apply]
    simp only [transpose_apply, of_apply]
    rw [sum_sub g r fun i => z i j * h i j']
    refine Finset.sum_congr rfl fun i _ => ?_
    split <;> simp
  · next e =>
    apply Finset.sum_eq_zero
    intro i _
    by_cases h1 : g i = r
    · rw [if_neg (show ¬ g i = r' by rw [h1]; exact e), mul_zero]
    · rw [if_neg h1, zero_mul]

theorem inv?_block [DecidableEq k] (A B : ρ → Matrix k k ℝ) (h : ∀ r, inv? (A r) = some (B r)) :
    inv? (blockDiagonal A) = some (blockDiagonal B) := by
  have hu : IsUnit (blockDiagonal A).det := by
    rw [det_blockDiagonal, isUnit_iff_ne_zero, Finset.prod_ne_zero_iff]
    exact fun r _ => isUnit_iff_ne_zero.1 (inv?_eq_some (h r)).1
  rw [inv?_of_isUnit hu]
  congr 1
  apply inv_eq_right_inv
  rw [← blockDiagonal_mul, ← blockDiagonal_one]
  congr 1
  funext r
  exact (inv?_eq_some (h r)).2.2.1

theorem inv?_block_none [DecidableEq k] (A : ρ → Matrix k k ℝ) (r : ρ) (h : inv? (A r) = none) :
    inv? (blockDiagonal A) = none := by
  by_contra hc
  obtain ⟨B, hB⟩ := Option.ne_none_iff_exists'.1 hc
  have hu := (inv?_eq_some hB).1
  rw [det_blockDiagonal, isUnit_iff_ne_zero, Finset.prod_ne_zero_iff] at hu
  rw [inv?_of_isUnit (isUnit_iff_ne_zero.2 (hu r (Finset.mem_univ r)))] at h
  cases h

omit [Fintype k] in
/-- Blocks act by regime, rectangular form. -/
theorem block_mulVec [DecidableEq k] [DecidableEq l] (M : ρ → Matrix k l ℝ) (v : l × ρ → ℝ) (j : k) (r : ρ) :
    (blockDiagonal M *ᵥ v) (j, r) = (M r *ᵥ fun j' => v (j', r)) j := by
  simp only [mulVec, dotProduct, blockDiagonal_apply]
  rw [Fintype.sum_prod_type_right]
  rw [Finset.sum_eq_single r]
  · simp
  · intro b _ hb
    apply Finset.sum_eq_zero
    intro a _
    rw [if_neg (Ne.symm hb), zero_mul]
  · simp

/-- The joint fit is the assembly of the fits by regime; `h` are the instruments. -/
structure Assembled (g : n → ρ) (h : Matrix n l ℝ) (f : TSLSFit n (k × ρ) (l × ρ))
    (fs : ∀ r, TSLSFit {i // g i = r} k l) : Prop where
  betas : ∀ r j, f.betas (j, r) = (fs r).betas j
  predy : ∀ i, f.predy i = (fs (g i)).predy ⟨i, rfl⟩
  u : ∀ i, f.u i = (fs (g i)).u ⟨i, rfl⟩
  varb : ∀ r r' j j', f.varb (j, r) (j', r') = if r = r' then (fs r).varb j j' else 0
  /-- sums of squared residuals add up -/
  ssr : utu f.u = ∑ r, utu (fs r).u
  /-- White's variance matrix (`robust="white"`) -/
  white : ∀ r r' j j', sandwichTSLS f.varb f.zthhthi (psi0White (expand h g) f.u none) (j, r) (j', r') =
    if r = r' then sandwichTSLS (fs r).varb (fs r).zthhthi (psi0White (RegimesMat.sub h g r) (fs r).u none) j j' else 0

theorem white_block [DecidableEq l] (h : Matrix n l ℝ) (g : n → ρ) (u : n → ℝ) :
    psi0White (expand h g) u none = blockDiagonal fun r => psi0White (RegimesMat.sub h g r) (subv u g r) none := by
  have e : broadcast (expand h g) u = expand (broadcast h u) g := by
    ext i c
    simp only [broadcast, expand, of_apply]
    split <;> simp
  have e2 : ∀ r, broadcast (RegimesMat.sub h g r) (subv u g r) = RegimesMat.sub (broadcast h u) g r := fun r => rfl
  simp only [psi0White, e, e2]
  exact expand_gram _ g

theorem tsls_expand [DecidableEq k] [DecidableEq l] (z : Matrix n k ℝ) (h : Matrix n l ℝ) (g : n → ρ) (y : n → ℝ) :
    (∀ fs : ∀ r, TSLSFit {i // g i = r} k l,
      (∀ r, tslsZH (RegimesMat.sub z g r) (RegimesMat.sub h g r) (subv y g r) = some (fs r)) →
      ∃ f, tslsZH (expand z g) (expand h g) y = some f ∧ Assembled g h f fs) ∧
    ((∃ r, tslsZH (RegimesMat.sub z g r) (RegimesMat.sub h g r) (subv y g r) = none) →
      tslsZH (expand z g) (expand h g) y = none) := by
  constructor
  · intro fs hfs
    have hf := fun r => tslsZH_facts (hfs r)
    have e1 : inv? ((expand h g)ᵀ * expand h g) = some (blockDiagonal fun r => (fs r).hthi) := by
      rw [expand_gram]
      refine inv?_block _ _ fun r => ?_
      rw [inv?_of_isUnit (hf r).1, (hf r).2.1]
    have ez : (expand z g)ᵀ * expand h g * (blockDiagonal fun r => (fs r).hthi) =
        blockDiagonal fun r => (fs r).zthhthi := by
      rw [expand_cross, ← blockDiagonal_mul]
      congr 1
      funext r
      rw [(hf r).2.2.1, (hf r).2.1]
    have e2 : inv? ((expand z g)ᵀ * expand h g * (blockDiagonal fun r => (fs r).hthi) * ((expand z g)ᵀ * expand h g)ᵀ) =
        some (blockDiagonal fun r => (fs r).varb) := by
      rw [ez, expand_cross, blockDiagonal_transpose, ← blockDiagonal_mul]
      refine inv?_block _ _ fun r => ?_
      rw [(hf r).2.2.1, inv?_of_isUnit (hf r).2.2.2.1, (hf r).2.2.2.2.1]
    have hF : tslsZH (expand z g) (expand h g) y = some
        { betas := ((blockDiagonal fun r => (fs r).varb) * blockDiagonal fun r => (fs r).zthhthi) *ᵥ ((expand h g)ᵀ *ᵥ y)
          predy := expand z g *ᵥ (((blockDiagonal fun r => (fs r).varb) * blockDiagonal fun r => (fs r).zthhthi) *ᵥ
            ((expand h g)ᵀ *ᵥ y))
          u := y - expand z g *ᵥ (((blockDiagonal fun r => (fs r).varb) * blockDiagonal fun r => (fs r).zthhthi) *ᵥ
            ((expand h g)ᵀ *ᵥ y))
          hthi := blockDiagonal fun r => (fs r).hthi
          varb := blockDiagonal fun r => (fs r).varb
          zthhthi := blockDiagonal fun r => (fs r).zthhthi } := by
      rw [tslsZH, e1, Option.bind_some]
      dsimp only
      rw [e2, ez]
      rfl
    have hb : ∀ r j, (((blockDiagonal fun r => (fs r).varb) * blockDiagonal fun r => (fs r).zthhthi) *ᵥ
        ((expand h g)ᵀ *ᵥ y)) (j, r) = (fs r).betas j := by
      intro r j
      rw [← blockDiagonal_mul, block_mulVec, expand_xty, (hf r).2.2.2.2.2.1]
    have hp : ∀ i, (expand z g *ᵥ (((blockDiagonal fun r => (fs r).varb) * blockDiagonal fun r => (fs r).zthhthi) *ᵥ
        ((expand h g)ᵀ *ᵥ y))) i = (fs (g i)).predy ⟨i, rfl⟩ := by
      intro i
      rw [expand_mulVec]
      simp only [hb]
      rw [(hf (g i)).2.2.2.2.2.2.1]
      rfl
    have hu : ∀ i, (y - expand z g *ᵥ (((blockDiagonal fun r => (fs r).varb) * blockDiagonal fun r => (fs r).zthhthi) *ᵥ
        ((expand h g)ᵀ *ᵥ y))) i = (fs (g i)).u ⟨i, rfl⟩ := by
      intro i
      rw [Pi.sub_apply, hp, (hf (g i)).2.2.2.2.2.2.2]
      rfl
    have hur : ∀ r, subv (y - expand z g *ᵥ (((blockDiagonal fun r => (fs r).varb) *
        blockDiagonal fun r => (fs r).zthhthi) *ᵥ ((expand h g)ᵀ *ᵥ y))) g r = (fs r).u := by
      intro r
      funext ⟨i, hi⟩
      subst hi
      exact hu i
    refine ⟨_, hF, hb, hp, hu, ?_, ?_, ?_⟩
    · intro r r' j j'
      show (blockDiagonal fun r => (fs r).varb) (j, r) (j', r') = _
      rw [blockDiagonal_apply]
    · show utu _ = _
      simp only [utu]
      rw [← Finset.sum_fiberwise (s := Finset.univ) (g := g)]
      refine Finset.sum_congr rfl fun r _ => ?_
      rw [← hur r, Finset.sum_filter]
      exact (sum_sub g r fun i => (y - expand z g *ᵥ (((blockDiagonal fun r => (fs r).varb) *
        blockDiagonal fun r => (fs r).zthhthi) *ᵥ ((expand h g)ᵀ *ᵥ y))) i ^ 2).symm
    · intro r r' j j'
      show sandwichTSLS (blockDiagonal fun r => (fs r).varb) (blockDiagonal fun r => (fs r).zthhthi) _ _ _ = _
      rw [white_block]
      simp only [hur, sandwichTSLS]
      rw [← blockDiagonal_mul, blockDiagonal_transpose, ← blockDiagonal_mul, ← blockDiagonal_mul, blockDiagonal_apply]
  · rintro ⟨r, hr⟩
    by_contra hc
    obtain ⟨f, hf⟩ := Option.ne_none_iff_exists'.1 hc
    obtain ⟨h1, -, -, h4, -⟩ := tslsZH_facts hf
    have u1 := (expand_isUnit h g).1 h1
    rw [expand_inv h g u1, expand_cross, blockDiagonal_transpose, ← blockDiagonal_mul, ← blockDiagonal_mul,
      det_blockDiagonal, isUnit_iff_ne_zero, Finset.prod_ne_zero_iff] at h4
    obtain ⟨f', hf'⟩ := tslsZH_of_isUnit (RegimesMat.sub z g r) (RegimesMat.sub h g r) (subv y g r) (u1 r)
      (isUnit_iff_ne_zero.2 (h4 r (Finset.mem_univ r)))
    rw [hr] at hf'
    cases hf'

/-! ### Lags within regimes -/

variable [DecidableEq n]

omit [Fintype k] [DecidableEq n] in
theorem sub_lag (g : n → ρ) (W : Matrix n n ℝ) (hW : GM.NoLinks g W) (v : Matrix n k ℝ) (r : ρ) :
    RegimesMat.sub (W * v) g r = subW g W r * RegimesMat.sub v g r := by
  ext ⟨i, hi⟩ j
  subst hi
  show (W * v) i j = ∑ m : {m // g m = g i}, W i m.1 * v m.1 j
  rw [mul_apply, sum_sub g (g i) fun m => W i m * v m j]
  refine Finset.sum_congr rfl fun m _ => ?_
  split
  · rfl
  · next h => rw [hW i m fun e => h e.symm, zero_mul]

omit [Fintype k] in
theorem sub_pow (g : n → ρ) (W : Matrix n n ℝ) (hW : GM.NoLinks g W) (v : Matrix n k ℝ) (r : ρ) :
    ∀ p, RegimesMat.sub (W ^ p * v) g r = subW g W r ^ p * RegimesMat.sub v g r
  | 0 => by rw [pow_zero, pow_zero, Matrix.one_mul, Matrix.one_mul]
  | p + 1 => by
    rw [pow_succ', Matrix.mul_assoc, sub_lag g W hW, sub_pow g W hW v r p, pow_succ', Matrix.mul_assoc]

omit [DecidableEq n] in
theorem subv_lag (g : n → ρ) (W : Matrix n n ℝ) (hW : GM.NoLinks g W) (y : n → ℝ) (r : ρ) :
    subv (W *ᵥ y) g r = subW g W r *ᵥ subv y g r := by
  funext ⟨i, hi⟩
  subst hi
  show ∑ m, W i m * y m = ∑ m : {m // g m = g i}, W i m.1 * y m.1
  rw [sum_sub g (g i) fun m => W i m * y m]
  refine Finset.sum_congr rfl fun m _ => ?_
  split
  · rfl
  · next h => rw [hW i m fun e => h e.symm, zero_mul]

variable {kx ke kq : Type} [Fintype kx] [Fintype ke] [Fintype kq]

omit [Fintype kx] [Fintype ke] [DecidableEq n] in
theorem sub_lagZ (g : n → ρ) (W : Matrix n n ℝ) (hW : GM.NoLinks g W) (x : Matrix n kx ℝ) (yend : Matrix n ke ℝ)
    (y : n → ℝ) (r : ρ) : RegimesMat.sub (lagZ W x yend y) g r =
      lagZ (subW g W r) (RegimesMat.sub x g r) (RegimesMat.sub yend g r) (subv y g r) := by
  ext i j
  rcases j with (j | j) | (j | j)
  · rfl
  · rfl
  · rfl
  · exact congrFun (subv_lag g W hW y r) i

omit [Fintype kx] [Fintype kq] in
theorem sub_lagH (g : n → ρ) (W : Matrix n n ℝ) (hW : GM.NoLinks g W) (x : Matrix n kx ℝ) (q : Matrix n kq ℝ) (L : ℕ)
    (lagQ : Bool) (r : ρ) : RegimesMat.sub (lagH W x q L lagQ) g r =
      lagH (subW g W r) (RegimesMat.sub x g r) (RegimesMat.sub q g r) L lagQ := by
  have hv : RegimesMat.sub (lagVars x q lagQ) g r = lagVars (RegimesMat.sub x g r) (RegimesMat.sub q g r) lagQ := by
    ext i j
    rcases j with j | j <;> rfl
  ext i j
  rcases j with (j | j) | (j | ⟨c, p⟩)
  · rfl
  · rfl
  · rfl
  · show (W ^ (p.1 + 1) * lagVars x q lagQ) i.1 c = (subW g W r ^ (p.1 + 1) *
      lagVars (RegimesMat.sub x g r) (RegimesMat.sub q g r) lagQ) i c
    rw [← hv]
    exact congrFun (congrFun (sub_pow g W hW (lagVars x q lagQ) r (p.1 + 1)) i) c

variable [DecidableEq kx] [DecidableEq ke] [DecidableEq kq]

/-- **C147.** A spatial lag model with `regime_lag_sep=True`, `regime_err_sep=False` and weights without links between
regimes gives the estimates of separate spatial lag models, one for each regime with the weights of the regime:
coefficients, predictions, residuals, White variance. The classical variance has the blocks of the separate models up to
the common error variance. It raises exactly when one of the separate models raises. -/
theorem C147_separate (g : n → ρ) (W : Matrix n n ℝ) (hW : GM.NoLinks g W) (x : Matrix n kx ℝ) (yend : Matrix n ke ℝ)
    (q : Matrix n kq ℝ) (y : n → ℝ) (L : ℕ) (lagQ : Bool) :
    (∀ fs, (∀ r, gmLag (subW g W r) (RegimesMat.sub x g r) (RegimesMat.sub yend g r) (RegimesMat.sub q g r) (subv y g r)
        L lagQ = some (fs r)) →
      ∃ f, gmLagRegimes g W x yend q y L lagQ = some f ∧ Assembled g (lagH W x q L lagQ) f fs) ∧
    ((∃ r, gmLag (subW g W r) (RegimesMat.sub x g r) (RegimesMat.sub yend g r) (RegimesMat.sub q g r) (subv y g r)
        L lagQ = none) → gmLagRegimes g W x yend q y L lagQ = none) := by
  have h := tsls_expand (lagZ W x yend y) (lagH W x q L lagQ) g y
  simp only [sub_lagZ g W hW, sub_lagH g W hW] at h
  exact h

/-- The matrices of the theorem are those of the program: for original, binary and row-standardised weights, the matrix of
`w_regimes_union` has no links between regimes and its blocks are the matrices of the weights by regime. -/
theorem C147_weights {ι ρ : Type} [DecidableEq ι] [DecidableEq ρ] (w : WReg.W ι) (hw : WReg.WF w) (regimes rs : List ρ)
    (hl : regimes.length = w.ids.length) (hrs : ∀ r ∈ regimes, r ∈ rs) (h2 : 2 ≤ rs.length)
    (ht : w.tr = .O ∨ w.tr = .B ∨ w.tr = .R) (minN : Option ℕ) (wi : List (ρ × WReg.W ι)) (warn : Option ρ)
    (hwi : WReg.wRegimes w regimes rs true minN = .ok (wi, warn)) (u : WReg.W ι)
    (hu : WReg.wRegimesUnion w wi rs = .ok u) (r : ρ) (wr : WReg.W ι) (hr : (r, wr) ∈ wi) :
    let g : Fin w.ids.length → ρ := fun a => regimes[(a : ℕ)]'(hl.symm ▸ a.2)
    let U := u.full fun a : Fin w.ids.length => w.ids[a]
    GM.NoLinks g U ∧ ∀ i j : {i // g i = r}, subW g U r i j = wr.eff w.ids[i.1] w.ids[j.1] := by
  intro g U
  refine ⟨WReg.C146_noLinks w hw regimes rs hl hrs h2 true minN wi warn hwi u hu, fun i j => ?_⟩
  refine (WReg.C146_lag w hw regimes rs hl hrs h2 ht minN wi warn hwi u hu r wr hr w.ids[i.1] ?_).1 w.ids[j.1]
  exact ⟨i.1, List.getElem?_eq_getElem _, (List.getElem?_eq_getElem _).trans (congrArg some i.2)⟩

/-! ### A case -/

omit [DecidableEq n] in
theorem tsls_ok [DecidableEq k] [DecidableEq l] (z : Matrix n k ℝ) (h : Matrix n l ℝ) (y : n → ℝ)
    (hh : ∀ w, h *ᵥ w = 0 → w = 0) (hz : ∀ v, hᵀ *ᵥ (z *ᵥ v) = 0 → v = 0) : ∃ f, tslsZH z h y = some f := by
  have u1 : IsUnit (hᵀ * h).det := by
    rw [← isUnit_iff_isUnit_det, ← mulVec_injective_iff_isUnit]
    refine (injective_iff_map_eq_zero (mulVecLin (hᵀ * h))).2 fun w hw => hh w ?_
    have hw : (hᵀ * h) *ᵥ w = 0 := hw
    have : (h *ᵥ w) ⬝ᵥ (h *ᵥ w) = 0 := by
      rw [dotProduct_mulVec, ← mulVec_transpose, mulVec_mulVec, hw, zero_dotProduct]
    exact dotProduct_self_eq_zero.1 this
  refine tslsZH_of_isUnit z h y u1 ?_
  rw [← isUnit_iff_isUnit_det, ← mulVec_injective_iff_isUnit]
  refine (injective_iff_map_eq_zero (mulVecLin _)).2 fun v hv => hz v ?_
  have hv : (zᵀ * h * (hᵀ * h)⁻¹ * (zᵀ * h)ᵀ) *ᵥ v = 0 := hv
  set c := hᵀ *ᵥ (z *ᵥ v) with hc
  set w := (hᵀ * h)⁻¹ *ᵥ c with hwd
  have h1 : (zᵀ * h) *ᵥ w = 0 := by
    rw [← hv, hwd, hc, transpose_mul, transpose_transpose]
    simp only [mulVec_mulVec, Matrix.mul_assoc]
  have h2 : (hᵀ * h) *ᵥ w = c := by
    rw [hwd, mulVec_mulVec, mul_nonsing_inv _ u1, one_mulVec]
  have h3 : (h *ᵥ w) ⬝ᵥ (h *ᵥ w) = 0 := by
    rw [dotProduct_mulVec, ← mulVec_transpose, mulVec_mulVec, h2, hc, mulVec_transpose, ← dotProduct_mulVec,
      dotProduct_comm, dotProduct_mulVec, ← mulVec_transpose, mulVec_mulVec, h1, zero_dotProduct]
  rw [← h2, hh w (dotProduct_self_eq_zero.1 h3), mulVec_zero]

/-- Two regimes of three observations, each in a ring. -/
def exW : Matrix (Fin 2 × Fin 3) (Fin 2 × Fin 3) ℝ := fun a b => if a.1 = b.1 ∧ b.2 = a.2 + 1 then 1 else 0

def exX : Matrix (Fin 2 × Fin 3) Unit ℝ := fun a _ => ![0, 1, 3] a.2
def exY : Fin 2 × Fin 3 → ℝ := fun a => ![1, 0, 0] a.2
def exE : Matrix (Fin 2 × Fin 3) Empty ℝ := fun _ c => c.elim

/-- The hypotheses of `C147_separate` can be met: no links, and both separate models can be estimated. -/
theorem C147_example : GM.NoLinks Prod.fst exW ∧ ∀ r : Fin 2, ∃ f, gmLag (subW Prod.fst exW r) (RegimesMat.sub exX Prod.fst r)
    (RegimesMat.sub exE Prod.fst r) (RegimesMat.sub exE Prod.fst r) (subv exY Prod.fst r) 1 true = some f := by
  have hW : GM.NoLinks Prod.fst exW := fun i j h => if_neg fun e => h e.1
  refine ⟨hW, fun r => ?_⟩
  rw [gmLag, ← sub_lagZ _ _ hW, ← sub_lagH _ _ hW]
  have hx : ∀ a, (exW * lagVars exX exE true) a (.inl ()) = ![1, 3, 0] a.2 := by
    rintro ⟨r, a⟩
    rw [mul_apply, Fintype.sum_prod_type]
    fin_cases r <;> fin_cases a <;> simp [exW, lagVars, exX, Fin.sum_univ_succ]
  have hy : ∀ a, (exW *ᵥ exY) a = ![0, 0, 1] a.2 := by
    rintro ⟨r, a⟩
    rw [mulVec, dotProduct, Fintype.sum_prod_type]
    fin_cases r <;> fin_cases a <;> simp [exW, exY, Fin.sum_univ_succ]
  have hz : ∀ a v, (lagZ exW exX exE exY *ᵥ v) (r, a) = v (.inl (.inl ())) + ![0, 1, 3] a * v (.inl (.inr ())) +
      ![0, 0, 1] a * v (.inr (.inr ())) := by
    intro a v
    simp only [mulVec, dotProduct, lagZ, of_apply, Fintype.sum_sum_type, fromCols_apply_inl, fromCols_apply_inr,
      Finset.univ_unique, Finset.sum_singleton, Finset.univ_eq_empty, Finset.sum_empty, zero_add, one_mul]
    rw [← hy (r, a)]
    rfl
  have h0 : ∀ a, lagH exW exX exE 1 true (r, a) (.inl (.inl ())) = 1 := fun a => rfl
  have h1 : ∀ a, lagH exW exX exE 1 true (r, a) (.inl (.inr ())) = ![0, 1, 3] a := fun a => rfl
  have h2 : ∀ a, lagH exW exX exE 1 true (r, a) (.inr (.inr (.inl (), 0))) = ![1, 3, 0] a := by
    intro a
    rw [← hx (r, a)]
    have : (exW ^ (0 + 1) * lagVars exX exE true : Matrix (Fin 2 × Fin 3) _ ℝ) (r, a) (.inl ()) =
        (exW * lagVars exX exE true) (r, a) (.inl ()) := by
      rw [zero_add, pow_one]
    exact this
  refine tsls_ok _ _ _ ?_ ?_
  · intro w hw
    have e : ∀ a : Fin 3, w (.inl (.inl ())) + ![0, 1, 3] a * w (.inl (.inr ())) +
        ![1, 3, 0] a * w (.inr (.inr (.inl (), 0))) = 0 := by
      intro a
      have := congrFun hw ⟨(r, a), rfl⟩
      simp only [mulVec, dotProduct, RegimesMat.sub, of_apply, Fintype.sum_sum_type, Fintype.sum_prod_type,
        Finset.univ_unique, Finset.sum_singleton, Finset.univ_eq_empty, Finset.sum_empty, zero_add, add_zero,
        Pi.zero_apply] at this
      have h3 := h0 a
      have h4 := h1 a
      have h5 := h2 a
      rw [← h4, ← h5]
      refine Eq.trans ?_ this
      refine congrArg₂ _ (congrArg₂ _ ?_ rfl) rfl
      exact (one_mul _).symm.trans (congrArg (· * _) h3.symm)
    have e0 := e 0
    have e1 := e 1
    have e2 := e 2
    simp at e0 e1 e2
    funext c
    rcases c with (⟨⟩ | ⟨⟩) | (c | ⟨(⟨⟩ | ⟨c, _⟩), p⟩)
    · show w (.inl (.inl ())) = 0
      linarith
    · show w (.inl (.inr ())) = 0
      linarith
    · exact c.elim
    · obtain rfl : p = 0 := Subsingleton.elim _ _
      show w (.inr (.inr (.inl (), 0))) = 0
      linarith
    · exact c.elim
  · intro v hv
    have e : ∀ c, ∑ a, lagH exW exX exE 1 true (r, a) c * (lagZ exW exX exE exY *ᵥ v) (r, a) = 0 := by
      intro c
      have := congrFun hv c
      rw [mulVec, dotProduct] at this
      have hs := sum_sub (n := Fin 2 × Fin 3) Prod.fst r
        fun i => lagH exW exX exE 1 true i c * (lagZ exW exX exE exY *ᵥ v) i
      have h3 := hs.symm.trans this
      rw [Fintype.sum_prod_type, Finset.sum_eq_single r] at h3
      · simpa using h3
      · intro b _ hb
        exact Finset.sum_eq_zero fun a _ => if_neg hb
      · simp
    have e0 := e (.inl (.inl ()))
    have e1 := e (.inl (.inr ()))
    have e2 := e (.inr (.inr (.inl (), 0)))
    simp only [h0, h1, h2, hz, Fin.sum_univ_three] at e0 e1 e2
    simp at e0 e1 e2
    funext c
    rcases c with (⟨⟩ | ⟨⟩) | (c | ⟨⟩)
    · show v (.inl (.inl ())) = 0
      linarith
    · show v (.inl (.inr ())) = 0
      linarith
    · exact c.elim
    · show v (.inr (.inr ())) = 0
      linarith

end Spreg.LagReg
