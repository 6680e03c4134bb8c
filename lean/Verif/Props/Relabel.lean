import Verif.Props.Chow
import Verif.Model.PooledRegimes
import Verif.Props.GMEquiv3
import Mathlib.GroupTheory.Perm.ViaEmbedding
import Mathlib.LinearAlgebra.Matrix.Kronecker
/-
C158: models with regimes do not depend on the order of the observations nor on the names of the regimes.
-/
namespace Spreg.Relabel
open Matrix Spreg Spreg.Lin Spreg.Regimes Spreg.RegimesMat Spreg.Chow Spreg.Pooled
open scoped Kronecker

/-! ### Wald tests and positions of the coefficients -/

theorem waldTest_perm {m k k' : Type} [Fintype m] [Fintype k] [Fintype k'] [DecidableEq m] (e : k' ≃ k) (b : k → ℝ)
    (r : Matrix m k ℝ) (q : m → ℝ) (vm : Matrix k k ℝ) :
    waldTest (fun c => b (e c)) (r.submatrix id e) q (vm.submatrix e e) = waldTest b r q vm := by
  have h1 : r.submatrix id e *ᵥ (fun c => b (e c)) = r *ᵥ b := by
    funext i
    simp only [mulVec, dotProduct, submatrix_apply, id]
    exact Equiv.sum_comp e fun c => r i c * b c
  have h2 : r.submatrix id e * (vm.submatrix e e * (r.submatrix id e)ᵀ) = r * (vm * rᵀ) := by
    ext i j
    simp only [mul_apply, submatrix_apply, id, transpose_apply]
    rw [← Equiv.sum_comp e fun c => r i c * ∑ d, vm c d * r j d]
    refine Fintype.sum_congr _ _ fun c => ?_
    rw [← Equiv.sum_comp e fun d => vm (e c) d * r j d]
  unfold waldTest
  rw [h1, h2]

/-- The embedding of variables and regimes in the coefficients. -/
def posEmb (kr kryd nr nv : ℕ) (hk : kryd ≤ kr) (hnv : kr * nr ≤ nv) : Fin kr × Fin nr ↪ Fin nv where
  toFun p := ⟨coefPos kr kryd nr p.1 p.2, (coefPos_lt hk p.1.2 p.2.2).trans_le hnv⟩
  inj' p p' h := by
    have := coefPos_inj p.1.2 p'.1.2 p.2.2 p'.2.2 (Fin.mk.inj h)
    exact Prod.ext (Fin.ext this.1) (Fin.ext this.2)

/-- The coefficients of regime `g` move to regime `π g`, the others stay. -/
noncomputable def move (kr kryd nr nv : ℕ) (hk : kryd ≤ kr) (hnv : kr * nr ≤ nv) (π : Equiv.Perm (Fin nr)) :
    Equiv.Perm (Fin nv) :=
  Equiv.Perm.viaEmbedding ((Equiv.refl (Fin kr)).prodCongr π) (posEmb kr kryd nr nv hk hnv)

theorem move_pos (kr kryd nr nv : ℕ) (hk : kryd ≤ kr) (hnv : kr * nr ≤ nv) (π : Equiv.Perm (Fin nr)) (v : Fin kr)
    (g : Fin nr) :
    move kr kryd nr nv hk hnv π (posEmb kr kryd nr nv hk hnv (v, g)) = posEmb kr kryd nr nv hk hnv (v, π g) :=
  Equiv.Perm.viaEmbedding_apply _ _ _

/-- The matrix that rewrites the contrasts with the first regime after the regimes are exchanged. -/
def contrast {nr : ℕ} (π : Equiv.Perm (Fin (nr + 1))) : Matrix (Fin nr) (Fin nr) ℝ :=
  Matrix.of fun i l => (if π i.succ = l.succ then 1 else 0) - (if π 0 = l.succ then 1 else 0)

/-- Contrasts with the first of `nr + 1` values. -/
def diffs {nr : ℕ} : Matrix (Fin nr) (Fin (nr + 1)) ℝ :=
  Matrix.of fun i c => (if c = 0 then 1 else 0) - (if c = i.succ then 1 else 0)

theorem diffs_mulVec {nr : ℕ} (b : Fin (nr + 1) → ℝ) (i : Fin nr) : (diffs *ᵥ b) i = b 0 - b i.succ := by
  simp [mulVec, dotProduct, diffs, sub_mul, Finset.sum_sub_distrib]

theorem contrast_diffs {nr : ℕ} (π : Equiv.Perm (Fin (nr + 1))) (b : Fin (nr + 1) → ℝ) :
    contrast π *ᵥ (diffs *ᵥ b) = diffs *ᵥ fun g => b (π g) := by
  funext i
  rw [diffs_mulVec]
  have key : ∀ c : Fin (nr + 1), ∑ l : Fin nr, (if c = l.succ then (1 : ℝ) else 0) * (b 0 - b l.succ) = b 0 - b c := by
    intro c
    refine Fin.cases ?_ (fun c => ?_) c
    · rw [sub_self]
      exact Finset.sum_eq_zero fun l _ => by rw [if_neg (Fin.succ_ne_zero l).symm, zero_mul]
    · simp [Fin.succ_inj]
  simp only [mulVec, dotProduct, contrast, of_apply, sub_mul, Finset.sum_sub_distrib]
  have e : ∀ l : Fin nr, (diffs *ᵥ b) l = b 0 - b l.succ := diffs_mulVec b
  simp only [mulVec, dotProduct] at e
  simp only [e, key]
  ring

theorem diffs_onto {nr : ℕ} (v : Fin nr → ℝ) : ∃ b : Fin (nr + 1) → ℝ, diffs *ᵥ b = v :=
  ⟨Fin.cons 0 fun i => -v i, by funext i; rw [diffs_mulVec]; simp⟩

theorem contrast_mul {nr : ℕ} (π : Equiv.Perm (Fin (nr + 1))) : contrast π * contrast π⁻¹ = 1 := by
  refine Matrix.ext_of_mulVec_single fun j => ?_
  obtain ⟨b, hb⟩ := diffs_onto (Pi.single j 1 : Fin nr → ℝ)
  rw [← hb, ← mulVec_mulVec, contrast_diffs, contrast_diffs, one_mulVec]
  simp

theorem contrast_unit {nr : ℕ} (π : Equiv.Perm (Fin (nr + 1))) : IsUnit (contrast π).det :=
  (Matrix.isUnit_iff_isUnit_det _).1 ⟨⟨contrast π, contrast π⁻¹, contrast_mul π, by
    simpa using contrast_mul π⁻¹⟩, rfl⟩

/-- Rows of restrictions with the regimes exchanged. -/
theorem rMat_move {kr kryd nr nv : ℕ} (hk : kryd ≤ kr) (hnv : kr * (nr + 1) ≤ nv) (π : Equiv.Perm (Fin (nr + 1)))
    (v : Fin kr) (b : Fin nv → ℝ) :
    rMat v kr kryd (nr + 1) nv *ᵥ (fun c => b (move kr kryd (nr + 1) nv hk hnv π c)) =
      contrast π *ᵥ (rMat v kr kryd (nr + 1) nv *ᵥ b) := by
  have e : ∀ d : Fin nv → ℝ, rMat v kr kryd (nr + 1) nv *ᵥ d =
      diffs *ᵥ fun g => d (posEmb kr kryd (nr + 1) nv hk hnv (v, g)) := by
    intro d
    funext i
    rw [diffs_mulVec]
    exact rMat_apply hk v.2 hnv d i
  rw [e, e, contrast_diffs]
  congr 1
  funext g
  rw [move_pos]

theorem mat_ext {m k : Type} [Fintype k] [DecidableEq k] {A B : Matrix m k ℝ} (h : ∀ v, A *ᵥ v = B *ᵥ v) : A = B :=
  Matrix.ext_of_mulVec_single fun _ => h _

theorem mulVec_perm {m k : Type} [Fintype k] (A : Matrix m k ℝ) (e : Equiv.Perm k) (b : k → ℝ) :
    A.submatrix id e.symm *ᵥ b = A *ᵥ fun c => b (e c) := by
  funext i
  simp only [mulVec, dotProduct, submatrix_apply, id]
  rw [← Equiv.sum_comp e]
  simp

theorem wald_move {m : Type} [Fintype m] [DecidableEq m] {nv : ℕ} (e : Equiv.Perm (Fin nv)) (R : Matrix m (Fin nv) ℝ)
    (A : Matrix m m ℝ) (hA : IsUnit A.det) (h : ∀ b, R *ᵥ (fun c => b (e c)) = A *ᵥ (R *ᵥ b)) (b : Fin nv → ℝ)
    (vm : Matrix (Fin nv) (Fin nv) ℝ) :
    waldTest (fun c => b (e c)) R 0 (vm.submatrix e e) = waldTest b R 0 vm := by
  have e1 : R.submatrix id e.symm = A * R := mat_ext fun v => by
    rw [mulVec_perm, h, mulVec_mulVec]
  have := waldTest_perm e b (R.submatrix id e.symm) 0 vm
  rw [show (R.submatrix id e.symm).submatrix id e = R by ext; simp] at this
  rw [this, e1]
  have := C27_invariant b R 0 vm A hA
  rwa [mulVec_zero] at this

theorem waldTest_empty {m k : Type} [Fintype m] [Fintype k] [DecidableEq m] [IsEmpty m] (b b' : k → ℝ)
    (r r' : Matrix m k ℝ) (vm vm' : Matrix k k ℝ) : waldTest b r 0 vm = waldTest b' r' 0 vm' := by
  have h : ∀ A B : Matrix m m ℝ, A = B := fun A B => by ext i; exact isEmptyElim i
  have h' : ∀ a b : m → ℝ, a = b := fun a b => by funext i; exact isEmptyElim i
  unfold waldTest
  rw [h (r * (vm * rᵀ)) (r' * (vm' * r'ᵀ)), h' (r *ᵥ b - 0) (r' *ᵥ b' - 0)]

theorem waldE_congr {m k k' : Type} [Fintype m] [Fintype k] [Fintype k'] [DecidableEq m] {b : k → ℝ} {b' : k' → ℝ}
    {r : Matrix m k ℝ} {r' : Matrix m k' ℝ} {vm : Matrix k k ℝ} {vm' : Matrix k' k' ℝ}
    (h : waldTest b' r' 0 vm' = waldTest b r 0 vm) : waldE b' r' vm' = waldE b r vm := by
  unfold waldE; rw [h]

/-- C158, Chow tests: exchanging the regimes — which regime is first, and therefore the reference, depends on the names — changes
no statistic, for every layout of the coefficients. -/
theorem C158_chow (kr kf kryd nr : ℕ) (hk : kryd ≤ kr) (betas betas' : List ℝ) {nv : ℕ}
    (vm vm' : Matrix (Fin nv) (Fin nv) ℝ) (hnv : nv = kr * nr + kf) (hl : betas.length = nv) (hl' : betas'.length = nv)
    (π : Equiv.Perm (Fin nr)) (e : Equiv.Perm (Fin nv))
    (he : e = move kr kryd nr nv hk (by omega) π)
    (hb : ∀ c : Fin nv, betas'.getD (e c) 0 = betas.getD c 0) (hv : ∀ c d, vm' (e c) (e d) = vm c d) :
    chowRun kr kf kryd nr betas' vm' = chowRun kr kf kryd nr betas vm := by
  have hb0 : vec betas nv = fun c => vec betas' nv (e c) := by funext c; exact (hb c).symm
  have hv0 : vm = vm'.submatrix e e := by ext c d; exact (hv c d).symm
  have ha : ∀ l : List ℝ, l.length = nv → adjust kr kf nr l nv = .ok (kf, l) := by
    intro l h; unfold adjust; rw [if_neg (by simpa using h)]
  have hnn : ¬ (kr * nr + kf ≠ nv ∨ betas.length ≠ nv) := by push Not; exact ⟨by omega, hl⟩
  have hnn' : ¬ (kr * nr + kf ≠ nv ∨ betas'.length ≠ nv) := by push Not; exact ⟨by omega, hl'⟩
  unfold chowRun
  rw [ha _ hl, ha _ hl']
  simp only [bind, Except.bind]
  by_cases hkr : kr = 0
  · rw [if_pos hkr, if_pos hkr]
  rw [if_neg hkr, if_neg hkr, if_neg hnn, if_neg hnn']
  have h1 : ∀ v, v < kr → waldE (vec betas' nv) (rMat v kr kryd nr nv) vm' =
      waldE (vec betas nv) (rMat v kr kryd nr nv) vm := by
    intro v hv'
    refine waldE_congr ?_
    rw [hb0, hv0]
    cases nr with
    | zero => exact waldTest_empty (m := Fin 0) _ _ _ _ _ _
    | succ nr =>
      rw [he]
      exact (wald_move _ (rMat v kr kryd (nr + 1) nv) (contrast π) (contrast_unit π)
        (fun b => rMat_move hk (by omega) π ⟨v, hv'⟩ b) _ _).symm
  have h2 : waldE (vec betas' nv) (Matrix.of fun (p : Fin kr × Fin (nr - 1)) c => rMat p.1 kr kryd nr nv p.2 c) vm' =
      waldE (vec betas nv) (Matrix.of fun (p : Fin kr × Fin (nr - 1)) c => rMat p.1 kr kryd nr nv p.2 c) vm := by
    refine waldE_congr ?_
    rw [hb0, hv0]
    cases nr with
    | zero => exact waldTest_empty (m := Fin kr × Fin 0) _ _ _ _ _ _
    | succ nr =>
      rw [he]
      refine (wald_move _ (Matrix.of fun (p : Fin kr × Fin nr) c => rMat p.1 kr kryd (nr + 1) nv p.2 c)
        ((1 : Matrix (Fin kr) (Fin kr) ℝ) ⊗ₖ contrast π) ?_ ?_ _ _).symm
      · rw [Matrix.det_kronecker]
        simp only [det_one, one_pow, one_mul]
        exact (contrast_unit π).pow _
      · intro b
        funext p
        have := congrFun (rMat_move hk (by omega) π p.1 b) p.2
        have e3 : (((1 : Matrix (Fin kr) (Fin kr) ℝ) ⊗ₖ contrast π) *ᵥ
            ((Matrix.of fun (p : Fin kr × Fin nr) c => rMat p.1 kr kryd (nr + 1) nv p.2 c) *ᵥ b)) p =
            (contrast π *ᵥ (rMat p.1 kr kryd (nr + 1) nv *ᵥ b)) p.2 := by
          conv_lhs => rw [mulVec, dotProduct, Fintype.sum_prod_type]
          rw [Finset.sum_eq_single p.1]
          · simp only [kroneckerMap_apply, one_apply_eq, one_mul]
            rfl
          · intro a _ hne
            refine Finset.sum_eq_zero fun l _ => ?_
            simp [kroneckerMap_apply, one_apply_ne hne.symm]
          · simp
        rw [e3]
        exact this
  have h3 : (List.range kr).mapM (fun v => waldE (vec betas' nv) (rMat v kr kryd nr nv) vm') =
      (List.range kr).mapM (fun v => waldE (vec betas nv) (rMat v kr kryd nr nv) vm) := by
    have : ∀ l : List ℕ, (∀ v ∈ l, v < kr) → l.mapM (fun v => waldE (vec betas' nv) (rMat v kr kryd nr nv) vm') =
      l.mapM (fun v => waldE (vec betas nv) (rMat v kr kryd nr nv) vm) := by
      intro l
      induction l with
      | nil => intro _; rfl
      | cons a l ih =>
        intro h
        rw [List.mapM_cons, List.mapM_cons, h1 a (h a (by simp)), ih fun v hv => h v (by simp [hv])]
    exact this _ (by simp)
  rw [h3, h2]

/-! ### The design after a change of names and order -/

/-- The values of a column in the new order of the observations: observation `i` is the old `σ i`. -/
def reorder {n n' : ℕ} (σ : Fin n' ≃ Fin n) (c : List ℝ) : List ℝ := List.ofFn fun i => c.getD (σ i) 0

theorem select_map {α β : Type} (f : α → β) (b : Bool) : ∀ (mask : List Bool) (l : List α),
    select mask b (l.map f) = (select mask b l).map f
  | [], l => by simp [select]
  | m :: t, [] => by simp [select]
  | m :: t, a :: l => by
    have := select_map f b t l
    simp only [select, List.map_cons, List.zip_cons_cons, List.filter_cons] at this ⊢
    split <;> simp [this]

theorem mem_select {α : Type} (mask : List Bool) (b : Bool) (l : List α) {a : α} (h : a ∈ select mask b l) : a ∈ l := by
  simp only [select, List.mem_map, List.mem_filter] at h
  obtain ⟨p, ⟨hp, -⟩, rfl⟩ := h
  exact (List.of_mem_zip hp).2

theorem maskCol_reorder {L L' : Type} [DecidableEq L] [DecidableEq L'] {n n' : ℕ} (σ : Fin n' ≃ Fin n) (lab : Fin n → L)
    (τ : L → L') (hτ : Function.Injective τ) (r : L) (c : List ℝ) (hc : c.length = n) :
    maskCol (List.ofFn fun i => τ (lab (σ i))) (τ r) (reorder σ c) = reorder σ (maskCol (List.ofFn lab) r c) := by
  apply List.ext_getElem
  · simp [maskCol, reorder]
  · intro i h1 h2
    have hi : i < n' := by simpa [reorder] using h2
    simp only [maskCol, reorder, List.getElem_zipWith, List.getElem_ofFn, hτ.eq_iff]
    rw [List.getD_eq_getElem _ _ (by simp [hc]), List.getD_eq_getElem _ _ (by simp [hc])]
    simp

theorem length_reorder {n n' : ℕ} (σ : Fin n' ≃ Fin n) (c : List ℝ) : (reorder σ c).length = n' := by simp [reorder]

theorem reorder_getD {n n' : ℕ} (σ : Fin n' ≃ Fin n) (c : List ℝ) (i : Fin n') :
    (reorder σ c).getD i 0 = c.getD (σ i) 0 := by
  rw [List.getD_eq_getElem _ _ (by rw [length_reorder]; exact i.2)]
  simp [reorder]

/-- The regimes of the renamed data are the renamed regimes, in another order. -/
theorem regimesSet_relabel {L L' : Type} [DecidableEq L] [DecidableEq L'] (le : L → L → Prop) [DecidableRel le]
    (le' : L' → L' → Prop) [DecidableRel le'] {n n' : ℕ} (σ : Fin n' ≃ Fin n) (lab : Fin n → L) (τ : L → L')
    (hτ : Function.Injective τ) {rs : List L} (h : regimesSet le (List.ofFn lab) = .ok rs) :
    ∃ rs', regimesSet le' (List.ofFn fun i => τ (lab (σ i))) = .ok rs' ∧ rs'.length = rs.length ∧
      ∀ {nr : ℕ} (hn : rs.length = nr) (hn' : rs'.length = nr), ∃ π : Equiv.Perm (Fin nr),
        ∀ g : Fin nr, rs'[π g] = τ rs[g] := by
  unfold regimesSet at h ⊢
  split at h
  · cases h
  next hne =>
  obtain rfl := Except.ok.inj h
  have hn : n = n' := by simpa using (Fintype.card_congr σ).symm
  rw [if_neg (by
    intro e
    have := congrArg List.length e
    simp only [List.length_ofFn, List.length_nil] at this
    apply hne
    apply List.length_eq_zero_iff.1
    simp; omega)]
  have hp : ((List.ofFn fun i => τ (lab (σ i))).dedup.insertionSort le').Perm
      (((List.ofFn lab).dedup.insertionSort le).map τ) := by
    rw [List.perm_ext_iff_of_nodup]
    · intro a
      rw [List.mem_insertionSort, List.mem_dedup, List.mem_map]
      simp only [List.mem_insertionSort, List.mem_dedup, List.mem_ofFn]
      constructor
      · rintro ⟨i, rfl⟩; exact ⟨_, ⟨σ i, rfl⟩, rfl⟩
      · rintro ⟨_, ⟨i, rfl⟩, rfl⟩; exact ⟨σ.symm i, by simp⟩
    · exact (List.perm_insertionSort _ _).nodup_iff.2 (List.nodup_dedup _)
    · exact ((List.perm_insertionSort _ _).nodup_iff.2 (List.nodup_dedup _)).map hτ
  have hnd : ((List.ofFn lab).dedup.insertionSort le).Nodup :=
    (List.perm_insertionSort _ _).nodup_iff.2 (List.nodup_dedup _)
  generalize (List.ofFn lab).dedup.insertionSort le = rs at hp hnd
  generalize (List.ofFn fun i => τ (lab (σ i))).dedup.insertionSort le' = rs' at hp
  refine ⟨rs', rfl, by rw [hp.length_eq, List.length_map], ?_⟩
  intro nr hn1 hn2
  have hex : ∀ g : Fin nr, ∃ k : Fin nr, rs'[k] = τ rs[g] := by
    intro g
    have hm : τ rs[g] ∈ rs' := hp.mem_iff.2 (List.mem_map.2 ⟨_, List.getElem_mem _, rfl⟩)
    obtain ⟨k, hk, e⟩ := List.getElem_of_mem hm
    exact ⟨⟨k, by omega⟩, e⟩
  choose f hf using hex
  have hinj : Function.Injective f := by
    intro a b hab
    have : τ rs[a] = τ rs[b] := by rw [← hf a, ← hf b, hab]
    have := hτ this
    exact Fin.ext ((List.Nodup.getElem_inj_iff hnd).1 this)
  exact ⟨Equiv.ofBijective f (Finite.injective_iff_bijective.1 hinj), hf⟩

/-- C158, the design: after reordering the observations and renaming the regimes, the column of variable `v` in the regime that
`g` has become is the reordered column of variable `v` in regime `g`; the columns that do not vary are the reordered ones. -/
theorem C158_design {L L' : Type} [DecidableEq L] [DecidableEq L'] {n n' : ℕ} (σ : Fin n' ≃ Fin n) (lab : Fin n → L)
    (τ : L → L') (hτ : Function.Injective τ) (cols : List (List ℝ)) (hc : ∀ c ∈ cols, c.length = n) (mask : List Bool)
    (hm : mask.length = cols.length) (rs : List L) (rs' : List L') {nr : ℕ} (hr : rs.length = nr) (hr' : rs'.length = nr)
    (π : Equiv.Perm (Fin nr)) (hπ : ∀ g : Fin nr, rs'[π g] = τ rs[g]) :
    let kr := (select mask true cols).length
    let kf := (select mask false cols).length
    let nv := kr * nr + kf
    let Z := mat n nv (regimeXsetup cols (List.ofFn lab) mask rs)
    let Z' := mat n' nv (regimeXsetup (cols.map (reorder σ)) (List.ofFn fun i => τ (lab (σ i))) mask rs')
    (regimeXsetup cols (List.ofFn lab) mask rs).length = nv ∧
    ∀ i c, Z' i (move kr 0 nr nv (Nat.zero_le _) (Nat.le_add_right _ _) π c) = Z (σ i) c := by
  intro kr kf nv Z Z'
  have hm' : mask.length = (cols.map (reorder σ)).length := by simpa using hm
  have e1 := regimeXsetup_eq cols (List.ofFn lab) mask rs hm
  have e2 := regimeXsetup_eq (cols.map (reorder σ)) (List.ofFn fun i => τ (lab (σ i))) mask rs' hm'
  rw [select_map, select_map] at e2
  have hl1 : (x2xspCols (select mask true cols) (List.ofFn lab) rs).length = kr * nr := by
    rw [length_x2xspCols, hr, Nat.mul_comm]
  have hl2 : (x2xspCols ((select mask true cols).map (reorder σ)) (List.ofFn fun i => τ (lab (σ i))) rs').length =
      kr * nr := by
    rw [length_x2xspCols, hr', List.length_map, Nat.mul_comm]
  refine ⟨by rw [e1, List.length_append, hl1], ?_⟩
  intro i c
  by_cases hcr : ∃ p, posEmb kr 0 nr nv (Nat.zero_le _) (Nat.le_add_right _ _) p = c
  · obtain ⟨⟨v, g⟩, rfl⟩ := hcr
    rw [move_pos]
    have hpos : ∀ g : Fin nr, (posEmb kr 0 nr nv (Nat.zero_le _) (Nat.le_add_right _ _) (v, g)).1 = g * kr + v := by
      intro g
      simp [posEmb, coefPos]
    have hlt : ∀ g : Fin nr, g.1 * kr + v < kr * nr := by
      intro g
      have := coefPos_lt (kr := kr) (kryd := 0) (Nat.zero_le _) v.2 g.2
      simpa [coefPos] using this
    have h1 := getElem?_x2xspCols (select mask true cols) (List.ofFn lab) rs g v (by rw [hr]; exact g.2) v.2
    have h2 := getElem?_x2xspCols ((select mask true cols).map (reorder σ)) (List.ofFn fun i => τ (lab (σ i))) rs' (π g) v
      (by rw [hr']; exact (π g).2) (by rw [List.length_map]; exact v.2)
    simp only [List.length_map] at h2
    show ((regimeXsetup _ _ mask rs').getD _ []).getD i 0 = ((regimeXsetup _ _ mask rs).getD _ []).getD (σ i) 0
    rw [hpos, hpos, e1, e2, List.getD_append _ _ _ _ (by rw [hl2]; exact hlt (π g)),
      List.getD_append _ _ _ _ (by rw [hl1]; exact hlt g), List.getD_eq_getElem?_getD (l := x2xspCols _ _ rs'),
      List.getD_eq_getElem?_getD (l := x2xspCols _ _ rs)]
    change ((x2xspCols _ _ rs')[(π g).1 * (select mask true cols).length + v]?.getD []).getD i 0 =
      ((x2xspCols _ _ rs)[g.1 * (select mask true cols).length + v]?.getD []).getD (σ i) 0
    rw [h1, h2]
    simp only [Option.getD_some]
    have hg := hπ g
    simp only [Fin.getElem_fin] at hg
    rw [hg, List.getElem_map, maskCol_reorder σ lab τ hτ _ _ (hc _ (mem_select mask true cols (List.getElem_mem _))),
      reorder_getD]
  · have hfix : move kr 0 nr nv (Nat.zero_le _) (Nat.le_add_right _ _) π c = c :=
      Equiv.Perm.viaEmbedding_apply_of_notMem _ _ _ (by
        rintro ⟨p, hp⟩; exact hcr ⟨p, hp⟩)
    rw [hfix]
    have hge : kr * nr ≤ c.1 := by
      by_contra hlt
      push Not at hlt
      have hkr : 0 < kr := Nat.pos_of_ne_zero fun h => by rw [h] at hlt; omega
      refine hcr ⟨(⟨c.1 % kr, Nat.mod_lt _ hkr⟩, ⟨c.1 / kr, Nat.div_lt_of_lt_mul hlt⟩), Fin.ext ?_⟩
      have := Nat.mod_lt c.1 hkr
      simp only [posEmb, coefPos, Function.Embedding.coeFn_mk, Nat.sub_zero, this, if_true]
      exact Nat.div_add_mod' _ _
    show ((regimeXsetup _ _ mask rs').getD _ []).getD i 0 = ((regimeXsetup _ _ mask rs).getD _ []).getD (σ i) 0
    rw [e1, e2, List.getD_append_right _ _ _ _ (by rw [hl2]; exact hge),
      List.getD_append_right _ _ _ _ (by rw [hl1]; exact hge), hl1, hl2]
    have hcl : c.1 - kr * nr < (select mask false cols).length := by
      have := c.2
      show c.1 - kr * nr < kf
      omega
    rw [List.getD_eq_getElem ((select mask false cols).map (reorder σ)) [] (by rw [List.length_map]; exact hcl),
      List.getD_eq_getElem (select mask false cols) [] hcl, List.getElem_map, reorder_getD]

/-! ### Estimates -/

open Spreg.GM (Tr)

/-- Observations reordered by `σ`, columns moved by `e`. -/
def ofPerm {m n k : Type} [Fintype k] [DecidableEq k] (σ : m ≃ n) (e : Equiv.Perm k) : Tr m n k where
  σ := σ
  T := (1 : Matrix k k ℝ).submatrix id e.symm
  Ti := (1 : Matrix k k ℝ).submatrix e.symm id
  c := 1
  d := 0
  hT := by rw [GM.sub_mul_sub, Matrix.one_mul]
  hTi := by ext i j; simp [mul_apply, one_apply]
  hc := one_ne_zero

section
variable {m n k : Type} [Fintype k] [DecidableEq k] (σ : m ≃ n) (e : Equiv.Perm k)

theorem ofPerm_x {x : Matrix n k ℝ} {x' : Matrix m k ℝ} (h : ∀ i c, x' i (e c) = x (σ i) c) :
    (ofPerm σ e).x x = x' := by
  ext i c
  obtain ⟨c, rfl⟩ := e.surjective c
  rw [h]
  simp [ofPerm, Tr.x, mul_apply, one_apply]

theorem ofPerm_y (x : Matrix n k ℝ) (y : n → ℝ) : (ofPerm σ e).y x y = fun i => y (σ i) := by
  funext i; simp [ofPerm, Tr.y]

theorem ofPerm_u (u : n → ℝ) : (ofPerm σ e).u u = fun i => u (σ i) := by
  funext i; simp [ofPerm, Tr.u]

theorem ofPerm_b (b : k → ℝ) (c : k) : (ofPerm σ e).b b (e c) = b c := by
  simp [ofPerm, Tr.b, mulVec, dotProduct, one_apply]

theorem ofPerm_conj (V : Matrix k k ℝ) (c d : k) :
    ((ofPerm σ e).Ti * V * ((ofPerm σ e).Ti)ᵀ) (e c) (e d) = V c d := by
  simp [ofPerm, mul_apply, one_apply]

theorem ofPerm_v (V : Matrix k k ℝ) (c d : k) : (ofPerm σ e).v V (e c) (e d) = V c d := by
  rw [Tr.v, Matrix.smul_apply, ofPerm_conj]
  simp [ofPerm]
end

/-- What the estimates become when the observations are reordered and the coefficients moved. -/
def Moved {m n k : Type} (σ : m ≃ n) (e : Equiv.Perm k) (E : Est n k) (E' : Est m k) : Prop :=
  (∀ c, E'.betas (e c) = E.betas c) ∧ (∀ c d, E'.vm (e c) (e d) = E.vm c d) ∧ (∀ i, E'.u i = E.u (σ i)) ∧
    (∀ i, E'.predy i = E.predy (σ i)) ∧ E'.sig2 = E.sig2

/-- The robust option for the reordered observations. -/
def robOf {m n : Type} (σ : m ≃ n) : Robust n → Robust m
  | .none' => .none'
  | .white => .white
  | .hac gwk => .hac (gwk.submatrix σ σ)

section
variable {m n k l : Type} [Fintype m] [Fintype n] [Fintype k] [DecidableEq k] [Fintype l] [DecidableEq l] (σ : m ≃ n)
  (e : Equiv.Perm k)

omit [DecidableEq k] [Fintype k] in
theorem s2_perm (b : Bool) (kk : ℕ) (u : n → ℝ) : s2 b kk (fun i => u (σ i)) = s2 b kk u := by
  have h : utu (fun i => u (σ i)) = utu u := by
    unfold utu; exact Equiv.sum_comp σ fun i => u i ^ 2
  unfold s2 Lin.sig2nk sig2n
  rw [h, Fintype.card_congr σ]

omit [DecidableEq k] [Fintype k] in
theorem psi0White_perm {x : Matrix n k ℝ} {x' : Matrix m k ℝ} (h : ∀ i c, x' i (e c) = x (σ i) c) (u : n → ℝ) (dof : Option ℕ)
    (c d : k) : psi0White x' (fun i => u (σ i)) dof (e c) (e d) = psi0White x u dof c d := by
  have key : ((broadcast x' fun i => u (σ i))ᵀ * broadcast x' fun i => u (σ i)) (e c) (e d) =
      ((broadcast x u)ᵀ * broadcast x u) c d := by
    simp only [mul_apply, transpose_apply, broadcast, of_apply, h]
    exact Equiv.sum_comp σ fun i => x i c * u i * (x i d * u i)
  unfold psi0White
  cases dof with
  | none => exact key
  | some kk =>
    simp only [Matrix.smul_apply]
    rw [key, Fintype.card_congr σ]

omit [DecidableEq k] [Fintype k] in
theorem psi0HAC_perm {x : Matrix n k ℝ} {x' : Matrix m k ℝ} (h : ∀ i c, x' i (e c) = x (σ i) c) (u : n → ℝ)
    (gwk : Matrix n n ℝ) (c d : k) :
    psi0HAC x' (fun i => u (σ i)) (gwk.submatrix σ σ) (e c) (e d) = psi0HAC x u gwk c d := by
  simp only [psi0HAC, mul_apply, transpose_apply, broadcast, of_apply, h, submatrix_apply]
  rw [← Equiv.sum_comp σ fun i => x i c * u i * ∑ j, gwk i j * (x j d * u j)]
  refine Fintype.sum_congr _ _ fun i => ?_
  rw [← Equiv.sum_comp σ fun j => gwk (σ i) j * (x j d * u j)]

omit [DecidableEq k] in
theorem sandwich_perm (A A' P P' : Matrix k k ℝ) (hA : ∀ c d, A' (e c) (e d) = A c d) (hP : ∀ c d, P' (e c) (e d) = P c d)
    (c d : k) : sandwichOLS A' P' (e c) (e d) = sandwichOLS A P c d := by
  simp only [sandwichOLS, mul_apply]
  rw [← Equiv.sum_comp e]
  refine Fintype.sum_congr _ _ fun j => ?_
  rw [hA, ← Equiv.sum_comp e]
  simp only [hA, hP]

/-- Least squares on moved columns. -/
theorem olsE_perm {x : Matrix n k ℝ} {x' : Matrix m k ℝ} (h : ∀ i c, x' i (e c) = x (σ i) c) (y : n → ℝ) :
    (∀ o, GM.olsE x y = .ok o → ∃ o', GM.olsE x' (fun i => y (σ i)) = .ok o' ∧ (∀ c, o'.betas (e c) = o.betas c) ∧
      (∀ c d, o'.xtxi (e c) (e d) = o.xtxi c d) ∧ o'.u = (fun i => o.u (σ i)) ∧ o'.predy = fun i => o.predy (σ i)) ∧
    ∀ err, GM.olsE x y = .error err → GM.olsE x' (fun i => y (σ i)) = .error err := by
  have key := (ofPerm σ e).olsE x y
  rw [ofPerm_x σ e h, ofPerm_y] at key
  constructor
  · intro o ho
    rw [ho] at key
    exact ⟨_, key, fun c => ofPerm_b σ e _ c, fun c d => ofPerm_conj σ e _ c d, ofPerm_u σ e _, ofPerm_y σ e x _⟩
  · intro err he
    rw [he] at key
    exact key

omit [Fintype m] [Fintype n] [DecidableEq k] in
theorem pred_perm {x : Matrix n k ℝ} {x' : Matrix m k ℝ} (h : ∀ i c, x' i (e c) = x (σ i) c) {b b' : k → ℝ}
    (hb : ∀ c, b' (e c) = b c) : x' *ᵥ b' = fun i => (x *ᵥ b) (σ i) := by
  funext i
  simp only [mulVec, dotProduct]
  rw [← Equiv.sum_comp e]
  simp only [h, hb]

variable {L L' : Type} [DecidableEq L] [DecidableEq L']

omit [DecidableEq k] [Fintype k] in
theorem groupVar_perm (g : n → L) (τ : L → L') (hτ : Function.Injective τ) (u : n → ℝ) (r : L) (b : Bool) (xc : ℕ) :
    groupVar (fun i => u (σ i)) (fun i => τ (g (σ i))) (τ r) b xc = groupVar u g r b xc := by
  have eq : {i // τ (g (σ i)) = τ r} ≃ {i // g i = r} :=
    σ.subtypeEquiv fun i => by rw [hτ.eq_iff]
  have hc : Fintype.card {i // τ (g (σ i)) = τ r} = Fintype.card {i // g i = r} := Fintype.card_congr eq
  have hs : ∑ i : {i // τ (g (σ i)) = τ r}, u (σ i.1) ^ 2 = ∑ i : {i // g i = r}, u i.1 ^ 2 :=
    Fintype.sum_equiv (σ.subtypeEquiv fun i => by rw [hτ.eq_iff]) _ _ fun i => rfl
  unfold groupVar
  simp only [hc, hs]

/-- The estimates of the pooled model for reordered observations, renamed regimes and moved columns. -/
theorem olsStep_perm {x : Matrix n k ℝ} {x' : Matrix m k ℝ} (h : ∀ i c, x' i (e c) = x (σ i) c) (y : n → ℝ) (g : n → L)
    (τ : L → L') (hτ : Function.Injective τ) (rob : Robust n) (b s : Bool) :
    (∀ E, olsStep g x y rob b s = .ok E → ∃ E', olsStep (fun i => τ (g (σ i))) x' (fun i => y (σ i)) (robOf σ rob) b s = .ok E' ∧
      Moved σ e E E') ∧
    ∀ err, olsStep g x y rob b s = .error err →
      olsStep (fun i => τ (g (σ i))) x' (fun i => y (σ i)) (robOf σ rob) b s = .error err := by
  obtain ⟨h1, h2⟩ := olsE_perm σ e h y
  have plain : ∀ o : OLSFit n k, ∀ o' : OLSFit m k, (∀ c, o'.betas (e c) = o.betas c) →
      (∀ c d, o'.xtxi (e c) (e d) = o.xtxi c d) → o'.u = (fun i => o.u (σ i)) → o'.predy = (fun i => o.predy (σ i)) →
      Moved σ e ⟨o.betas, vmOLS rob b x o, o.u, o.predy, s2 b (Fintype.card k) o.u⟩
        ⟨o'.betas, vmOLS (robOf σ rob) b x' o', o'.u, o'.predy, s2 b (Fintype.card k) o'.u⟩ := by
    intro o o' q1 q2 q3 q4
    refine ⟨q1, ?_, fun i => congrFun q3 i, fun i => congrFun q4 i, by simp only [q3, s2_perm]⟩
    intro c d
    cases rob with
    | none' => simp only [vmOLS, robOf, Matrix.smul_apply, q2, q3, s2_perm]
    | white =>
      simp only [vmOLS, robOf]
      rw [q3]
      exact sandwich_perm e _ _ _ _ q2 (fun c d => psi0White_perm σ e h _ _ c d) c d
    | hac gwk =>
      simp only [vmOLS, robOf]
      rw [q3]
      exact sandwich_perm e _ _ _ _ q2 (fun c d => psi0HAC_perm σ e h _ _ c d) c d
  cases ho : GM.olsE x y with
  | error err =>
    have := h2 err ho
    unfold olsStep
    simp only [bind, Except.bind, ho, this]
    exact ⟨fun E hE => by (cases hE), fun _ hE => by cases hE; rfl⟩
  | ok o =>
    obtain ⟨o', ho', q1, q2, q3, q4⟩ := h1 o ho
    have P := plain o o' q1 q2 q3 q4
    unfold olsStep
    simp only [bind, Except.bind, ho, ho']
    cases rob with
    | white => exact ⟨fun E hE => ⟨_, rfl, by rw [← Except.ok.inj hE]; exact P⟩, fun _ hE => by (cases hE)⟩
    | hac gwk => exact ⟨fun E hE => ⟨_, rfl, by rw [← Except.ok.inj hE]; exact P⟩, fun _ hE => by (cases hE)⟩
    | none' =>
      cases s with
      | false => exact ⟨fun E hE => ⟨_, rfl, by rw [← Except.ok.inj hE]; exact P⟩, fun _ hE => by (cases hE)⟩
      | true =>
        simp only [robOf]
        have w1 : (groupWeighted x' (fun i => y (σ i)) o'.u (fun i => τ (g (σ i))) b (Fintype.card k)).1 =
            fun i => (groupWeighted x y o.u g b (Fintype.card k)).1 (σ i) := by
          funext i
          simp only [groupWeighted, q3, groupVar_perm σ g τ hτ]
        have w2 : ∀ i c, (groupWeighted x' (fun i => y (σ i)) o'.u (fun i => τ (g (σ i))) b (Fintype.card k)).2 i (e c) =
            (groupWeighted x y o.u g b (Fintype.card k)).2 (σ i) c := by
          intro i c
          simp only [groupWeighted, q3, groupVar_perm σ g τ hτ, broadcast, of_apply, h]
        obtain ⟨k1, k2⟩ := olsE_perm σ e w2 (groupWeighted x y o.u g b (Fintype.card k)).1
        rw [← w1] at k1 k2
        cases hq : GM.olsE (groupWeighted x y o.u g b (Fintype.card k)).2 (groupWeighted x y o.u g b (Fintype.card k)).1 with
        | error err =>
          rw [k2 err hq]
          exact ⟨fun E hE => by (cases hE), fun _ hE => by cases hE; rfl⟩
        | ok o2 =>
          obtain ⟨o2', ho2', r1, r2, r3, r4⟩ := k1 o2 hq
          rw [ho2']
          refine ⟨fun E hE => ⟨_, rfl, ?_⟩, fun _ hE => by (cases hE)⟩
          rw [← Except.ok.inj hE]
          have hp := pred_perm σ e h r1
          refine ⟨r1, ?_, ?_, fun i => congrFun hp i, ?_⟩
          · intro c d
            simp only [Matrix.smul_apply, r2, r3, s2_perm]
          · intro i
            simp only [hp]; rfl
          · have : ((fun i => y (σ i)) - fun i => (x *ᵥ o2.betas) (σ i)) = fun i => (y - x *ᵥ o2.betas) (σ i) := rfl
            simp only [hp, this]
            exact s2_perm σ false 0 _

/-- Two-stage least squares on moved columns of regressors and instruments. -/
theorem tslsStep_perm (e' : Equiv.Perm l) {z : Matrix n k ℝ} {z' : Matrix m k ℝ} (hz : ∀ i c, z' i (e c) = z (σ i) c)
    {h : Matrix n l ℝ} {h' : Matrix m l ℝ} (hh : ∀ i c, h' i (e' c) = h (σ i) c) (y : n → ℝ) (white b : Bool) :
    (∀ E, tslsStep z h y white b = .ok E → ∃ E', tslsStep z' h' (fun i => y (σ i)) white b = .ok E' ∧ Moved σ e E E') ∧
    ∀ err, tslsStep z h y white b = .error err → tslsStep z' h' (fun i => y (σ i)) white b = .error err := by
  have key := (ofPerm σ e).tslsE (ofPerm σ e').T (ofPerm σ e').Ti (ofPerm σ e').hT (ofPerm σ e').hTi z h y
  have e1 : GM.trH (ofPerm σ e).σ (ofPerm σ e').T h = h' := ofPerm_x σ e' hh
  rw [e1, ofPerm_x σ e hz, ofPerm_y] at key
  unfold tslsStep
  cases hf : GM.tslsE z h y with
  | error err =>
    rw [hf] at key
    have key' : GM.tslsE z' h' (fun i => y (σ i)) = .error err := key
    simp only [bind, Except.bind, key']
    exact ⟨fun E hE => by (cases hE), fun _ hE => by cases hE; rfl⟩
  | ok f =>
    rw [hf] at key
    have key' : GM.tslsE z' h' (fun i => y (σ i)) = .ok ((ofPerm σ e).tsls (ofPerm σ e').Ti z f) := key
    simp only [bind, Except.bind, key']
    refine ⟨fun E hE => ⟨_, rfl, ?_⟩, fun _ hE => by (cases hE)⟩
    rw [← Except.ok.inj hE]
    have hu : ((ofPerm σ e).tsls (ofPerm σ e').Ti z f).u = fun i => f.u (σ i) := ofPerm_u σ e f.u
    have hvb : ∀ c d, ((ofPerm σ e).tsls (ofPerm σ e').Ti z f).varb (e c) (e d) = f.varb c d := ofPerm_conj σ e f.varb
    have hzt : ∀ c d, ((ofPerm σ e).tsls (ofPerm σ e').Ti z f).zthhthi (e c) (e' d) = f.zthhthi c d := by
      intro c d
      simp [Tr.tsls, ofPerm, mul_apply, one_apply]
    refine ⟨fun c => ofPerm_b σ e _ c, ?_, fun i => congrFun hu i, fun i => congrFun (ofPerm_y σ e z f.predy) i, ?_⟩
    · intro c d
      cases white with
      | false => simp only [Bool.false_eq_true, if_false, Matrix.smul_apply, hvb, hu, s2_perm]
      | true =>
        simp only [if_true, hu]
        have p1 : ∀ c d, (((ofPerm σ e).tsls (ofPerm σ e').Ti z f).varb *
            ((ofPerm σ e).tsls (ofPerm σ e').Ti z f).zthhthi) (e c) (e' d) = (f.varb * f.zthhthi) c d := by
          intro c d
          simp only [mul_apply]
          rw [← Equiv.sum_comp e]
          simp only [hvb, hzt]
        simp only [sandwichTSLS]
        rw [mul_apply, mul_apply, ← Equiv.sum_comp e']
        refine Fintype.sum_congr _ _ fun a => ?_
        rw [p1, mul_apply, mul_apply, ← Equiv.sum_comp e']
        congr 1
        refine Fintype.sum_congr _ _ fun a' => ?_
        show psi0White h' (fun i => f.u (σ i)) _ (e' a) (e' a') * (((ofPerm σ e).tsls (ofPerm σ e').Ti z f).varb *
            ((ofPerm σ e).tsls (ofPerm σ e').Ti z f).zthhthi) (e d) (e' a') =
          psi0White h f.u _ a a' * (f.varb * f.zthhthi) d a'
        rw [p1, psi0White_perm σ e' hh]
    · simp only [hu, s2_perm]

end

/-! ### C158 -/

/-- A coefficient of a pooled model: varying variable `v` in regime `r`, or the `j`-th variable that does not vary. -/
inductive Coef (L : Type)
  | vary (v : ℕ) (r : L)
  | global (j : ℕ)

/-- The coefficient after the regimes are renamed. -/
def Coef.rename {L L' : Type} (τ : L → L') : Coef L → Coef L'
  | .vary v r => .vary v (τ r)
  | .global j => .global j

/-- Its position in the output of a model with `kr` varying variables: regimes in the order of `rs`, then the others. -/
def Coef.pos {L : Type} [DecidableEq L] (kr : ℕ) (rs : List L) : Coef L → ℕ
  | .vary v r => rs.idxOf r * kr + v
  | .global j => kr * rs.length + j

/-- The coefficients that exist. -/
def Coef.Valid {L : Type} (kr kf : ℕ) (rs : List L) : Coef L → Prop
  | .vary v r => v < kr ∧ r ∈ rs
  | .global j => j < kf

/-- Both results say the same about the observations and about every coefficient, whatever its position. -/
structure SameResult {n n' : ℕ} {L L' : Type} [DecidableEq L] [DecidableEq L'] (σ : Fin n' ≃ Fin n) (τ : L → L') (kr kf : ℕ)
    (P : Result n L) (P' : Result n' L') : Prop where
  regimes : ∀ s, s ∈ P'.rs ↔ ∃ r ∈ P.rs, τ r = s
  u : ∀ i, P'.u i = P.u (σ i)
  predy : ∀ i, P'.predy i = P.predy (σ i)
  sig2 : P'.sig2 = P.sig2
  chow : P'.chow = P.chow
  length : P.betas.length = kr * P.rs.length + kf ∧ P'.betas.length = kr * P.rs.length + kf
  valid : ∀ a : Coef L, a.Valid kr kf P.rs → (a.rename τ).Valid kr kf P'.rs
  betas : ∀ a : Coef L, a.Valid kr kf P.rs → P'.betas.getD ((a.rename τ).pos kr P'.rs) 0 = P.betas.getD (a.pos kr P.rs) 0
  vm : ∀ a b : Coef L, a.Valid kr kf P.rs → b.Valid kr kf P.rs →
    P'.vm ((a.rename τ).pos kr P'.rs) ((b.rename τ).pos kr P'.rs) = P.vm (a.pos kr P.rs) (b.pos kr P.rs)

theorem regimesSet_nodup {L : Type} [DecidableEq L] (le : L → L → Prop) [DecidableRel le] {l rs : List L}
    (h : regimesSet le l = .ok rs) : rs.Nodup := by
  unfold regimesSet at h
  split at h
  · cases h
  · obtain rfl := Except.ok.inj h
    exact (List.perm_insertionSort _ _).nodup_iff.2 (List.nodup_dedup _)

/-- The last step for moved estimates. -/
theorem finish_perm {n n' : ℕ} {L L' : Type} [DecidableEq L] [DecidableEq L'] (σ : Fin n' ≃ Fin n) (τ : L → L')
    (kr kf nr : ℕ) (rs : List L) (rs' : List L') (hr : rs.length = nr) (hr' : rs'.length = nr)
    (hn : rs.Nodup) (hn' : rs'.Nodup) (π : Equiv.Perm (Fin nr)) (hπ : ∀ g : Fin nr, rs'[π g] = τ rs[g])
    {E : Est (Fin n) (Fin (kr * nr + kf))} {E' : Est (Fin n') (Fin (kr * nr + kf))}
    (hE : Moved σ (move kr 0 nr (kr * nr + kf) (Nat.zero_le _) (Nat.le_add_right _ _) π) E E') :
    (∀ P, finish rs kr kf 0 nr E = .ok P → ∃ P', finish rs' kr kf 0 nr E' = .ok P' ∧ SameResult σ τ kr kf P P') ∧
    ∀ err, finish rs kr kf 0 nr E = .error err → finish rs' kr kf 0 nr E' = .error err := by
  obtain ⟨hb, hv, hu, hp, hs⟩ := hE
  have hofn : ∀ (f : Fin (kr * nr + kf) → ℝ) (c : Fin (kr * nr + kf)), (List.ofFn f).getD c 0 = f c := by
    intro f c
    rw [List.getD_eq_getElem _ _ (by simp)]
    simp
  have hc := C158_chow kr kf 0 nr (Nat.zero_le _) (List.ofFn E.betas) (List.ofFn E'.betas) E.vm E'.vm rfl (by simp) (by simp) π _
    rfl (fun c => by rw [hofn, hofn, hb]) hv
  unfold finish
  rw [hc]
  cases chowRun kr kf 0 nr (List.ofFn E.betas) E.vm with
  | error err => exact ⟨fun P h => by (cases h), fun _ h => by cases h; rfl⟩
  | ok C =>
    refine ⟨fun P h => ⟨_, rfl, ?_⟩, fun _ h => by (cases h)⟩
    obtain rfl := Except.ok.inj h
    have hidx : ∀ g : Fin nr, rs.idxOf rs[g] = g := fun g => hn.idxOf_getElem _ _
    have hidx' : ∀ g : Fin nr, rs'.idxOf (τ rs[g]) = π g := fun g => by rw [← hπ g]; exact hn'.idxOf_getElem _ _
    -- the positions
    have hpos : ∀ a : Coef L, a.Valid kr kf rs → ∃ c : Fin (kr * nr + kf), a.pos kr rs = c ∧
        (a.rename τ).pos kr rs' = (move kr 0 nr (kr * nr + kf) (Nat.zero_le _) (Nat.le_add_right _ _) π c).1 := by
      intro a ha
      cases a with
      | vary v r =>
        obtain ⟨hvk, hrm⟩ := ha
        obtain ⟨g, hg, rfl⟩ := List.getElem_of_mem hrm
        have hg' : g < nr := by omega
        refine ⟨posEmb kr 0 nr (kr * nr + kf) (Nat.zero_le _) (Nat.le_add_right _ _) (⟨v, hvk⟩, ⟨g, hg'⟩), ?_, ?_⟩
        · have := hidx ⟨g, hg'⟩
          simp only [Fin.getElem_fin] at this
          simp [Coef.pos, posEmb, coefPos, this]
        · rw [move_pos]
          have := hidx' ⟨g, hg'⟩
          simp only [Fin.getElem_fin] at this
          simp [Coef.pos, Coef.rename, posEmb, coefPos, this]
      | global j =>
        have hj : j < kf := ha
        refine ⟨⟨kr * nr + j, by omega⟩, by simp [Coef.pos, hr], ?_⟩
        have : move kr 0 nr (kr * nr + kf) (Nat.zero_le _) (Nat.le_add_right _ _) π ⟨kr * nr + j, by omega⟩ =
            ⟨kr * nr + j, by omega⟩ := Equiv.Perm.viaEmbedding_apply_of_notMem _ _ _ (by
          rintro ⟨p, hp⟩
          have h1 := congrArg Fin.val hp
          have h2 : coefPos kr 0 nr p.1 p.2 < kr * nr := coefPos_lt (Nat.zero_le _) p.1.2 p.2.2
          have h3 : coefPos kr 0 nr p.1 p.2 = kr * nr + j := h1
          omega)
        rw [this]
        simp [Coef.pos, Coef.rename, hr']
    have hmem : ∀ s, s ∈ rs' ↔ ∃ r ∈ rs, τ r = s := by
      intro s
      constructor
      · intro h
        obtain ⟨g, hg, rfl⟩ := List.getElem_of_mem h
        refine ⟨rs[(π.symm ⟨g, by omega⟩)], List.getElem_mem _, ?_⟩
        rw [← hπ]; simp
      · rintro ⟨r, h, rfl⟩
        obtain ⟨g, hg, rfl⟩ := List.getElem_of_mem h
        have := hπ ⟨g, by omega⟩
        simp only [Fin.getElem_fin] at this
        rw [← this]
        exact List.getElem_mem _
    refine ⟨hmem, hu, hp, hs, rfl, by simp [hr], ?_, ?_, ?_⟩
    · intro a ha
      cases a with
      | vary v r => exact ⟨ha.1, (hmem _).2 ⟨r, ha.2, rfl⟩⟩
      | global j => exact ha
    · intro a ha
      obtain ⟨c, h1, h2⟩ := hpos a ha
      simp only [h1, h2]
      rw [hofn, hofn, hb]
    · intro a b ha hb'
      obtain ⟨c, h1, h2⟩ := hpos a ha
      obtain ⟨d, h3, h4⟩ := hpos b hb'
      simp only [h1, h2, h3, h4]
      rw [dif_pos ⟨Fin.is_lt _, Fin.is_lt _⟩, dif_pos ⟨c.2, d.2⟩]
      exact hv c d

/-- **C158**: `OLS_Regimes` in one equation, whatever varies and for every robust option. For data with the observations in another
order and other names for the regimes (also when the new names sort differently), the residuals, predicted values, coefficients,
variances and covariances, `sig2` and Chow tests are those of the same observation, of the same variable and regime; and an
exception of one is an exception of the other. -/
theorem C158_ols {L L' : Type} [DecidableEq L] [DecidableEq L'] (le : L → L → Prop) [DecidableRel le]
    (le' : L' → L' → Prop) [DecidableRel le'] {n n' : ℕ} (σ : Fin n' ≃ Fin n) (lab : Fin n → L) (τ : L → L')
    (hτ : Function.Injective τ) (cols : List (List ℝ)) (hc : ∀ c ∈ cols, c.length = n) (mask : List Bool)
    (hm : mask.length = cols.length) (y : Fin n → ℝ) (rob : Robust (Fin n)) (sig2nk errSep : Bool) :
    (∀ P, olsPooled le lab cols mask y rob sig2nk errSep = .ok P →
      ∃ P', olsPooled le' (fun i => τ (lab (σ i))) (cols.map (reorder σ)) mask (fun i => y (σ i)) (robOf σ rob) sig2nk errSep =
        .ok P' ∧ SameResult σ τ (select mask true cols).length (select mask false cols).length P P') ∧
    ∀ err, olsPooled le lab cols mask y rob sig2nk errSep = .error err →
      olsPooled le' (fun i => τ (lab (σ i))) (cols.map (reorder σ)) mask (fun i => y (σ i)) (robOf σ rob) sig2nk errSep =
        .error err := by
  have hnn : n' = n := by simpa using Fintype.card_congr σ
  unfold olsPooled
  cases hrs : regimesSet le (List.ofFn lab) with
  | error err =>
    have h0 : n = 0 := by
      by_contra hne
      unfold regimesSet at hrs
      rw [if_neg (fun h => hne (by simpa using congrArg List.length h))] at hrs
      cases hrs
    have hrs' : regimesSet le' (List.ofFn fun i => τ (lab (σ i))) = .error err := by
      unfold regimesSet at hrs ⊢
      rw [if_pos (List.length_eq_zero_iff.1 (by simp; omega))] at hrs ⊢
      cases hrs
      rfl
    rw [hrs']
    exact ⟨fun P h => by (cases h), fun _ h => by cases h; rfl⟩
  | ok rs =>
    obtain ⟨rs', hrs', hlen, hex⟩ := regimesSet_relabel le le' σ lab τ hτ hrs
    rw [hrs']
    simp only [bind, Except.bind, List.length_map, hlen, select_map]
    by_cases h2 : rs.length < 2
    · rw [if_pos h2, if_pos h2]
      exact ⟨fun P h => by (cases h), fun _ h => by cases h; rfl⟩
    rw [if_neg h2, if_neg h2]
    by_cases h3 : n < cols.length * rs.length
    · rw [if_pos h3, if_pos (by omega)]
      exact ⟨fun P h => by (cases h), fun _ h => by cases h; rfl⟩
    rw [if_neg h3, if_neg (by omega)]
    obtain ⟨π, hπ⟩ := hex rfl hlen
    have hd := (C158_design σ lab τ hτ cols hc mask hm rs rs' rfl hlen π hπ).2
    obtain ⟨s1, s2⟩ := olsStep_perm σ _ hd y lab τ hτ rob sig2nk errSep
    unfold Pooled.olsWith
    cases hE : olsStep lab (mat n _ (regimeXsetup cols (List.ofFn lab) mask rs)) y rob sig2nk errSep with
    | error err =>
      rw [s2 err hE]
      exact ⟨fun P h => by (cases h), fun _ h => by cases h; rfl⟩
    | ok E =>
      obtain ⟨E', hE', hM⟩ := s1 E hE
      rw [hE']
      exact finish_perm σ τ _ _ _ rs rs' rfl hlen (regimesSet_nodup le hrs) (regimesSet_nodup le' hrs') π hπ hM

theorem fromCols_move {m n a b : Type} (σ : m ≃ n) {e1 : Equiv.Perm a} {e2 : Equiv.Perm b} {A : Matrix n a ℝ} {A' : Matrix m a ℝ}
    {B : Matrix n b ℝ} {B' : Matrix m b ℝ} (h1 : ∀ i c, A' i (e1 c) = A (σ i) c) (h2 : ∀ i c, B' i (e2 c) = B (σ i) c) :
    ∀ i c, fromCols A' B' i (Equiv.sumCongr e1 e2 c) = fromCols A B (σ i) c := by
  rintro i (c | c)
  · exact h1 i c
  · exact h2 i c

/-- **C158**: the estimates of `TSLS_Regimes` in one equation for reordered observations and renamed regimes. -/
theorem C158_tsls {L L' : Type} [DecidableEq L] [DecidableEq L'] {n n' : ℕ} (σ : Fin n' ≃ Fin n) (lab : Fin n → L) (τ : L → L')
    (hτ : Function.Injective τ) (xcols ycols qcols : List (List ℝ)) (hx : ∀ c ∈ xcols, c.length = n)
    (hy : ∀ c ∈ ycols, c.length = n) (hq : ∀ c ∈ qcols, c.length = n) (maskx masky : List Bool)
    (hmx : maskx.length = xcols.length) (hmy : masky.length = ycols.length) (rs : List L) (rs' : List L') {nr : ℕ}
    (hr : rs.length = nr) (hr' : rs'.length = nr) (π : Equiv.Perm (Fin nr)) (hπ : ∀ g : Fin nr, rs'[π g] = τ rs[g])
    (y : Fin n → ℝ) (white sig2nk : Bool) (krx kfx kry kfy kq : ℕ) (h1 : krx = (select maskx true xcols).length)
    (h2 : kfx = (select maskx false xcols).length) (h3 : kry = (select masky true ycols).length)
    (h4 : kfy = (select masky false ycols).length) (h5 : kq = qcols.length) :
    let e := Equiv.sumCongr (move krx 0 nr (krx * nr + kfx) (Nat.zero_le _) (Nat.le_add_right _ _) π)
      (move kry 0 nr (kry * nr + kfy) (Nat.zero_le _) (Nat.le_add_right _ _) π)
    (∀ E, tslsWith (krx * nr + kfx) (kry * nr + kfy) (kq * nr) rs lab xcols ycols qcols maskx masky y white sig2nk = .ok E →
      ∃ E', tslsWith (krx * nr + kfx) (kry * nr + kfy) (kq * nr) rs' (fun i => τ (lab (σ i))) (xcols.map (reorder σ))
        (ycols.map (reorder σ)) (qcols.map (reorder σ)) maskx masky (fun i => y (σ i)) white sig2nk = .ok E' ∧ Moved σ e E E' ∧
        (kfx = 0 → kfy = 0 → tslsChow krx kry nr E' = tslsChow krx kry nr E)) ∧
    ∀ err, tslsWith (krx * nr + kfx) (kry * nr + kfy) (kq * nr) rs lab xcols ycols qcols maskx masky y white sig2nk = .error err →
      tslsWith (krx * nr + kfx) (kry * nr + kfy) (kq * nr) rs' (fun i => τ (lab (σ i))) (xcols.map (reorder σ))
        (ycols.map (reorder σ)) (qcols.map (reorder σ)) maskx masky (fun i => y (σ i)) white sig2nk = .error err := by
  intro e
  have dx := (C158_design σ lab τ hτ xcols hx maskx hmx rs rs' hr hr' π hπ).2
  have dy := (C158_design σ lab τ hτ ycols hy masky hmy rs rs' hr hr' π hπ).2
  have dq := (C158_design σ lab τ hτ qcols hq (List.replicate qcols.length true) (by simp) rs rs' hr hr' π hπ).2
  rw [← h1, ← h2] at dx
  rw [← h3, ← h4] at dy
  have hq1 : (select (List.replicate qcols.length true) true qcols) = qcols := by
    exact (select_all true _ qcols (by simp) (by simp)).1
  have hq2 : (select (List.replicate qcols.length true) false qcols) = [] := by
    exact (select_all true _ qcols (by simp) (by simp)).2
  rw [hq1, hq2, ← h5] at dq
  unfold tslsWith
  have key := tslsStep_perm σ e _ (fromCols_move σ dx dy) (fromCols_move σ dx dq) y white sig2nk
  simp only [List.length_map, ← h5]
  refine ⟨fun E hE => ?_, key.2⟩
  obtain ⟨E', hE', hM⟩ := key.1 E hE
  refine ⟨E', hE', hM, ?_⟩
  rintro rfl rfl
  unfold tslsChow
  have hofn : ∀ (f : Fin (krx * nr + 0 + (kry * nr + 0)) → ℝ) (c : Fin _), (List.ofFn f).getD c 0 = f c := by
    intro f c
    rw [List.getD_eq_getElem _ _ (by simp)]
    simp
  have hpe : (finSumFinEquiv.symm.trans e).trans finSumFinEquiv = move (krx + kry) kry nr (krx * nr + 0 + (kry * nr + 0))
      (by omega) (by rw [Nat.add_mul]; omega) π := by
    refine Equiv.ext fun c => ?_
    obtain ⟨⟨v, g⟩, rfl⟩ : ∃ p, posEmb (krx + kry) kry nr (krx * nr + 0 + (kry * nr + 0)) (by omega) (by rw [Nat.add_mul]; omega) p
        = c := by
      have : Function.Bijective (posEmb (krx + kry) kry nr (krx * nr + 0 + (kry * nr + 0)) (by omega)
          (by rw [Nat.add_mul]; omega)) := by
        rw [Fintype.bijective_iff_injective_and_card]
        refine ⟨Function.Embedding.injective _, ?_⟩
        simp [Nat.add_mul]
      exact this.2 c
    rw [move_pos]
    by_cases hv : v.1 < krx
    · have hp : ∀ g : Fin nr, posEmb (krx + kry) kry nr (krx * nr + 0 + (kry * nr + 0)) (by omega) (by rw [Nat.add_mul]; omega) (v, g)
          = finSumFinEquiv (Sum.inl (posEmb krx 0 nr (krx * nr + 0) (Nat.zero_le _) le_rfl (⟨v, hv⟩, g))) := by
        intro g
        apply Fin.ext
        simp [posEmb, coefPos, hv]
      rw [hp, hp]
      simp only [Equiv.trans_apply, Equiv.symm_apply_apply, e, Equiv.sumCongr_apply, Sum.map_inl, move_pos]
    · have hv2 : v.1 - krx < kry := by have := v.2; omega
      have hp : ∀ g : Fin nr, posEmb (krx + kry) kry nr (krx * nr + 0 + (kry * nr + 0)) (by omega) (by rw [Nat.add_mul]; omega) (v, g)
          = finSumFinEquiv (Sum.inr (posEmb kry 0 nr (kry * nr + 0) (Nat.zero_le _) le_rfl (⟨v - krx, hv2⟩, g))) := by
        intro g
        apply Fin.ext
        simp [posEmb, coefPos, hv, Nat.mul_comm nr krx, Nat.add_assoc]
      rw [hp, hp]
      simp only [Equiv.trans_apply, Equiv.symm_apply_apply, e, Equiv.sumCongr_apply, Sum.map_inr, move_pos]
  refine C158_chow (krx + kry) 0 kry nr (by omega) _ _ _ _ (by rw [Nat.add_mul]; omega) (by simp) (by simp) π _ hpe ?_ ?_
  · intro c
    rw [hofn, hofn]
    simp only [Equiv.trans_apply, Equiv.symm_apply_apply]
    exact hM.1 _
  · intro c d
    simp only [submatrix_apply, Equiv.trans_apply, Equiv.symm_apply_apply]
    exact hM.2.1 _ _

/-! ### The hypotheses are met -/

/-- Four observations of two regimes. -/
def exLab : Fin 4 → ℕ := ![7, 3, 3, 7]

theorem ex_regimes : regimesSet (· ≤ ·) (List.ofFn exLab) = .ok [3, 7] := by decide

theorem ex_cols : regimeXsetup [[(1 : ℝ), 1, 1, 1]] (List.ofFn exLab) [true] [3, 7] = [[0, 1, 1, 0], [1, 0, 0, 1]] := by
  simp [regimeXsetup, x2xspCols, maskCol, exLab]

/-- The design of the example. -/
def exZ : Matrix (Fin 4) (Fin 2) ℝ := !![0, 1; 1, 0; 1, 0; 0, 1]

theorem ex_mat : mat 4 (1 * 2 + 0) [[0, 1, 1, 0], [1, 0, 0, 1]] = exZ := by
  ext i c
  fin_cases i <;> fin_cases c <;> simp [mat, exZ]

theorem ex_xtx : exZᵀ * exZ = (2 : ℝ) • (1 : Matrix (Fin 2) (Fin 2) ℝ) := by
  ext i j
  fin_cases i <;> fin_cases j <;> norm_num [exZ, mul_apply, Fin.sum_univ_succ]

theorem ex_ols : GM.olsE exZ ![1, 2, 3, 5] = .ok ⟨(2 : ℝ) • 1, (1 / 2 : ℝ) • 1, ![5 / 2, 3], ![3, 5 / 2, 5 / 2, 3],
    ![-2, -1 / 2, 1 / 2, 2]⟩ := by
  have hu : IsUnit (exZᵀ * exZ).det := by rw [ex_xtx]; simp
  have hi : (exZᵀ * exZ)⁻¹ = (1 / 2 : ℝ) • 1 := by
    rw [ex_xtx]
    apply Matrix.inv_eq_right_inv
    rw [Matrix.smul_mul, Matrix.mul_smul, smul_smul, Matrix.one_mul]
    norm_num
  unfold GM.olsE
  rw [ols_of_isUnit _ _ hu, hi]
  have h1 : exZᵀ *ᵥ ![1, 2, 3, 5] = ![5, 6] := by
    ext i; fin_cases i <;> norm_num [exZ, mulVec, dotProduct, Fin.sum_univ_succ]
  have h2 : ((1 / 2 : ℝ) • (1 : Matrix (Fin 2) (Fin 2) ℝ)) *ᵥ ![5, 6] = ![5 / 2, 3] := by
    rw [smul_mulVec, one_mulVec]
    ext i; fin_cases i <;> norm_num
  have h3 : exZ *ᵥ ![5 / 2, 3] = ![3, 5 / 2, 5 / 2, 3] := by
    ext i; fin_cases i <;> norm_num [exZ, mulVec, dotProduct, Fin.sum_univ_two]
  have h4 : (![1, 2, 3, 5] - ![3, 5 / 2, 5 / 2, 3] : Fin 4 → ℝ) = ![-2, -1 / 2, 1 / 2, 2] := by
    ext i; fin_cases i <;> norm_num
  simp only [Lin.olsWith, h1, h2, h3, h4, ex_xtx]

theorem ex_wald {m : Type} [Fintype m] [DecidableEq m] [Unique m] (b : Fin 2 → ℝ) (r : Matrix m (Fin 2) ℝ) (s : ℝ) (hs : s ≠ 0)
    (h0 : ∀ i, r i 0 = 1) (h1 : ∀ i, r i 1 = -1) :
    ∃ w, waldE b r (s • ((1 / 2 : ℝ) • (1 : Matrix (Fin 2) (Fin 2) ℝ))) = .ok w := by
  have hd : IsUnit (r * ((s • ((1 / 2 : ℝ) • (1 : Matrix (Fin 2) (Fin 2) ℝ))) * rᵀ)).det := by
    rw [Matrix.det_unique, isUnit_iff_ne_zero]
    simp only [Matrix.smul_mul, Matrix.one_mul, Matrix.smul_apply, mul_apply, transpose_apply,
      Fin.sum_univ_two, h0, h1, smul_eq_mul]
    intro h
    apply hs
    linarith
  unfold waldE waldTest
  simp only [inv?_of_isUnit hd, Option.map_some]
  exact ⟨_, rfl⟩

theorem ex_ok : ∃ P, olsPooled (· ≤ ·) exLab [[1, 1, 1, 1]] [true] ![1, 2, 3, 5] .none' false false = .ok P := by
  unfold olsPooled
  rw [ex_regimes]
  show ∃ P, (if 2 < 2 then .error .exception else if 4 < 1 * 2 then .error .exception else Pooled.olsWith 1 0 2 [3, 7] exLab [[1, 1, 1, 1]] [true] ![1, 2, 3, 5] .none' false
    false) = Except.ok P
  rw [if_neg (by decide), if_neg (by decide)]
  unfold Pooled.olsWith
  rw [ex_cols, ex_mat]
  have hs : s2 false 2 (![-2, -1 / 2, 1 / 2, 2] : Fin 4 → ℝ) ≠ 0 := by
    norm_num [s2, sig2n, utu, Fin.sum_univ_succ]
  have he : olsStep exLab exZ ![1, 2, 3, 5] .none' false false = .ok ⟨![5 / 2, 3],
      s2 false 2 ![-2, -1 / 2, 1 / 2, 2] • ((1 / 2 : ℝ) • (1 : Matrix (Fin 2) (Fin 2) ℝ)), ![-2, -1 / 2, 1 / 2, 2],
      ![3, 5 / 2, 5 / 2, 3], s2 false 2 ![-2, -1 / 2, 1 / 2, 2]⟩ := by
    unfold olsStep
    rw [ex_ols]
    rfl
  rw [he]
  have r0 : ∀ i : Fin 1, rMat 0 1 0 2 2 i 0 = 1 := by
    intro i
    obtain rfl : i = 0 := Subsingleton.elim _ _
    show ((buildR1var 0 1 0 2 0 0 : ℤ) : ℝ) = 1
    rw [show buildR1var 0 1 0 2 0 0 = 1 by decide]
    norm_num
  have r1 : ∀ i : Fin 1, rMat 0 1 0 2 2 i 1 = -1 := by
    intro i
    obtain rfl : i = 0 := Subsingleton.elim _ _
    show ((buildR1var 0 1 0 2 0 1 : ℤ) : ℝ) = -1
    rw [show buildR1var 0 1 0 2 0 1 = -1 by decide]
    norm_num
  have : Unique (Fin 1 × Fin 1) := ⟨⟨(0, 0)⟩, by decide⟩
  obtain ⟨w1, hw1⟩ := ex_wald (m := Fin 1) (vec (List.ofFn ![5 / 2, 3]) 2) (rMat 0 1 0 2 2) _ hs r0 r1
  obtain ⟨w2, hw2⟩ := ex_wald (m := Fin 1 × Fin 1) (vec (List.ofFn ![5 / 2, 3]) 2)
    (Matrix.of fun (p : Fin 1 × Fin 1) c => rMat p.1 1 0 2 2 p.2 c) _ hs
    (by rintro ⟨i, j⟩; obtain rfl : i = 0 := Subsingleton.elim _ _; exact r0 j)
    (by rintro ⟨i, j⟩; obtain rfl : i = 0 := Subsingleton.elim _ _; exact r1 j)
  have hch : ∃ C, chowRun 1 0 0 2 (List.ofFn ![5 / 2, 3])
      (s2 false 2 (![-2, -1 / 2, 1 / 2, 2] : Fin 4 → ℝ) • ((1 / 2 : ℝ) • (1 : Matrix (Fin 2) (Fin 2) ℝ))) = .ok C := by
    have hm : (List.range 1).mapM (fun v => waldE (vec (List.ofFn ![5 / 2, 3]) 2) (rMat v 1 0 2 2)
        (s2 false 2 (![-2, -1 / 2, 1 / 2, 2] : Fin 4 → ℝ) • ((1 / 2 : ℝ) • (1 : Matrix (Fin 2) (Fin 2) ℝ)))) = .ok [w1] := by
      rw [show List.range 1 = [0] from rfl, List.mapM_cons, hw1]
      rfl
    refine ⟨⟨w2, [w1]⟩, ?_⟩
    unfold chowRun
    rw [show adjust 1 0 2 (List.ofFn (![5 / 2, 3] : Fin 2 → ℝ)) 2 = .ok (0, List.ofFn ![5 / 2, 3]) from by
      unfold adjust; rw [if_neg (by simp)]]
    simp only [bind, Except.bind]
    rw [if_neg (by decide), if_neg (by simp), hm]
    simp only
    rw [hw2]
  obtain ⟨C, hC⟩ := hch
  simp only [bind, Except.bind]
  unfold finish
  rw [hC]
  exact ⟨_, rfl⟩

/-- `C158_ols` applies to the example with the first two observations exchanged and the names 7 and 3 replaced by -7 and -3
(which sort the other way round). -/
example : ∃ (P : Result 4 ℕ) (P' : Result 4 ℤ),
    olsPooled (· ≤ ·) exLab [[1, 1, 1, 1]] [true] ![1, 2, 3, 5] .none' false false = .ok P ∧
    SameResult (Equiv.swap (0 : Fin 4) 1) (fun r : ℕ => -(r : ℤ)) 1 0 P P' := by
  obtain ⟨P, hP⟩ := ex_ok
  obtain ⟨P', -, h⟩ := (C158_ols (· ≤ ·) (· ≤ ·) (Equiv.swap (0 : Fin 4) 1) exLab (fun r : ℕ => -(r : ℤ))
    (fun a b h => by simpa using h) [[1, 1, 1, 1]] (by simp) [true] rfl ![1, 2, 3, 5] .none' false false).1 P hP
  exact ⟨P, P', hP, h⟩

end Spreg.Relabel