import Verif.Props.SUROrder
/-
C162, continued: test statistics, spatial errors.
-/
set_option linter.unusedSectionVars false
namespace Spreg.SUR
open Matrix Spreg.Lin Spreg.Gauss

variable {m n S R : Type} [Fintype m] [Fintype n] [Fintype S] [Fintype R] [DecidableEq S] [DecidableEq R] {K : R → Type}
  [∀ r, Fintype (K r)] [∀ r, DecidableEq (K r)]

namespace Rec
variable (t : Rec m n S R K)

theorem corr_g (A : Matrix R R ℝ) : surCorr (t.g A) = t.g (surCorr A) := rfl

theorem g_mul (A B : Matrix R R ℝ) : t.g A * t.g B = t.g (A * B) := GM.subσσ_mul t.ρ A B

theorem g_transpose (A : Matrix R R ℝ) : (t.g A)ᵀ = t.g Aᵀ := rfl

theorem g_trace (A : Matrix R R ℝ) : (t.g A).trace = A.trace := t.ρ.sum_comp fun r => A r r

theorem w_mul (A B : Matrix n n ℝ) : t.w A * t.w B = t.w (A * B) := GM.subσσ_mul t.σ A B

theorem w_trace (A : Matrix n n ℝ) : (t.w A).trace = A.trace := t.σ.sum_comp fun r => A r r

theorem w_e (W : Matrix n n ℝ) (E : Matrix n R ℝ) : t.w W * t.e E = t.e (W * E) := by
  ext i s
  simp only [Matrix.mul_apply, w, e, Matrix.of_apply]
  exact t.σ.sum_comp fun a => W (t.σ i) a * E a (t.ρ s)

theorem e_e (E F : Matrix n R ℝ) : (t.e E)ᵀ * t.e F = t.g (Eᵀ * F) := by
  ext s u
  simp only [Matrix.mul_apply, transpose_apply, e, g, Matrix.of_apply]
  exact t.σ.sum_comp fun a => E a (t.ρ s) * F a (t.ρ u)

theorem g_one : t.g (1 : Matrix R R ℝ) = 1 := submatrix_one_equiv t.ρ

theorem quad_g (A : Matrix R R ℝ) (v : R → ℝ) :
    (fun s => v (t.ρ s)) ⬝ᵥ (t.g A *ᵥ fun s => v (t.ρ s)) = v ⬝ᵥ (A *ᵥ v) := by
  have : (t.g A *ᵥ fun s => v (t.ρ s)) = fun s => (A *ᵥ v) (t.ρ s) := GM.subσ_mulVec t.ρ (f := t.ρ) A v
  rw [this]
  exact t.ρ.sum_comp fun r => v r * (A *ᵥ v) r

theorem lmtest_eq (nobs : ℕ) (A : Matrix R R ℝ) : lmtest nobs (t.g A) = lmtest nobs A := by
  unfold lmtest
  dsimp only
  rw [corr_g, g_transpose, g_mul, g_trace, Fintype.card_congr t.ρ]

theorem lme_eq [DecidableEq m] [DecidableEq n] (W : Matrix n n ℝ) (E : Matrix n R ℝ) (A : Matrix R R ℝ) :
    surLMe (t.w W) (t.e E) (t.g A) = surLMe W E A := by
  unfold surLMe
  dsimp only
  rw [inv?_g]
  rcases inv? A with _ | Ai
  · rw [Option.map_none, Option.bind_none, Option.bind_none]
  rw [Option.map_some, Option.bind_some, Option.bind_some, w_e, e_e, w_mul]
  have hT : (t.w W)ᵀ = t.w Wᵀ := rfl
  rw [hT, w_mul, w_trace, w_trace]
  have hd : (W * W).trace • (1 : Matrix S S ℝ) + (Wᵀ * W).trace • (Matrix.of fun r u => t.g Ai r u * t.g A r u) =
      t.g ((W * W).trace • (1 : Matrix R R ℝ) + (Wᵀ * W).trace • (Matrix.of fun r u => Ai r u * A r u)) := by
    rw [← t.g_one]; rfl
  rw [hd, inv?_g, Option.map_map]
  refine congrArg (fun f => Option.map f _) (funext fun B => ?_)
  have hs : (fun u => ∑ s, (Matrix.of fun r u => t.g Ai r u * t.g (Eᵀ * (W * E)) r u : Matrix S S ℝ) s u) =
      fun s => (fun u => ∑ r, Ai r u * (Eᵀ * (W * E)) r u) (t.ρ s) := by
    funext u
    exact t.ρ.sum_comp fun r => Ai r (t.ρ u) * (Eᵀ * (W * E)) r (t.ρ u)
  simp only [Function.comp]
  rw [hs]
  exact t.quad_g B (fun u => ∑ r, Ai r u * (Eᵀ * (W * E)) r u)

theorem lmlag_eq (ht : t.Ok) (W : Matrix n n ℝ) (y : R → n → ℝ) (X : ∀ r, Matrix n (K r) ℝ) (E YP : Matrix n R ℝ)
    (A : Matrix R R ℝ) (V : Matrix (Stk K) (Stk K) ℝ) :
    surLMlag (t.w W) (t.y y) (t.x X) (t.e E) (t.e YP) (t.g A) (t.v V) = surLMlag W y X E YP A V := by
  unfold surLMlag
  dsimp only
  rw [inv?_g]
  rcases inv? A with _ | Ai
  · rw [Option.map_none, Option.bind_none, Option.bind_none]
  rw [Option.map_some, Option.bind_some, Option.bind_some]
  have hs : lagScore (t.w W) (t.y y) (t.e E) (t.g Ai) = fun s => lagScore W y E Ai (t.ρ s) := by
    unfold lagScore
    dsimp only
    have : (Matrix.of fun i r => t.y y r i : Matrix m S ℝ) = t.e (Matrix.of fun i r => y r i) := rfl
    rw [this, w_e, e_e, g_mul]
    funext u
    exact t.ρ.sum_comp fun r => (Ai * (Eᵀ * (W * (Matrix.of fun i r => y r i : Matrix n R ℝ)))) r (t.ρ u)
  have hi : lagInner (t.w W) (t.x X) (t.e YP) (t.g A) (t.g Ai) (t.v V) = t.g (lagInner W X YP A Ai V) := by
    unfold lagInner
    dsimp only
    have hT : (t.w W)ᵀ = t.w Wᵀ := rfl
    rw [hT, w_mul, w_mul, w_trace, w_trace, w_e, e_e]
    have hd : (W * W).trace • (1 : Matrix S S ℝ) + (Wᵀ * W).trace • (Matrix.of fun r u => t.g Ai r u * t.g A r u) =
        t.g ((W * W).trace • (1 : Matrix R R ℝ) + (Wᵀ * W).trace • (Matrix.of fun r u => Ai r u * A r u)) := by
      rw [← t.g_one]; rfl
    rw [hd]
    set bp : Matrix (Stk K) R ℝ := Matrix.of fun p u => Ai p.1 u * ((X p.1)ᵀ * (W * YP)) p.2 u with hbp
    have hb : (Matrix.of fun (p : Stk fun s => K (t.ρ s)) u => t.g Ai p.1 u * ((t.x X p.1)ᵀ * t.e (W * YP)) p.2 u :
        Matrix _ S ℝ) = ((blockDiagonal' t.T)ᵀ * bp).submatrix t.pos t.ρ := by
      ext p u
      have h := block_mul bp t.T (t.pos p) (t.ρ u)
      rw [submatrix_apply, h]
      have hx : ((t.x X p.1)ᵀ * t.e (W * YP)) p.2 u = ((t.T (t.ρ p.1))ᵀ * ((X (t.ρ p.1))ᵀ * (W * YP))) p.2 (t.ρ u) := by
        rw [← Matrix.mul_assoc, ← transpose_mul, Matrix.mul_apply, Matrix.mul_apply]
        exact t.σ.sum_comp fun a => (X (t.ρ p.1) * t.T (t.ρ p.1))ᵀ p.2 a * (W * YP) a (t.ρ u)
      simp only [Matrix.of_apply]
      rw [hx, Matrix.mul_apply, Finset.mul_sum]
      refine Finset.sum_congr rfl fun a _ => ?_
      change Ai (t.ρ p.1) (t.ρ u) * (t.T (t.ρ p.1) a p.2 * ((X (t.ρ p.1))ᵀ * (W * YP)) a (t.ρ u)) =
        t.T (t.ρ p.1) a p.2 * (Ai (t.ρ p.1) (t.ρ u) * ((X (t.ρ p.1))ᵀ * (W * YP)) a (t.ρ u))
      ring
    have hq : (((blockDiagonal' t.T)ᵀ * bp).submatrix t.pos t.ρ)ᵀ * t.v V * ((blockDiagonal' t.T)ᵀ * bp).submatrix t.pos t.ρ =
        t.g (bpᵀ * V * bp) := by
      rw [v_eq, transpose_submatrix, submatrix_mul_equiv, submatrix_mul_equiv, transpose_mul, transpose_transpose]
      change Matrix.submatrix _ t.ρ t.ρ = Matrix.submatrix _ t.ρ t.ρ
      congr 1
      have e2 : (blockDiagonal' t.Ti)ᵀ * (blockDiagonal' t.T)ᵀ = 1 := by
        rw [← transpose_mul, (t.blocks ht).1, transpose_one]
      have e1 := (t.blocks ht).1
      calc bpᵀ * blockDiagonal' t.T * (blockDiagonal' t.Ti * V * (blockDiagonal' t.Ti)ᵀ) * ((blockDiagonal' t.T)ᵀ * bp)
          = bpᵀ * (blockDiagonal' t.T * blockDiagonal' t.Ti) * V * ((blockDiagonal' t.Ti)ᵀ * (blockDiagonal' t.T)ᵀ) * bp := by
            simp only [Matrix.mul_assoc]
        _ = _ := by rw [e1, e2, Matrix.mul_one, Matrix.mul_one]
    rw [hb, hq]
    rfl
  rw [hs, hi, inv?_g, Option.map_map]
  refine congrArg (fun f => Option.map f _) (funext fun B => t.quad_g B _)

/-! ### Spatial errors -/

theorem filtX_eq (W : Matrix n n ℝ) (lam : R → ℝ) (X : ∀ r, Matrix n (K r) ℝ) :
    filtX (t.w W) (fun s => lam (t.ρ s)) (t.x X) = t.x (filtX W lam X) := by
  funext s
  have h : t.w W * t.x X s = Matrix.of fun i j => (W * (X (t.ρ s) * t.T (t.ρ s))) (t.σ i) j := by
    ext i j
    simp only [Matrix.mul_apply (M := t.w W), Matrix.mul_apply (M := W)]
    exact t.σ.sum_comp fun a => W (t.σ i) a * (X (t.ρ s) * t.T (t.ρ s)) a j
  ext i j
  have e : (filtX W lam X (t.ρ s) * t.T (t.ρ s)) = X (t.ρ s) * t.T (t.ρ s) - lam (t.ρ s) • (W * (X (t.ρ s) * t.T (t.ρ s))) := by
    unfold filtX
    rw [Matrix.sub_mul, Matrix.smul_mul, Matrix.mul_assoc]
  simp only [filtX, h]
  simp only [x, Matrix.sub_apply, Matrix.smul_apply, Matrix.of_apply]
  have e' := congrFun (congrFun e (t.σ i)) j
  rw [Matrix.sub_apply, Matrix.smul_apply] at e'
  exact e'.symm

theorem w_vec (W : Matrix n n ℝ) (v : n → ℝ) (i : m) : (t.w W *ᵥ fun a => v (t.σ a)) i = (W *ᵥ v) (t.σ i) :=
  congrFun (GM.subσ_mulVec t.σ (f := t.σ) W v) i

theorem filtY_eq (W : Matrix n n ℝ) (lam : R → ℝ) (y : R → n → ℝ) :
    filtY (t.w W) (fun s => lam (t.ρ s)) (t.y y) = t.y (filtY W lam y) := by
  funext s i
  have := t.w_vec W (y (t.ρ s)) i
  simp only [filtY, Pi.sub_apply, Pi.smul_apply, Rec.y] 
  rw [← this]; rfl

theorem filtE_eq (W : Matrix n n ℝ) (lam : R → ℝ) (E : Matrix n R ℝ) :
    filtE (t.w W) (fun s => lam (t.ρ s)) (t.e E) = t.e (filtE W lam E) := by
  unfold filtE
  dsimp only
  rw [w_e]; rfl

theorem moments_eq (W : Matrix n n ℝ) (u : Matrix n R ℝ) (s : S) :
    momentsSur (t.w W) (t.e u) s = momentsSur W u (t.ρ s) := by
  have hs : ∀ (A B : Matrix n R ℝ) (s : S), (∑ i, t.e A i s * t.e B i s) = ∑ i, A i (t.ρ s) * B i (t.ρ s) := fun A B s =>
    t.σ.sum_comp fun a => A a (t.ρ s) * B a (t.ρ s)
  have ht : (∑ i, ∑ j, t.w W i j * t.w W i j) = ∑ i, ∑ j, W i j * W i j := by
    rw [← t.σ.sum_comp fun i => ∑ j, W i j * W i j]
    exact Finset.sum_congr rfl fun i _ => t.σ.sum_comp fun j => W (t.σ i) j * W (t.σ i) j
  unfold momentsSur
  dsimp only
  simp only [w_e, hs, ht, Fintype.card_congr t.σ]

/-- Results of `BaseSURerrorGM`. -/
def fitGM (f : FitGM n R K) : FitGM m S fun s => K (t.ρ s) :=
  { lam := fun s => f.lam (t.ρ s), est := t.est f.est, corr := t.g f.corr, bigE := t.e f.bigE }

theorem gm_eq (ht : t.Ok) (opt : GM.Moments (Fin 3) (Fin 3) → ℝ) (W : Matrix n n ℝ)
    (X : ∀ r, Matrix n (K r) ℝ) (y : R → n → ℝ) :
    baseSURerrorGM opt (t.w W) (t.x X) (t.y y) = (baseSURerrorGM opt W X y).map t.fitGM := by
  unfold baseSURerrorGM
  rw [t.eqByEq_eq ht]
  rcases eqByEq (crossXX X) (crossXy X y) with _ | b
  · rw [Option.map_none, Option.bind_none, Option.bind_none, Option.map_none]
  rw [Option.map_some, Option.bind_some, Option.bind_some]
  dsimp only
  rw [(t.resids X y b ht).1]
  have hl : (fun s => opt (momentsSur (t.w W) (t.e (surResids y X b)) s)) =
      fun s => (fun r => opt (momentsSur W (surResids y X b) r)) (t.ρ s) := by
    funext s; rw [moments_eq]
  rw [hl]
  generalize (fun r => opt (momentsSur W (surResids y X b) r)) = lam
  rw [ filtX_eq, filtY_eq, filtE_eq, t.surEst_eq ht, Option.map_map, Option.map_map]
  refine congrArg (fun f => Option.map f _) (funext fun a => ?_)
  simp only [Function.comp, fitGM]
  refine congrArg₂ (FitGM.mk _ _) rfl (t.resids X y a.b ht).1

variable [DecidableEq m] [DecidableEq n]

theorem filt_det (W : Matrix n n ℝ) (l : ℝ) : (1 - l • t.w W).det = (1 - l • W).det := by
  have : (1 - l • t.w W) = (1 - l • W).submatrix t.σ t.σ := by
    rw [← submatrix_one_equiv t.σ]; rfl
  rw [this, det_submatrix_equiv_self]

theorem clik_eq (W : Matrix n n ℝ) (E : Matrix n R ℝ) (lam : R → ℝ) :
    clikSur (t.w W) (t.e E) (fun s => lam (t.ρ s)) = clikSur W E lam := by
  unfold clikSur jacobSur
  dsimp only
  simp only [filtE_eq, sigOf_eq, slogdet_g, filt_det, Fintype.card_congr t.σ]
  rw [t.ρ.sum_comp fun r => Real.log |(1 - lam r • W).det|]

theorem errObj_eq (ht : t.Ok) (W : Matrix n n ℝ) (X : ∀ r, Matrix n (K r) ℝ) (y : R → n → ℝ) (s : S) (l : ℝ) :
    errObjSur (t.w W) (t.x X) (t.y y) s l = errObjSur W X y (t.ρ s) l := by
  have hx : t.x X s - l • (t.w W * t.x X s) = t.x (filtX W (fun _ => l) X) s := congrFun (t.filtX_eq W (fun _ => l) X) s
  have hy : t.y y s - l • (t.w W *ᵥ t.y y s) = t.y (filtY W (fun _ => l) y) s := congrFun (t.filtY_eq W (fun _ => l) y) s
  unfold errObjSur
  dsimp only
  rw [hx, hy, filt_det, Fintype.card_congr t.σ]
  have hxx := t.crossXX_eq (filtX W (fun _ => l) X) s s
  have hxy := t.crossXy_eq (filtX W (fun _ => l) X) (filtY W (fun _ => l) y) s s
  unfold crossXX at hxx
  unfold crossXy at hxy
  rw [hxx, hxy]
  have hTd : IsUnit (t.T (t.ρ s)).det :=
    (Matrix.isUnit_iff_isUnit_det _).1 ⟨⟨t.T _, t.Ti _, ht.hT _, ht.hTi _⟩, rfl⟩
  have hi : (t.T (t.ρ s))⁻¹ = t.Ti (t.ρ s) := inv_eq_right_inv (ht.hT _)
  have e2 : (t.Ti (t.ρ s))ᵀ * (t.T (t.ρ s))ᵀ = 1 := by rw [← transpose_mul, ht.hT, transpose_one]
  rw [Matrix.mul_inv_rev, Matrix.mul_inv_rev, hi, ← transpose_nonsing_inv, hi]
  set xs := filtX W (fun _ => l) X (t.ρ s) with hxs
  set ys := filtY W (fun _ => l) y (t.ρ s) with hys
  have hb : (t.Ti (t.ρ s) * ((xsᵀ * xs)⁻¹ * (t.Ti (t.ρ s))ᵀ)) *ᵥ ((t.T (t.ρ s))ᵀ *ᵥ (xsᵀ *ᵥ ys)) =
      t.Ti (t.ρ s) *ᵥ ((xsᵀ * xs)⁻¹ *ᵥ (xsᵀ *ᵥ ys)) := by
    rw [mulVec_mulVec, Matrix.mul_assoc, Matrix.mul_assoc, e2, Matrix.mul_one, ← mulVec_mulVec]
  rw [hb]
  have he : t.y (filtY W (fun _ => l) y) s - t.x (filtX W (fun _ => l) X) s *ᵥ (t.Ti (t.ρ s) *ᵥ ((xsᵀ * xs)⁻¹ *ᵥ (xsᵀ *ᵥ ys))) =
      fun i => (ys - xs *ᵥ ((xsᵀ * xs)⁻¹ *ᵥ (xsᵀ *ᵥ ys))) (t.σ i) := by
    funext i
    have : (t.x (filtX W (fun _ => l) X) s *ᵥ (t.Ti (t.ρ s) *ᵥ ((xsᵀ * xs)⁻¹ *ᵥ (xsᵀ *ᵥ ys)))) i =
        ((xs * t.T (t.ρ s)) *ᵥ (t.Ti (t.ρ s) *ᵥ ((xsᵀ * xs)⁻¹ *ᵥ (xsᵀ *ᵥ ys)))) (t.σ i) := rfl
    rw [Pi.sub_apply, Pi.sub_apply, this, mulVec_mulVec _ (xs * _), Matrix.mul_assoc, ht.hT, Matrix.mul_one]
    rfl
  rw [he]
  have hd := t.σ.sum_comp fun a => (ys - xs *ᵥ ((xsᵀ * xs)⁻¹ *ᵥ (xsᵀ *ᵥ ys))) a * (ys - xs *ᵥ ((xsᵀ * xs)⁻¹ *ᵥ (xsᵀ *ᵥ ys))) a
  have hd' : (fun i => (ys - xs *ᵥ ((xsᵀ * xs)⁻¹ *ᵥ (xsᵀ *ᵥ ys))) (t.σ i)) ⬝ᵥ (fun i => (ys - xs *ᵥ ((xsᵀ * xs)⁻¹ *ᵥ (xsᵀ *ᵥ ys))) (t.σ i)) =
      (ys - xs *ᵥ ((xsᵀ * xs)⁻¹ *ᵥ (xsᵀ *ᵥ ys))) ⬝ᵥ (ys - xs *ᵥ ((xsᵀ * xs)⁻¹ *ᵥ (xsᵀ *ᵥ ys))) := hd
  rw [hd']
  rfl

/-- State of the loop. -/
def stML (s : StML n R K) : StML m S fun s => K (t.ρ s) :=
  { lam := fun u => s.lam (t.ρ u), est := s.est.map t.est, bigE := t.e s.bigE, fun0 := s.fun0, fun1 := s.fun1 }

/-- Results of `BaseSURerrorML`. -/
def fitML (f : FitML n R K) : FitML m S fun s => K (t.ρ s) :=
  { lamols := fun u => f.lamols (t.ρ u), clikerr := f.clikerr, bSUR0 := t.b f.bSUR0, llik := f.llik,
    lam := fun u => f.lam (t.ρ u), est := t.est f.est, corr := t.g f.corr, bigE := t.e f.bigE, cliksurerr := f.cliksurerr }

/-- The two optimisers are the same up to the order of the parameters: given the same objective written in the other order, and
the same starting point, the second returns the same point. (For the same order of equations: they are the same.) -/
def SameOpt (ρ : S ≃ R) (opt : ((R → ℝ) → ℝ) → (R → ℝ) → R → ℝ) (opt' : ((S → ℝ) → ℝ) → (S → ℝ) → S → ℝ) : Prop :=
  ∀ (f : (R → ℝ) → ℝ) (f' : (S → ℝ) → ℝ) (l : R → ℝ), (∀ x : R → ℝ, f' (fun s => x (ρ s)) = f x) →
    opt' f' (fun s => l (ρ s)) = fun s => opt f l (ρ s)

variable {opt : ((R → ℝ) → ℝ) → (R → ℝ) → R → ℝ} {opt' : ((S → ℝ) → ℝ) → (S → ℝ) → S → ℝ}

theorem mlStep_eq (ht : t.Ok) (ho : SameOpt t.ρ opt opt') (W : Matrix n n ℝ) (X : ∀ r, Matrix n (K r) ℝ) (y : R → n → ℝ)
    (s : StML n R K) :
    mlStep opt' (t.w W) (t.x X) (t.y y) (t.stML s) = (mlStep opt W X y s).map t.stML := by
  unfold mlStep
  dsimp only [stML]
  rw [filtX_eq, filtY_eq, filtE_eq, t.surEst_eq ht, Option.map_map, Option.map_map]
  refine congrArg (fun f => Option.map f _) (funext fun a => ?_)
  simp only [Function.comp]
  have hE : surResids (t.y y) (t.x X) (t.est a).b = t.e (surResids y X a.b) := (t.resids X y a.b ht).1
  have hO := ho (clikSur W (surResids y X a.b)) (clikSur (t.w W) (t.e (surResids y X a.b))) s.lam
    fun x => t.clik_eq W (surResids y X a.b) x
  rw [hE, hO, clik_eq]
  rfl

theorem run_eq (ht : t.Ok) (ho : SameOpt t.ρ opt opt') {W : Matrix n n ℝ} {X : ∀ r, Matrix n (K r) ℝ} {y : R → n → ℝ} {eps : ℝ}
    {s : StML n R K} {o : Option (StML n R K)} (h : MLRun opt W X y eps s o) :
    MLRun opt' (t.w W) (t.x X) (t.y y) eps (t.stML s) (o.map t.stML) := by
  induction h with
  | stop s hs => exact .stop _ hs
  | raise s hs hm => exact .raise _ hs (by rw [t.mlStep_eq ht ho, hm]; rfl)
  | pass s s1 o hs hm _ ih => exact .pass _ (t.stML s1) _ hs (by rw [t.mlStep_eq ht ho, hm]; rfl) ih

theorem init_eq (ht : t.Ok) (optS : (ℝ → ℝ) → ℝ) (W : Matrix n n ℝ) (X : ∀ r, Matrix n (K r) ℝ) (y : R → n → ℝ) (f : Fit n R K) :
    mlInit optS (t.w W) (t.x X) (t.y y) (t.fit f) = t.stML (mlInit optS W X y f) := by
  have h : ∀ s, errObjSur (t.w W) (t.x X) (t.y y) s = errObjSur W X y (t.ρ s) := fun s => funext fun l => t.errObj_eq ht W X y s l
  unfold mlInit stML
  dsimp only
  simp only [h]
  rw [t.ρ.sum_comp fun r => errObjSur W X y r (optS (errObjSur W X y r))]
  rfl

theorem ml_eq (ht : t.Ok) (ho : SameOpt t.ρ opt opt') (optS : (ℝ → ℝ) → ℝ) (W : Matrix n n ℝ)
    (X : ∀ r, Matrix n (K r) ℝ) (y : R → n → ℝ) (eps : ℝ) (res : Py (FitML n R K))
    (h : BaseSURerrorML optS opt W X y eps res) :
    BaseSURerrorML optS opt' (t.w W) (t.x X) (t.y y) eps (res.map t.fitML) := by
  unfold BaseSURerrorML at h ⊢
  rw [t.base_eq ht]
  rcases hb : baseSUR X y true 5 (1 / 100000) with _ | f
  · rw [hb] at h; rw [show res = _ from h]; rfl
  · rw [hb] at h
    obtain ⟨o, h1, h2⟩ := h
    refine ⟨o.map t.stML, ?_, ?_⟩
    · rw [t.init_eq ht]; exact t.run_eq ht ho h1
    · rw [h2, t.init_eq ht]
      rcases o with _ | s
      · rfl
      · unfold mlFinish
        simp only [Option.map_some]
        have : (t.stML s).est = s.est.map t.est := rfl
        rw [this]
        rcases s.est with _ | a
        · rfl
        · rfl

theorem run_back (ht : t.Ok) (ho : SameOpt t.ρ opt opt') {W : Matrix n n ℝ} {X : ∀ r, Matrix n (K r) ℝ} {y : R → n → ℝ} {eps : ℝ}
    {s' : StML m S fun s => K (t.ρ s)} {o' : Option (StML m S fun s => K (t.ρ s))}
    (h : MLRun opt' (t.w W) (t.x X) (t.y y) eps s' o') :
    ∀ s : StML n R K, s' = t.stML s → ∃ o, o' = o.map t.stML ∧ MLRun opt W X y eps s o := by
  induction h with
  | stop s' hs => rintro s rfl; exact ⟨some s, rfl, .stop _ hs⟩
  | raise s' hs hm =>
    rintro s rfl
    rw [t.mlStep_eq ht ho, Option.map_eq_none_iff] at hm
    exact ⟨none, rfl, .raise _ hs hm⟩
  | pass s' s1' o' hs hm _ ih =>
    rintro s rfl
    rw [t.mlStep_eq ht ho, Option.map_eq_some_iff] at hm
    obtain ⟨s1, h1, h2⟩ := hm
    obtain ⟨o, h3, h4⟩ := ih s1 h2.symm
    exact ⟨o, h3, .pass _ _ _ hs h1 h4⟩

theorem ml_back (ht : t.Ok) (ho : SameOpt t.ρ opt opt') (optS : (ℝ → ℝ) → ℝ) (W : Matrix n n ℝ)
    (X : ∀ r, Matrix n (K r) ℝ) (y : R → n → ℝ) (eps : ℝ) (res : Py (FitML m S fun s => K (t.ρ s)))
    (h : BaseSURerrorML optS opt' (t.w W) (t.x X) (t.y y) eps res) :
    ∃ r, res = r.map t.fitML ∧ BaseSURerrorML optS opt W X y eps r := by
  unfold BaseSURerrorML at h ⊢
  rw [t.base_eq ht] at h
  rcases hb : baseSUR X y true 5 (1 / 100000) with _ | f
  · rw [hb] at h; exact ⟨.error .linAlgError, h, rfl⟩
  · rw [hb] at h
    obtain ⟨o', h1, h2⟩ := h
    rw [t.init_eq ht] at h1 h2
    obtain ⟨o, h3, h4⟩ := t.run_back ht ho h1 _ rfl
    refine ⟨mlFinish (mlInit optS W X y f) f o, ?_, o, h4, rfl⟩
    rw [h2, h3]
    rcases o with _ | s
    · rfl
    · unfold mlFinish
      simp only [Option.map_some]
      have : (t.stML s).est = s.est.map t.est := rfl
      rw [this]
      rcases s.est with _ | a
      · rfl
      · rfl

end Rec

/-! ### Three-stage least squares -/

variable {A B Q : R → Type} [∀ r, Fintype (A r)] [∀ r, Fintype (B r)] [∀ r, Fintype (Q r)]
  [∀ r, DecidableEq (A r)] [∀ r, DecidableEq (B r)] [∀ r, DecidableEq (Q r)]

/-- Regressors `A` and `B` recoded separately. -/
def Rec.both (ta : Rec m n S R A) (tb : ∀ r, Matrix (B r) (B r) ℝ) (tbi : ∀ r, Matrix (B r) (B r) ℝ) :
    Rec m n S R fun r => A r ⊕ B r :=
  { σ := ta.σ, ρ := ta.ρ, T := fun r => fromBlocks (ta.T r) 0 0 (tb r), Ti := fun r => fromBlocks (ta.Ti r) 0 0 (tbi r) }

theorem Rec.both_ok (ta : Rec m n S R A) (ha : ta.Ok) (tb tbi : ∀ r, Matrix (B r) (B r) ℝ) (hb : ∀ r, tb r * tbi r = 1)
    (hbi : ∀ r, tbi r * tb r = 1) : (ta.both tb tbi).Ok := by
  constructor
  · intro r; simp [Rec.both, fromBlocks_multiply, ha.hT, hb]
  · intro r; simp [Rec.both, fromBlocks_multiply, ha.hTi, hbi]

theorem Rec.both_x (ta : Rec m n S R A) (tb tbi : ∀ r, Matrix (B r) (B r) ℝ) (x : ∀ r, Matrix n (A r) ℝ)
    (z : ∀ r, Matrix n (B r) ℝ) (s : S) :
    fromCols (ta.x x s) (Matrix.of fun i j => (z (ta.ρ s) * tb (ta.ρ s)) (ta.σ i) j) =
      (ta.both tb tbi).x (fun r => fromCols (x r) (z r)) s := by
  ext i j
  have : (ta.both tb tbi).x (fun r => fromCols (x r) (z r)) s i j =
      (fromCols (x (ta.ρ s)) (z (ta.ρ s)) * fromBlocks (ta.T (ta.ρ s)) 0 0 (tb (ta.ρ s))) (ta.σ i) j := rfl
  rw [this, fromCols_mul_fromBlocks, Matrix.mul_zero, Matrix.mul_zero, add_zero, zero_add]
  rcases j with j | j <;> rfl

theorem zhat_eq (ta : Rec m n S R A) (ha : ta.Ok) (tb tbi : ∀ r, Matrix (B r) (B r) ℝ)
    (tq tqi : ∀ r, Matrix (Q r) (Q r) ℝ) (hq : ∀ r, tq r * tqi r = 1) (hqi : ∀ r, tqi r * tq r = 1)
    (x : ∀ r, Matrix n (A r) ℝ) (z : ∀ r, Matrix n (B r) ℝ) (q : ∀ r, Matrix n (Q r) ℝ) (s : S)
    (h : Matrix n (A (ta.ρ s) ⊕ Q (ta.ρ s)) ℝ) (hh : h = fromCols (x (ta.ρ s)) (q (ta.ρ s)))
    (h' : Matrix m (A (ta.ρ s) ⊕ Q (ta.ρ s)) ℝ)
    (hh' : h' = fromCols (ta.x x s) (Matrix.of fun i j => (q (ta.ρ s) * tq (ta.ρ s)) (ta.σ i) j)) :
    (IsUnit (h'ᵀ * h').det ↔ IsUnit (hᵀ * h).det) ∧
    zhat (ta.x x s) (Matrix.of fun i j => (z (ta.ρ s) * tb (ta.ρ s)) (ta.σ i) j)
        (Matrix.of fun i j => (q (ta.ρ s) * tq (ta.ρ s)) (ta.σ i) j) (h'ᵀ * h')⁻¹ =
      (ta.both tb tbi).x (fun r => zhat (x r) (z r) (q r)
        ((fromCols (x r) (q r))ᵀ * fromCols (x r) (q r))⁻¹) s := by
  set T := fromBlocks (ta.T (ta.ρ s)) 0 0 (tq (ta.ρ s)) with hT
  set Ti := fromBlocks (ta.Ti (ta.ρ s)) 0 0 (tqi (ta.ρ s)) with hTi
  have t1 : T * Ti = 1 := by simp [hT, hTi, fromBlocks_multiply, ha.hT, hq]
  have t2 : Ti * T = 1 := by simp [hT, hTi, fromBlocks_multiply, ha.hTi, hqi]
  have e1 : h' = (h * T).submatrix ta.σ id := by
    rw [hh', ta.both_x tq tqi x q s, hh]; rfl
  have e2 : h'ᵀ * h' = Tᵀ * (hᵀ * h) * T := by
    rw [e1, transpose_submatrix, GM.sub_mul_sub, transpose_mul]
    simp only [Matrix.mul_assoc]
  have hu : IsUnit T.det := (Matrix.isUnit_iff_isUnit_det _).1 ⟨⟨T, Ti, t1, t2⟩, rfl⟩
  refine ⟨?_, ?_⟩
  · rw [e2, det_mul, det_mul, det_transpose, IsUnit.mul_iff, IsUnit.mul_iff]
    exact ⟨fun h => h.1.2, fun h => ⟨⟨hu, h⟩, hu⟩⟩
  · refine Eq.trans ?_ (ta.both_x tb tbi x (fun r => fromCols (x r) (q r) * (((fromCols (x r) (q r))ᵀ * fromCols (x r) (q r))⁻¹ *
      ((fromCols (x r) (q r))ᵀ * z r))) s)
    unfold zhat
    dsimp only
    rw [← hh', ← hh]
    refine congrArg _ ?_
    have e3 : h'ᵀ * (Matrix.of fun i j => (z (ta.ρ s) * tb (ta.ρ s)) (ta.σ i) j) = Tᵀ * (hᵀ * (z (ta.ρ s) * tb (ta.ρ s))) := by
      have : (Matrix.of fun i j => (z (ta.ρ s) * tb (ta.ρ s)) (ta.σ i) j : Matrix m _ ℝ) =
          (z (ta.ρ s) * tb (ta.ρ s)).submatrix ta.σ id := rfl
      rw [this, e1, transpose_submatrix, GM.sub_mul_sub, transpose_mul, Matrix.mul_assoc]
    have hi : T⁻¹ = Ti := inv_eq_right_inv t1
    have t3 : Tiᵀ * Tᵀ = 1 := by rw [← transpose_mul, t1, transpose_one]
    rw [e3, e2, Matrix.mul_inv_rev, Matrix.mul_inv_rev, ← transpose_nonsing_inv, hi]
    have e4 : Ti * ((hᵀ * h)⁻¹ * Tiᵀ) * (Tᵀ * (hᵀ * (z (ta.ρ s) * tb (ta.ρ s)))) =
        Ti * ((hᵀ * h)⁻¹ * (hᵀ * (z (ta.ρ s) * tb (ta.ρ s)))) := by
      rw [Matrix.mul_assoc Ti, Matrix.mul_assoc (hᵀ * h)⁻¹, ← Matrix.mul_assoc Tiᵀ, t3, Matrix.one_mul]
    rw [e4]
    ext i j
    have e5 : (h' * (Ti * ((hᵀ * h)⁻¹ * (hᵀ * (z (ta.ρ s) * tb (ta.ρ s)))))) i j =
        (h * T * (Ti * ((hᵀ * h)⁻¹ * (hᵀ * (z (ta.ρ s) * tb (ta.ρ s)))))) (ta.σ i) j := by
      rw [e1]; rfl
    rw [e5, Matrix.mul_assoc h, ← Matrix.mul_assoc T, t1, Matrix.one_mul]
    simp only [Matrix.mul_assoc, Matrix.of_apply]

/-- Results of `BaseThreeSLS`. -/
def Rec.fit3 (t : Rec m n S R K) (f : Fit3 n R K) : Fit3 m S fun s => K (t.ρ s) :=
  { est := t.est f.est, b2SLS := t.b f.b2SLS, tslsE := t.e f.tslsE, bigE := t.e f.bigE }

theorem Rec.three_core (t : Rec m n S R K) (ht : t.Ok) (zh z : ∀ r, Matrix n (K r) ℝ) (y : R → n → ℝ) :
    ((eqByEq (crossXX (t.x zh)) (crossXy (t.x zh) (t.y y))).bind fun b2 =>
      (surEst (crossXX (t.x zh)) (crossXy (t.x zh) (t.y y)) (surResids (t.y y) (t.x z) b2)).map fun e =>
        Fit3.mk e b2 (surResids (t.y y) (t.x z) b2) (surResids (t.y y) (t.x z) e.b)) =
    ((eqByEq (crossXX zh) (crossXy zh y)).bind fun b2 =>
      (surEst (crossXX zh) (crossXy zh y) (surResids y z b2)).map fun e =>
        Fit3.mk e b2 (surResids y z b2) (surResids y z e.b)).map t.fit3 := by
  rw [t.eqByEq_eq ht]
  rcases eqByEq (crossXX zh) (crossXy zh y) with _ | b
  · rw [Option.map_none, Option.bind_none, Option.bind_none, Option.map_none]
  rw [Option.map_some, Option.bind_some, Option.bind_some, (t.resids z y b ht).1,
    t.surEst_eq ht, Option.map_map, Option.map_map]
  refine congrArg (fun f => Option.map f _) (funext fun a => ?_)
  simp only [Function.comp, Rec.fit3]
  exact congrArg (Fit3.mk _ _ _) (t.resids z y a.b ht).1

theorem three_eq (ta : Rec m n S R A) (ha : ta.Ok) (tb tbi : ∀ r, Matrix (B r) (B r) ℝ) (hb : ∀ r, tb r * tbi r = 1)
    (hbi : ∀ r, tbi r * tb r = 1) (tq tqi : ∀ r, Matrix (Q r) (Q r) ℝ) (hq : ∀ r, tq r * tqi r = 1)
    (hqi : ∀ r, tqi r * tq r = 1)
    (x : ∀ r, Matrix n (A r) ℝ) (z : ∀ r, Matrix n (B r) ℝ) (q : ∀ r, Matrix n (Q r) ℝ) (y : R → n → ℝ) :
    baseThreeSLS (ta.x x) (fun s => Matrix.of fun i j => (z (ta.ρ s) * tb (ta.ρ s)) (ta.σ i) j)
      (fun s => Matrix.of fun i j => (q (ta.ρ s) * tq (ta.ρ s)) (ta.σ i) j) (ta.y y) =
    (baseThreeSLS x z q y).map (ta.both tb tbi).fit3 := by
  have hz := fun s => zhat_eq ta ha tb tbi tq tqi hq hqi x z q s _ rfl _ rfl
  have ht := ta.both_ok ha tb tbi hb hbi
  unfold baseThreeSLS
  dsimp only
  by_cases h : ∀ r, IsUnit ((fromCols (x r) (q r))ᵀ * fromCols (x r) (q r)).det
  · rw [if_pos h, if_pos fun s => (hz s).1.2 (h _)]
    have e1 : (fun s => zhat (ta.x x s) (Matrix.of fun i j => (z (ta.ρ s) * tb (ta.ρ s)) (ta.σ i) j)
        (Matrix.of fun i j => (q (ta.ρ s) * tq (ta.ρ s)) (ta.σ i) j)
        ((fromCols (ta.x x s) (Matrix.of fun i j => (q (ta.ρ s) * tq (ta.ρ s)) (ta.σ i) j))ᵀ *
          fromCols (ta.x x s) (Matrix.of fun i j => (q (ta.ρ s) * tq (ta.ρ s)) (ta.σ i) j))⁻¹) =
        (ta.both tb tbi).x (fun r => zhat (x r) (z r) (q r) ((fromCols (x r) (q r))ᵀ * fromCols (x r) (q r))⁻¹) :=
      funext fun s => (hz s).2
    have e2 : (fun s => fromCols (ta.x x s) (Matrix.of fun i j => (z (ta.ρ s) * tb (ta.ρ s)) (ta.σ i) j)) =
        (ta.both tb tbi).x (fun r => fromCols (x r) (z r)) := funext fun s => ta.both_x tb tbi x z s
    have e3 : ta.y y = (ta.both tb tbi).y y := rfl
    rw [e1, e2, e3]
    exact (ta.both tb tbi).three_core ht _ _ y
  · have h2 : ¬∀ s, IsUnit ((fromCols (ta.x x s) (Matrix.of fun i j => (q (ta.ρ s) * tq (ta.ρ s)) (ta.σ i) j))ᵀ *
        fromCols (ta.x x s) (Matrix.of fun i j => (q (ta.ρ s) * tq (ta.ρ s)) (ta.σ i) j)).det := by
      intro h'
      refine h fun r => ?_
      have := (hz (ta.ρ.symm r)).1.1 (h' _)
      rwa [ta.ρ.apply_symm_apply] at this
    rw [if_neg h, if_neg h2, Option.map_none]
    rfl
end Spreg.SUR
