import Verif.Props.GMRegimes
import Verif.Props.GMOptim
import Verif.Props.MLEquiv
/-
C159: spatial models with regimes estimated jointly do not depend on the order of the observations, on the names of the regimes or
on the units of the variables.
-/
namespace Spreg.GM
open Matrix Spreg.Lin

variable {m n k l c ρ : Type} [Fintype m] [Fintype n] [Fintype k] [Fintype l] [Fintype c] [Fintype ρ]

/-! ### Any framing that commutes with the change of the data -/

section
variable [DecidableEq c] [DecidableEq l] (t : Tr m n c) (B Bi : Matrix l l ℝ) (S : Matrix k k ℝ)
variable {F : Matrix n k ℝ → Matrix n c ℝ} {F' : Matrix m k ℝ → Matrix m c ℝ}

omit [Fintype m] [Fintype n] in
theorem Tr.y0 (hd : t.d = 0) (z : Matrix n c ℝ) (y : n → ℝ) : t.y z y = t.u y := by
  funext i; simp [Tr.y, Tr.u, hd]

theorem filtS (W : Matrix n n ℝ) (lam : ℝ) (x : Matrix n k ℝ) :
    spFilterM (t.w W) lam (trH t.σ S x) = trH t.σ S (spFilterM W lam x) := by
  unfold spFilterM Tr.w trH
  rw [subσ_mul, ← Matrix.mul_assoc, Matrix.sub_mul, Matrix.smul_mul]
  rfl

theorem Tr.olsF (hd : t.d = 0) (z : Matrix n c ℝ) (y : n → ℝ) : GM.olsE (t.x z) (t.u y) = (GM.olsE z y).map (t.ols z) := by
  rw [← t.y0 hd z y, t.olsE]

theorem Tr.tslsF (hd : t.d = 0) (hB : B * Bi = 1) (hBi : Bi * B = 1) (z : Matrix n c ℝ) (h : Matrix n l ℝ) (y : n → ℝ) :
    GM.tslsE (t.x z) (trH t.σ B h) (t.u y) = (GM.tslsE z h y).map (t.tsls Bi z) := by
  rw [← t.y0 hd z y, t.tslsE B Bi hB hBi]

theorem Tr.predF (hd : t.d = 0) (z : Matrix n c ℝ) (b : c → ℝ) : t.x z *ᵥ t.b b = t.u (z *ᵥ b) := by
  rw [t.pred, t.y0 hd]

omit [Fintype m] [Fintype n] in
theorem Tr.residF (u v : n → ℝ) : t.u u - t.u v = t.u (u - v) := by
  funext i; simp only [Tr.u, Pi.sub_apply]; ring

theorem error_regimes {opt3 : Moments (Fin 3) (Fin 3) → Py ℝ} (ho : ∀ M, opt3 (Tr.mom3 (t.c ^ 2) M) = opt3 M) (hd : t.d = 0)
    (hF : ∀ x, F' (trH t.σ S x) = t.x (F x)) (W : Matrix n n ℝ) (x : Matrix n k ℝ) (y : n → ℝ) :
    gmErrorRegimes opt3 F' (t.w W) (trH t.σ S x) (t.u y) = (gmErrorRegimes opt3 F W x y).map (t.fit1 (F x)) := by
  unfold gmErrorRegimes
  rw [hF, t.olsF hd, bind_map, map_bind]
  refine bind_congr' _ _ _ fun o => ?_
  have e1 : (t.ols (F x) o).u = t.u o.u := rfl
  rw [e1, t.momGM, ho, map_bind]
  refine bind_congr' _ _ _ fun lam => ?_
  rw [filtS, t.filtU, hF, t.olsF hd, bind_map, map_bind]
  refine bind_congr' _ _ _ fun o2 => ?_
  rw [map_pure]
  congr 1
  have hs : ∀ u : n → ℝ, sig2n (t.u u) = t.c ^ 2 * sig2n u := fun u => by
    unfold sig2n
    rw [show utu (t.u u) = t.c ^ 2 * utu u by rw [utu_eq_dot, utu_eq_dot, t.u_dot], Fintype.card_congr t.σ]
    ring
  generalize F (spFilterM W lam x) = zs
  have e2 : (t.ols zs o2).betas = t.b o2.betas := rfl
  have e3 : (t.ols zs o2).u = t.u o2.u := rfl
  have e4 : (t.ols zs o2).xtxi = t.Ti * o2.xtxi * t.Tiᵀ := rfl
  rw [e2, e3, e4, t.predF hd]
  dsimp only
  rw [t.residF, hs, t.efilt]
  simp only [Tr.fit1, Tr.v, Matrix.mul_smul, Matrix.smul_mul, smul_smul, t.y0 hd]

theorem endog_regimes {opt3 : Moments (Fin 3) (Fin 3) → Py ℝ} (ho : ∀ M, opt3 (Tr.mom3 (t.c ^ 2) M) = opt3 M) (hd : t.d = 0)
    (hB : B * Bi = 1) (hBi : Bi * B = 1) (hF : ∀ x, F' (trH t.σ S x) = t.x (F x)) (W : Matrix n n ℝ) (z : Matrix n k ℝ)
    (h : Matrix n l ℝ) (y : n → ℝ) :
    gmEndogErrorRegimes opt3 F' (t.w W) (trH t.σ S z) (trH t.σ B h) (t.u y) =
      (gmEndogErrorRegimes opt3 F W z h y).map (t.fit1 (F z)) := by
  unfold gmEndogErrorRegimes
  rw [hF, t.tslsF B Bi hd hB hBi, bind_map, map_bind]
  refine bind_congr' _ _ _ fun o => ?_
  have e1 : (t.tsls Bi (F z) o).u = t.u o.u := rfl
  rw [e1, t.momGM, ho, map_bind]
  refine bind_congr' _ _ _ fun lam => ?_
  rw [filtS, t.filtU, hF, t.tslsF B Bi hd hB hBi, bind_map, map_bind]
  refine bind_congr' _ _ _ fun o2 => ?_
  rw [map_pure]
  congr 1
  generalize F (spFilterM W lam z) = zs
  have e2 : (t.tsls Bi zs o2).betas = t.b o2.betas := rfl
  have e3 : (t.tsls Bi zs o2).u = t.u o2.u := rfl
  have e4 : (t.tsls Bi zs o2).varb = t.Ti * o2.varb * t.Tiᵀ := rfl
  rw [e2, e3, e4, t.predF hd]
  dsimp only
  rw [t.residF, N_σ t.σ, t.uuN, t.efilt]
  simp only [Tr.fit1, Tr.v, Matrix.mul_smul, Matrix.smul_mul, smul_smul, t.y0 hd]

variable {opt : Moments (Fin 2) (Fin 2) → Option (Matrix (Fin 2) (Fin 2) ℝ) → Py ℝ}

theorem hetStep_regimes [DecidableEq m] [DecidableEq n] (ho : UnitFree t.c opt) (hd : t.d = 0)
    (hF : ∀ x, F' (trH t.σ S x) = t.x (F x)) (W : Matrix n n ℝ) (x : Matrix n k ℝ) (y : n → ℝ) (lam : ℝ) :
    hetStepR opt F' (t.w W) (trH t.σ S x) (t.u y) lam = (hetStepR opt F W x y lam).map (t.step (F x)) := by
  unfold hetStepR
  rw [filtS, t.filtU, hF, hF, t.olsF hd, bind_map, map_bind]
  refine bind_congr' _ _ _ fun o => ?_
  have e : (t.ols (F (spFilterM W lam x)) o).betas = t.b o.betas := rfl
  rw [e]
  dsimp only
  rw [t.predF hd, t.residF, t.vc, t.w_A1het, t.mom2, ho.2, map_bind]
  refine bind_congr' _ _ _ fun _ => ?_
  rw [map_pure, Tr.step, t.y0 hd]

theorem het_regimes [DecidableEq m] [DecidableEq n] (ho : UnitFree t.c opt) (hd : t.d = 0)
    (hF : ∀ x, F' (trH t.σ S x) = t.x (F x)) (W : Matrix n n ℝ) (x : Matrix n k ℝ) (y : n → ℝ) (maxIter : ℕ) (epsilon : ℝ)
    (step1c : Bool) :
    gmErrorHetRegimes opt F' (t.w W) (trH t.σ S x) (t.u y) maxIter epsilon step1c =
      (gmErrorHetRegimes opt F W x y maxIter epsilon step1c).map (t.fit (F x)) := by
  unfold gmErrorHetRegimes
  rw [hF, t.olsF hd, bind_map, map_bind]
  refine bind_congr' _ _ _ fun o => ?_
  have e1 : (t.ols (F x) o).u = t.u o.u := rfl
  have e2 : moments2eqs (A1het (t.w W)) (t.w W) (t.u o.u) = Tr.mom (t.c ^ 2) (moments2eqs (A1het W) W o.u) := by
    rw [t.w_A1het, t.mom2]
  have e3 : ∀ lam1, step1cLam opt (t.w W) (Tr.mom (t.c ^ 2) (moments2eqs (A1het W) W o.u)) (t.u o.u) lam1 step1c =
      step1cLam opt W (moments2eqs (A1het W) W o.u) o.u lam1 step1c := fun lam1 => by
    unfold step1cLam
    rw [t.vc, ho.2]
  simp only [e1, e2, ho.1, e3, map_bind]
  refine bind_congr' _ _ _ fun lam1 => bind_congr' _ _ _ fun lam2 => ?_
  have hl := gmLoop_map (t.step (F x)) (hetStepR opt F W x y) (hetStepR opt F' (t.w W) (trH t.σ S x) (t.u y)) Step.lam Step.lam
    (hetStep_regimes t S ho hd hF W x y) (fun _ => rfl) epsilon maxIter lam2 1 none
  rw [Option.map_none] at hl
  rw [hl, bind_map]
  refine bind_congr' _ _ _ fun p => ?_
  rw [bound_map, bind_map]
  refine bind_congr' _ _ _ fun s => ?_
  have e4 : GM.vmHet (t.step (F x) s).moments.G (t.step (F x) s).lam (t.x (F x)) (t.step (F x) s).u (t.w W)
      (vcHet (t.w W) (A1het (t.w W)) (psiSigma (t.w W) (t.step (F x) s).u (t.step (F x) s).lam)) =
      (GM.vmHet s.moments.G s.lam (F x) s.u W (vcHet W (A1het W) (psiSigma W s.u s.lam))).map t.v2 := by
    rw [← t.vmHet]
    show GM.vmHet _ _ _ _ _ (vcHet (t.w W) (A1het (t.w W)) (psiSigma (t.w W) (t.u s.u) s.lam)) = _
    rw [t.vc]
    rfl
  rw [e4, bind_map]
  refine bind_congr' _ _ _ fun v => ?_
  rw [map_pure]
  congr 1
  simp only [Tr.fit, IterFit.mk.injEq]
  exact ⟨rfl, rfl, rfl, rfl, t.efilt W s.lam s.u, trivial, trivial, trivial⟩

theorem hetEndogStep_regimes [DecidableEq m] [DecidableEq n] (ho : UnitFree t.c opt) (hd : t.d = 0) (hB : B * Bi = 1)
    (hBi : Bi * B = 1) (hF : ∀ x, F' (trH t.σ S x) = t.x (F x)) (W : Matrix n n ℝ) (z : Matrix n k ℝ) (h : Matrix n l ℝ)
    (y : n → ℝ) (lam1 lam : ℝ) :
    hetEndogStepR opt F' (t.w W) (trH t.σ S z) (trH t.σ B h) (t.u y) lam1 lam =
      (hetEndogStepR opt F W z h y lam1 lam).map (t.step (F z)) := by
  unfold hetEndogStepR
  rw [filtS, t.filtU, hF, hF]
  dsimp only
  rw [t.tslsF B Bi hd hB hBi, bind_map, map_bind]
  refine bind_congr' _ _ _ fun o => ?_
  generalize F (spFilterM W lam1 z) = zs
  have e : (t.tsls Bi zs o).betas = t.b o.betas := rfl
  have e2 : N m • ((t.tsls Bi zs o).zthhthiᵀ * (t.tsls Bi zs o).varb) = Bi * (N n • (o.zthhthiᵀ * o.varb)) * t.Tiᵀ := by
    show N m • ((t.Tᵀ * o.zthhthi * Biᵀ)ᵀ * (t.Ti * o.varb * t.Tiᵀ)) = _
    rw [N_σ t.σ, transpose_mul, transpose_mul, transpose_transpose, transpose_transpose, Matrix.mul_smul, Matrix.smul_mul]
    congr 1
    calc Bi * (o.zthhthiᵀ * t.T) * (t.Ti * o.varb * t.Tiᵀ) = Bi * o.zthhthiᵀ * (t.T * t.Ti) * o.varb * t.Tiᵀ := by
          simp only [Matrix.mul_assoc]
      _ = _ := by rw [t.hT]; simp only [Matrix.mul_assoc, Matrix.one_mul]
  rw [e, e2, t.predF hd, t.residF, t.w_A1het, t.mom2, t.a1a2 B Bi hB, t.vcHetTsls, ho.2, map_bind]
  refine bind_congr' _ _ _ fun _ => ?_
  rw [map_pure, Tr.step, t.y0 hd]

theorem hetEndog_regimes [DecidableEq m] [DecidableEq n] (ho : UnitFree t.c opt) (hd : t.d = 0) (hB : B * Bi = 1)
    (hBi : Bi * B = 1) (hF : ∀ x, F' (trH t.σ S x) = t.x (F x)) (W : Matrix n n ℝ) (z : Matrix n k ℝ) (h : Matrix n l ℝ)
    (y : n → ℝ) (maxIter : ℕ) (epsilon : ℝ) :
    gmEndogErrorHetRegimes opt F' (t.w W) (trH t.σ S z) (trH t.σ B h) (t.u y) maxIter epsilon =
      (gmEndogErrorHetRegimes opt F W z h y maxIter epsilon).map (t.fit (F z)) := by
  unfold gmEndogErrorHetRegimes
  rw [hF, t.tslsF B Bi hd hB hBi, bind_map, map_bind]
  refine bind_congr' _ _ _ fun o => ?_
  have e1 : (t.tsls Bi (F z) o).u = t.u o.u := rfl
  have e0 : (t.tsls Bi (F z) o).hthi = Bi * o.hthi * Biᵀ := rfl
  rw [e1, e0, t.w_A1het, t.mom2, ho.1, map_bind]
  refine bind_congr' _ _ _ fun lam1 => ?_
  have hl := gmLoop_map (t.step (F z)) (hetEndogStepR opt F W z h y lam1)
    (hetEndogStepR opt F' (t.w W) (trH t.σ S z) (trH t.σ B h) (t.u y) lam1) Step.lam Step.lam
    (hetEndogStep_regimes t B Bi S ho hd hB hBi hF W z h y lam1) (fun _ => rfl) epsilon maxIter lam1 1 none
  rw [Option.map_none] at hl
  rw [hl, bind_map, map_bind]
  refine bind_congr' _ _ _ fun p => ?_
  simp only [bound_map, bind_map, map_bind]
  refine bind_congr' _ _ _ fun s => ?_
  have f1 : (t.step (F z) s).lam = s.lam := rfl
  have f2 : (t.step (F z) s).u = t.u s.u := rfl
  have f3 : (t.step (F z) s).moments.G = (t.c ^ 2) • s.moments.G := rfl
  rw [f1, f2, f3, t.filtM, t.pHat B Bi hB, bind_map]
  refine bind_congr' _ _ _ fun P => ?_
  rw [t.a1a2 B Bi hB, t.vcHetTsls, t.omegaGS2SLS B Bi hB, bind_map]
  refine bind_congr' _ _ _ fun v => ?_
  rw [map_pure]
  congr 1
  simp only [Tr.fit, IterFit.mk.injEq]
  exact ⟨rfl, trivial, rfl, trivial, t.efilt W s.lam s.u, trivial, trivial, trivial⟩

theorem homStep_regimes (ho : UnitFree t.c opt) (hd : t.d = 0) (hF : ∀ x, F' (trH t.σ S x) = t.x (F x))
    (W A1 A2 : Matrix n n ℝ) (x : Matrix n k ℝ) (y : n → ℝ) (lam1 lam : ℝ) :
    homStepR opt F' (t.w W) (t.w A1) (t.w A2) (trH t.σ S x) (t.u y) lam1 lam =
      (homStepR opt F W A1 A2 x y lam1 lam).map (t.step (F x)) := by
  unfold homStepR
  rw [filtS, t.filtU, hF, hF, t.olsF hd, bind_map, map_bind]
  refine bind_congr' _ _ _ fun o => ?_
  have e : (t.ols (F (spFilterM W lam1 x)) o).betas = t.b o.betas := rfl
  rw [e]
  dsimp only
  rw [t.predF hd, t.residF, t.momHom, t.filtU, ← t.u_zero, t.vcHom, ho.2, map_bind]
  refine bind_congr' _ _ _ fun _ => ?_
  rw [map_pure, Tr.step, t.y0 hd]

theorem hom_regimes [DecidableEq m] [DecidableEq n] (ho : UnitFree t.c opt) (hd : t.d = 0)
    (hF : ∀ x, F' (trH t.σ S x) = t.x (F x)) (W : Matrix n n ℝ) (x : Matrix n k ℝ) (y : n → ℝ) (maxIter : ℕ) (epsilon : ℝ)
    (a1 : String) :
    gmErrorHomRegimes opt F' (t.w W) (trH t.σ S x) (t.u y) maxIter epsilon a1 =
      (gmErrorHomRegimes opt F W x y maxIter epsilon a1).map (t.fit (F x)) := by
  unfold gmErrorHomRegimes
  rw [t.chooseA1, bind_map, map_bind]
  refine bind_congr' _ _ _ fun A1 => ?_
  have hA2 : A2hom (t.w W) = t.w (A2hom W) := t.w_A2hom W
  simp only [hA2, hF, t.olsF hd, bind_map, map_bind]
  refine bind_congr' _ _ _ fun o => ?_
  have e1 : (t.ols (F x) o).u = t.u o.u := rfl
  rw [e1, t.momHom, ho.1]
  refine bind_congr' _ _ _ fun lam1 => ?_
  have hl := gmLoop_map (t.step (F x)) (homStepR opt F W A1 (A2hom W) x y lam1)
    (homStepR opt F' (t.w W) (t.w A1) (t.w (A2hom W)) (trH t.σ S x) (t.u y) lam1) Step.lam Step.lam
    (homStep_regimes t S ho hd hF W A1 (A2hom W) x y lam1) (fun _ => rfl) epsilon maxIter lam1 1 none
  rw [Option.map_none] at hl
  rw [hl, bind_map]
  refine bind_congr' _ _ _ fun p => ?_
  rw [bound_map, bind_map]
  refine bind_congr' _ _ _ fun s => ?_
  have e4 : GM.omegaHomOls (t.w W) (t.w A1) (t.w (A2hom W)) (t.x (F x)) (t.step (F x) s).u (t.step (F x) s).lam
      (t.step (F x) s).moments.G = (GM.omegaHomOls W A1 (A2hom W) (F x) s.u s.lam s.moments.G).map t.v2 :=
    t.omegaHomOls W A1 (A2hom W) (F x) s.u s.lam s.moments.G
  rw [e4, bind_map]
  refine bind_congr' _ _ _ fun v => ?_
  rw [map_pure]
  congr 1
  simp only [Tr.fit, IterFit.mk.injEq]
  exact ⟨rfl, rfl, rfl, rfl, t.efilt W s.lam s.u, trivial, trivial, trivial⟩

theorem homEndogStep_regimes (ho : UnitFree t.c opt) (hd : t.d = 0) (hB : B * Bi = 1) (hBi : Bi * B = 1)
    (hF : ∀ x, F' (trH t.σ S x) = t.x (F x)) (W A1 A2 : Matrix n n ℝ) (z : Matrix n k ℝ) (h : Matrix n l ℝ) (y : n → ℝ)
    (lam1 lam : ℝ) :
    homEndogStepR opt F' (t.w W) (t.w A1) (t.w A2) (trH t.σ S z) (trH t.σ B h) (t.u y) lam1 lam =
      (homEndogStepR opt F W A1 A2 z h y lam1 lam).map (t.step (F z)) := by
  unfold homEndogStepR
  rw [filtS, t.filtU, hF, hF]
  dsimp only
  rw [t.tslsF B Bi hd hB hBi, bind_map, map_bind]
  refine bind_congr' _ _ _ fun o => ?_
  generalize F (spFilterM W lam1 z) = zs
  have e : (t.tsls Bi zs o).betas = t.b o.betas := rfl
  rw [e, t.predF hd, t.residF, t.momHom, t.filtU, t.pHom B Bi hB hBi, bind_map, map_bind]
  refine bind_congr' _ _ _ fun p => ?_
  rw [t.aHom B Bi hB, t.vcHom, ho.2, map_bind]
  refine bind_congr' _ _ _ fun _ => ?_
  rw [map_pure, Tr.step, t.y0 hd]

theorem homEndog_regimes [DecidableEq m] [DecidableEq n] (ho : UnitFree t.c opt) (hd : t.d = 0) (hB : B * Bi = 1)
    (hBi : Bi * B = 1) (hF : ∀ x, F' (trH t.σ S x) = t.x (F x)) (W : Matrix n n ℝ) (z : Matrix n k ℝ) (h : Matrix n l ℝ)
    (y : n → ℝ) (maxIter : ℕ) (epsilon : ℝ) (a1 : String) :
    gmEndogErrorHomRegimes opt F' (t.w W) (trH t.σ S z) (trH t.σ B h) (t.u y) maxIter epsilon a1 =
      (gmEndogErrorHomRegimes opt F W z h y maxIter epsilon a1).map (t.fit (F z)) := by
  unfold gmEndogErrorHomRegimes
  rw [t.chooseA1, bind_map, map_bind]
  refine bind_congr' _ _ _ fun A1 => ?_
  have hA2 : A2hom (t.w W) = t.w (A2hom W) := t.w_A2hom W
  simp only [hA2, hF, t.tslsF B Bi hd hB hBi, bind_map, map_bind]
  refine bind_congr' _ _ _ fun o => ?_
  have e1 : (t.tsls Bi (F z) o).u = t.u o.u := rfl
  rw [e1, t.momHom, ho.1]
  refine bind_congr' _ _ _ fun lam1 => ?_
  have hl := gmLoop_map (t.step (F z)) (homEndogStepR opt F W A1 (A2hom W) z h y lam1)
    (homEndogStepR opt F' (t.w W) (t.w A1) (t.w (A2hom W)) (trH t.σ S z) (trH t.σ B h) (t.u y) lam1) Step.lam Step.lam
    (homEndogStep_regimes t B Bi S ho hd hB hBi hF W A1 (A2hom W) z h y lam1) (fun _ => rfl) epsilon maxIter lam1 1 none
  rw [Option.map_none] at hl
  rw [hl, bind_map]
  refine bind_congr' _ _ _ fun p => ?_
  rw [bound_map, bind_map]
  refine bind_congr' _ _ _ fun s => ?_
  have e4 : GM.omegaHom (t.w W) (t.w A1) (t.w (A2hom W)) (trH t.σ B h) (t.x (F z)) (t.step (F z) s).u (t.step (F z) s).lam
      (t.step (F z) s).moments.G = (GM.omegaHom W A1 (A2hom W) h (F z) s.u s.lam s.moments.G).map t.v2 :=
    t.omegaHom B Bi hB hBi W A1 (A2hom W) h (F z) s.u s.lam s.moments.G
  rw [e4, bind_map]
  refine bind_congr' _ _ _ fun v => ?_
  rw [map_pure]
  congr 1
  simp only [Tr.fit, IterFit.mk.injEq]
  exact ⟨rfl, rfl, rfl, rfl, t.efilt W s.lam s.u, trivial, trivial, trivial⟩

end

/-! ### Specification -/

/-- The variable of a column. -/
def colVar {vary : k → Bool} : RCol vary ρ → k
  | .inl (v, _) => v.1
  | .inr v => v.1

/-- Where the column of a variable in a regime is after the regimes have been renamed by `π`. -/
def newCol {vary : k → Bool} (π : Equiv.Perm ρ) : Equiv.Perm (RCol vary ρ) :=
  Equiv.sumCongr (Equiv.prodCongr (Equiv.refl _) π) (Equiv.refl _)

/-- The same observations in the order `σ`, each variable `j` measured in units `1 / a j`. -/
def Rescaled (σ : m ≃ n) (a : k → ℝ) (x : Matrix n k ℝ) (x' : Matrix m k ℝ) : Prop := ∀ i j, x' i j = a j * x (σ i) j

/-- Two outcomes correspond: related results, or the same exception. -/
def Corr {A B : Type} (R : A → B → Prop) (r : Py A) (r' : Py B) : Prop :=
  (∀ f, r = .ok f → ∃ f', r' = .ok f' ∧ R f f') ∧ ∀ e, r = .error e → r' = .error e

/-- The results of `GM_Error_Regimes` and `GM_Endog_Error_Regimes` for the changed data. -/
def SameGM {vary : k → Bool} (σ : m ≃ n) (π : Equiv.Perm ρ) (a : k → ℝ) (c : ℝ) (f : GMErrorFit n (RCol vary ρ))
    (f' : GMErrorFit m (RCol vary ρ)) : Prop :=
  (∀ p, f'.betas (newCol π p) = c / a (colVar p) * f.betas p) ∧ f'.lam = f.lam ∧ (∀ i, f'.predy i = c * f.predy (σ i)) ∧
  (∀ i, f'.u i = c * f.u (σ i)) ∧ (∀ i, f'.eFiltered i = c * f.eFiltered (σ i)) ∧ f'.sig2 = c ^ 2 * f.sig2 ∧
  ∀ p q, f'.vm (newCol π p) (newCol π q) = c / a (colVar p) * (c / a (colVar q)) * f.vm p q

/-- The results of the heteroskedastic and homoskedastic versions for the changed data. -/
def SameIter {vary : k → Bool} (σ : m ≃ n) (π : Equiv.Perm ρ) (a : k → ℝ) (c : ℝ) (f : IterFit n (RCol vary ρ))
    (f' : IterFit m (RCol vary ρ)) : Prop :=
  (∀ p, f'.betas (newCol π p) = c / a (colVar p) * f.betas p) ∧ f'.lam = f.lam ∧ (∀ i, f'.predy i = c * f.predy (σ i)) ∧
  (∀ i, f'.u i = c * f.u (σ i)) ∧ (∀ i, f'.eFiltered i = c * f.eFiltered (σ i)) ∧ f'.iteration = f.iteration ∧
  f'.iterStop = f.iterStop ∧
  (∀ p q, f'.vm (.inl (newCol π p)) (.inl (newCol π q)) = c / a (colVar p) * (c / a (colVar q)) * f.vm (.inl p) (.inl q)) ∧
  (∀ p, f'.vm (.inl (newCol π p)) (.inr ()) = c / a (colVar p) * f.vm (.inl p) (.inr ())) ∧
  (∀ q, f'.vm (.inr ()) (.inl (newCol π q)) = c / a (colVar q) * f.vm (.inr ()) (.inl q)) ∧
  f'.vm (.inr ()) (.inr ()) = f.vm (.inr ()) (.inr ())

/-! ### Units and places of the columns -/

theorem corr_map {A B : Type} {R : A → B → Prop} {r : Py A} {r' : Py B} (g : A → B) (h : r' = r.map g) (hR : ∀ f, R f (g f)) :
    Corr R r r' := by
  subst h
  refine ⟨fun f hf => ⟨g f, by rw [hf]; rfl, hR f⟩, fun e he => by rw [he]; rfl⟩

/-- Reordered observations, columns moved by `e` and rescaled by `a`, dependent variable rescaled by `b`. -/
noncomputable def place {m n c : Type} [Fintype c] [DecidableEq c] (σ : m ≃ n) (e : Equiv.Perm c) (a : c → ℝ) (ha : ∀ p, a p ≠ 0)
    (b : ℝ) (hb : b ≠ 0) : Tr m n c where
  σ := σ
  T := Matrix.of fun p q => if q = e p then a p else 0
  Ti := Matrix.of fun p q => if p = e q then (a q)⁻¹ else 0
  c := b
  d := 0
  hT := by
    ext p q
    simp only [mul_apply, of_apply, ite_mul, zero_mul, one_apply]
    rw [Finset.sum_ite_eq' Finset.univ (e p)]
    by_cases h : p = q
    · subst h; simp [ha]
    · simp [h]
  hTi := by
    ext p q
    obtain ⟨p, rfl⟩ := e.surjective p
    simp only [mul_apply, of_apply, e.injective.eq_iff, one_apply, ite_mul, zero_mul]
    rw [Finset.sum_ite_eq Finset.univ p]
    by_cases h : q = e p
    · subst h; simp [ha]
    · simp [h, Ne.symm h]
  hc := hb

section
variable [DecidableEq c] (σ : m ≃ n) (e : Equiv.Perm c) (a : c → ℝ) (ha : ∀ p, a p ≠ 0) (b : ℝ) (hb : b ≠ 0)

omit [Fintype m] [Fintype n] in
theorem place_x {z : Matrix n c ℝ} {z' : Matrix m c ℝ} (h : ∀ i p, z' i (e p) = a p * z (σ i) p) :
    (place σ e a ha b hb).x z = z' := by
  ext i p
  obtain ⟨p, rfl⟩ := e.surjective p
  rw [h]
  simp [place, Tr.x, mul_apply, e.injective.eq_iff]
  ring

omit [Fintype m] [Fintype n] in
theorem place_b (v : c → ℝ) (p : c) : (place σ e a ha b hb).b v (e p) = b / a p * v p := by
  simp [place, Tr.b, mulVec, dotProduct, e.injective.eq_iff]
  ring

omit [Fintype m] [Fintype n] in
theorem place_conj (V : Matrix c c ℝ) (p q : c) :
    ((place σ e a ha b hb).Ti * V * ((place σ e a ha b hb).Ti)ᵀ) (e p) (e q) = (a p)⁻¹ * (a q)⁻¹ * V p q := by
  simp [place, mul_apply, e.injective.eq_iff]
  ring

omit [Fintype m] [Fintype n] in
theorem place_v (V : Matrix c c ℝ) (p q : c) :
    (place σ e a ha b hb).v V (e p) (e q) = b / a p * (b / a q) * V p q := by
  rw [Tr.v, Matrix.smul_apply, place_conj]
  simp only [place, smul_eq_mul]
  ring

theorem place_v2 (V : Matrix (c ⊕ Unit) (c ⊕ Unit) ℝ) :
    (∀ p q, (place σ e a ha b hb).v2 V (.inl (e p)) (.inl (e q)) = b / a p * (b / a q) * V (.inl p) (.inl q)) ∧
    (∀ p, (place σ e a ha b hb).v2 V (.inl (e p)) (.inr ()) = b / a p * V (.inl p) (.inr ())) ∧
    (∀ q, (place σ e a ha b hb).v2 V (.inr ()) (.inl (e q)) = b / a q * V (.inr ()) (.inl q)) ∧
    (place σ e a ha b hb).v2 V (.inr ()) (.inr ()) = V (.inr ()) (.inr ()) := by
  obtain ⟨A, P, Q, D, rfl⟩ : ∃ A P Q D, V = fromBlocks A P Q D := ⟨_, _, _, _, (fromBlocks_toBlocks V).symm⟩
  rw [Tr.v2_blocks]
  refine ⟨fun p q => ?_, fun p => ?_, fun q => ?_, rfl⟩
  · simp only [fromBlocks_apply₁₁]
    rw [Matrix.smul_apply, place_conj]
    simp only [place, smul_eq_mul]
    ring
  · simp only [fromBlocks_apply₁₂]
    simp [place, mul_apply, e.injective.eq_iff]
    ring
  · simp only [fromBlocks_apply₂₁]
    simp [place, mul_apply, e.injective.eq_iff]
    ring
end

section
variable [DecidableEq k] [DecidableEq l] [DecidableEq ρ] {vary : k → Bool} {varyh : l → Bool}
variable (σ : m ≃ n) (π : Equiv.Perm ρ) {a : k → ℝ} (ha : ∀ j, a j ≠ 0) {ah : l → ℝ} (hah : ∀ j, ah j ≠ 0) {b : ℝ} (hb : b ≠ 0)

omit [Fintype m] [Fintype n] in
/-- The framed regressors of the changed data. -/
theorem frame_place {g : n → ρ} {g' : m → ρ} (hg : ∀ i, g' i = π (g (σ i))) {x : Matrix n k ℝ} {x' : Matrix m k ℝ}
    (hx : Rescaled σ a x x') :
    (place σ (newCol π) (fun p : RCol vary ρ => a (colVar p)) (fun p => ha _) b hb).x (frame g vary x) = frame g' vary x' := by
  refine place_x _ _ _ _ _ _ ?_
  rintro i (⟨v, r⟩ | v)
  · show (if g' i = π r then x' i v.1 else 0) = a v.1 * (if g (σ i) = r then x (σ i) v.1 else 0)
    rw [hg, hx]
    by_cases h : g (σ i) = r
    · subst h; simp
    · rw [if_neg h, if_neg (fun e => h (π.injective e)), mul_zero]
  · exact hx i v.1

omit [Fintype m] [Fintype n] [Fintype ρ] [DecidableEq ρ] in
theorem rescaled_trH {x : Matrix n k ℝ} {x' : Matrix m k ℝ} (hx : Rescaled σ a x x') : trH σ (diagonal a) x = x' := by
  ext i j
  rw [hx, trH]
  simp [mul_diagonal, mul_comm]

omit [Fintype m] [Fintype n] in
theorem frame_comm {g : n → ρ} {g' : m → ρ} (hg : ∀ i, g' i = π (g (σ i))) (x : Matrix n k ℝ) :
    frame g' vary (trH σ (diagonal a) x) =
      (place σ (newCol π) (fun p : RCol vary ρ => a (colVar p)) (fun p => ha _) b hb).x (frame g vary x) :=
  (frame_place σ π ha hb hg fun i j => by simp [trH, mul_diagonal, mul_comm]).symm

theorem fit1_same (z : Matrix n (RCol vary ρ) ℝ) (f : GMErrorFit n (RCol vary ρ)) :
    SameGM σ π a b f ((place σ (newCol π) (fun p : RCol vary ρ => a (colVar p)) (fun p => ha _) b hb).fit1 z f) := by
  refine ⟨fun p => place_b _ _ _ _ _ _ _ _, rfl, fun i => ?_, fun i => rfl, fun i => rfl, rfl, fun p q => place_v _ _ _ _ _ _ _ _ _⟩
  exact congrFun (Tr.y0 _ rfl z f.predy) i

theorem fit_same (z : Matrix n (RCol vary ρ) ℝ) (f : IterFit n (RCol vary ρ)) :
    SameIter σ π a b f ((place σ (newCol π) (fun p : RCol vary ρ => a (colVar p)) (fun p => ha _) b hb).fit z f) := by
  obtain ⟨h1, h2, h3, h4⟩ := place_v2 σ (newCol π) (fun p : RCol vary ρ => a (colVar p)) (fun p => ha _) b hb f.vm
  refine ⟨fun p => place_b _ _ _ _ _ _ _ _, rfl, fun i => ?_, fun i => rfl, fun i => rfl, rfl, rfl, h1, h2, h3, h4⟩
  exact congrFun (Tr.y0 _ rfl z f.predy) i

/-- What two-stage least squares gives for the changed data. -/
def SameTSLS {vary : k → Bool} (σ : m ≃ n) (π : Equiv.Perm ρ) (a : k → ℝ) (c : ℝ) (f : TSLSFit n (RCol vary ρ) l')
    (f' : TSLSFit m (RCol vary ρ) l') : Prop :=
  (∀ p, f'.betas (newCol π p) = c / a (colVar p) * f.betas p) ∧ (∀ i, f'.predy i = c * f.predy (σ i)) ∧
  (∀ i, f'.u i = c * f.u (σ i)) ∧ sig2n f'.u = c ^ 2 * sig2n f.u ∧
  ∀ p q, sig2n f'.u * f'.varb (newCol π p) (newCol π q) = c / a (colVar p) * (c / a (colVar q)) * (sig2n f.u * f.varb p q)

/-! ### C159 -/

include ha hb

/-- **C159** (`GM_Error_Regimes`). -/
theorem C159_error (opt3 : Moments (Fin 3) (Fin 3) → Py ℝ) (ho : ∀ M, opt3 (Tr.mom3 (b ^ 2) M) = opt3 M) {g : n → ρ} {g' : m → ρ}
    (hg : ∀ i, g' i = π (g (σ i))) (W : Matrix n n ℝ) {x : Matrix n k ℝ} {x' : Matrix m k ℝ} (hx : Rescaled σ a x x') (y : n → ℝ) :
    Corr (SameGM σ π a b) (gmErrorRegimes opt3 (frame g vary) W x y)
      (gmErrorRegimes opt3 (frame g' vary) (W.submatrix σ σ) x' fun i => b * y (σ i)) := by
  rw [← rescaled_trH σ hx]
  exact corr_map _ (error_regimes (place σ (newCol π) (fun p : RCol vary ρ => a (colVar p)) (fun p => ha _) b hb) (diagonal a) ho rfl
    (frame_comm σ π ha hb hg) W x y) fun f => fit1_same σ π ha hb _ f

include hah

/-- **C159** (`GM_Endog_Error_Regimes`, `GM_Combo_Regimes`): `z` are the exogenous and endogenous regressors and `q` the exogenous
regressors and instruments before they are divided by regimes. A spatial lag among them is measured in the units of `y`. -/
theorem C159_endog_error (opt3 : Moments (Fin 3) (Fin 3) → Py ℝ) (ho : ∀ M, opt3 (Tr.mom3 (b ^ 2) M) = opt3 M) {g : n → ρ}
    {g' : m → ρ} (hg : ∀ i, g' i = π (g (σ i))) (W : Matrix n n ℝ) {z : Matrix n k ℝ} {z' : Matrix m k ℝ} (hz : Rescaled σ a z z')
    {q : Matrix n l ℝ} {q' : Matrix m l ℝ} (hq : Rescaled σ ah q q') (y : n → ℝ) :
    Corr (SameGM σ π a b) (gmEndogErrorRegimes opt3 (frame g vary) W z (frame g varyh q) y)
      (gmEndogErrorRegimes opt3 (frame g' vary) (W.submatrix σ σ) z' (frame g' varyh q') fun i => b * y (σ i)) := by
  rw [← rescaled_trH σ hz, ← frame_place σ π hah one_ne_zero hg hq]
  set s := place σ (newCol π) (fun p : RCol varyh ρ => ah (colVar p)) (fun p => hah _) 1 one_ne_zero
  exact corr_map _ (endog_regimes (place σ (newCol π) (fun p : RCol vary ρ => a (colVar p)) (fun p => ha _) b hb) s.T s.Ti
    (diagonal a) ho rfl s.hT s.hTi (frame_comm σ π ha hb hg) W z _ y) fun f => fit1_same σ π ha hb _ f

/-- **C159** (`TSLS_Regimes`, `GM_Lag_Regimes` in one equation): for `GM_Lag_Regimes`, `z` contains the spatial lag `W y`, measured in
the units of `y` (`lag_units`), and `q` the lags of the regressors, measured in theirs. -/
theorem C159_lag {g : n → ρ} {g' : m → ρ} (hg : ∀ i, g' i = π (g (σ i))) {z : Matrix n k ℝ} {z' : Matrix m k ℝ}
    (hz : Rescaled σ a z z') {q : Matrix n l ℝ} {q' : Matrix m l ℝ} (hq : Rescaled σ ah q q') (y : n → ℝ) :
    Corr (SameTSLS σ π a b) (tslsE (frame g vary z) (frame g varyh q) y)
      (tslsE (frame g' vary z') (frame g' varyh q') fun i => b * y (σ i)) := by
  rw [← frame_place σ π ha hb hg hz, ← frame_place σ π hah one_ne_zero hg hq]
  set s := place σ (newCol π) (fun p : RCol varyh ρ => ah (colVar p)) (fun p => hah _) 1 one_ne_zero
  set t := place σ (newCol π) (fun p : RCol vary ρ => a (colVar p)) (fun p => ha _) b hb
  refine corr_map _ (t.tslsF s.T s.Ti rfl s.hT s.hTi _ _ y) fun f => ?_
  have hs : sig2n (t.u f.u) = b ^ 2 * sig2n f.u := by
    unfold sig2n
    rw [show utu (t.u f.u) = b ^ 2 * utu f.u by rw [utu_eq_dot, utu_eq_dot, t.u_dot]; rfl, Fintype.card_congr σ]
    ring
  refine ⟨fun p => place_b _ _ _ _ _ _ _ _, fun i => congrFun (t.y0 rfl _ f.predy) i, fun i => rfl, hs, fun p r => ?_⟩
  have h1 : (t.tsls s.Ti (frame g vary z) f).varb (newCol π p) (newCol π r) = (a (colVar p))⁻¹ * (a (colVar r))⁻¹ * f.varb p r :=
    place_conj σ (newCol π) _ _ b hb f.varb p r
  rw [h1]
  show sig2n (t.u f.u) * _ = _
  rw [hs]
  ring

omit hah hb ha [Fintype k] [Fintype l] [Fintype ρ] [DecidableEq k] [DecidableEq l] [DecidableEq ρ] in
/-- The lag of the reordered and rescaled variable is the reordered and rescaled lag: the hypotheses of `C159_lag`,
`C159_endog_error` etc. hold for the columns that the code computes itself. -/
theorem lag_units (W : Matrix n n ℝ) (v : n → ℝ) (i : m) :
    (W.submatrix σ σ *ᵥ fun i => b * v (σ i)) i = b * (W *ᵥ v) (σ i) := by
  simp only [mulVec, dotProduct, submatrix_apply]
  rw [Finset.mul_sum, ← Equiv.sum_comp σ]
  exact Finset.sum_congr rfl fun j _ => by ring

omit hah
variable [DecidableEq m] [DecidableEq n]

/-- **C159** (`GM_Error_Het_Regimes`). -/
theorem C159_error_het (opt : Moments (Fin 2) (Fin 2) → Option (Matrix (Fin 2) (Fin 2) ℝ) → Py ℝ) (ho : UnitFree b opt) {g : n → ρ}
    {g' : m → ρ} (hg : ∀ i, g' i = π (g (σ i))) (W : Matrix n n ℝ) {x : Matrix n k ℝ} {x' : Matrix m k ℝ} (hx : Rescaled σ a x x')
    (y : n → ℝ) (maxIter : ℕ) (epsilon : ℝ) (step1c : Bool) :
    Corr (SameIter σ π a b) (gmErrorHetRegimes opt (frame g vary) W x y maxIter epsilon step1c)
      (gmErrorHetRegimes opt (frame g' vary) (W.submatrix σ σ) x' (fun i => b * y (σ i)) maxIter epsilon step1c) := by
  rw [← rescaled_trH σ hx]
  exact corr_map _ (het_regimes (place σ (newCol π) (fun p : RCol vary ρ => a (colVar p)) (fun p => ha _) b hb) (diagonal a) ho rfl
    (frame_comm σ π ha hb hg) W x y maxIter epsilon step1c) fun f => fit_same σ π ha hb _ f

/-- **C159** (`GM_Error_Hom_Regimes`). -/
theorem C159_error_hom (opt : Moments (Fin 2) (Fin 2) → Option (Matrix (Fin 2) (Fin 2) ℝ) → Py ℝ) (ho : UnitFree b opt) {g : n → ρ}
    {g' : m → ρ} (hg : ∀ i, g' i = π (g (σ i))) (W : Matrix n n ℝ) {x : Matrix n k ℝ} {x' : Matrix m k ℝ} (hx : Rescaled σ a x x')
    (y : n → ℝ) (maxIter : ℕ) (epsilon : ℝ) (a1 : String) :
    Corr (SameIter σ π a b) (gmErrorHomRegimes opt (frame g vary) W x y maxIter epsilon a1)
      (gmErrorHomRegimes opt (frame g' vary) (W.submatrix σ σ) x' (fun i => b * y (σ i)) maxIter epsilon a1) := by
  rw [← rescaled_trH σ hx]
  exact corr_map _ (hom_regimes (place σ (newCol π) (fun p : RCol vary ρ => a (colVar p)) (fun p => ha _) b hb) (diagonal a) ho rfl
    (frame_comm σ π ha hb hg) W x y maxIter epsilon a1) fun f => fit_same σ π ha hb _ f

include hah

/-- **C159** (`GM_Endog_Error_Het_Regimes`, `GM_Combo_Het_Regimes`). -/
theorem C159_endog_het (opt : Moments (Fin 2) (Fin 2) → Option (Matrix (Fin 2) (Fin 2) ℝ) → Py ℝ) (ho : UnitFree b opt) {g : n → ρ}
    {g' : m → ρ} (hg : ∀ i, g' i = π (g (σ i))) (W : Matrix n n ℝ) {z : Matrix n k ℝ} {z' : Matrix m k ℝ} (hz : Rescaled σ a z z')
    {q : Matrix n l ℝ} {q' : Matrix m l ℝ} (hq : Rescaled σ ah q q') (y : n → ℝ) (maxIter : ℕ) (epsilon : ℝ) :
    Corr (SameIter σ π a b) (gmEndogErrorHetRegimes opt (frame g vary) W z (frame g varyh q) y maxIter epsilon)
      (gmEndogErrorHetRegimes opt (frame g' vary) (W.submatrix σ σ) z' (frame g' varyh q') (fun i => b * y (σ i)) maxIter epsilon) := by
  rw [← rescaled_trH σ hz, ← frame_place σ π hah one_ne_zero hg hq]
  set s := place σ (newCol π) (fun p : RCol varyh ρ => ah (colVar p)) (fun p => hah _) 1 one_ne_zero
  exact corr_map _ (hetEndog_regimes (place σ (newCol π) (fun p : RCol vary ρ => a (colVar p)) (fun p => ha _) b hb) s.T s.Ti
    (diagonal a) ho rfl s.hT s.hTi (frame_comm σ π ha hb hg) W z _ y maxIter epsilon) fun f => fit_same σ π ha hb _ f

/-- **C159** (`GM_Endog_Error_Hom_Regimes`, `GM_Combo_Hom_Regimes`). -/
theorem C159_endog_hom (opt : Moments (Fin 2) (Fin 2) → Option (Matrix (Fin 2) (Fin 2) ℝ) → Py ℝ) (ho : UnitFree b opt) {g : n → ρ}
    {g' : m → ρ} (hg : ∀ i, g' i = π (g (σ i))) (W : Matrix n n ℝ) {z : Matrix n k ℝ} {z' : Matrix m k ℝ} (hz : Rescaled σ a z z')
    {q : Matrix n l ℝ} {q' : Matrix m l ℝ} (hq : Rescaled σ ah q q') (y : n → ℝ) (maxIter : ℕ) (epsilon : ℝ) (a1 : String) :
    Corr (SameIter σ π a b) (gmEndogErrorHomRegimes opt (frame g vary) W z (frame g varyh q) y maxIter epsilon a1)
      (gmEndogErrorHomRegimes opt (frame g' vary) (W.submatrix σ σ) z' (frame g' varyh q') (fun i => b * y (σ i)) maxIter epsilon
        a1) := by
  rw [← rescaled_trH σ hz, ← frame_place σ π hah one_ne_zero hg hq]
  set s := place σ (newCol π) (fun p : RCol varyh ρ => ah (colVar p)) (fun p => hah _) 1 one_ne_zero
  exact corr_map _ (homEndog_regimes (place σ (newCol π) (fun p : RCol vary ρ => a (colVar p)) (fun p => ha _) b hb) s.T s.Ti
    (diagonal a) ho rfl s.hT s.hTi (frame_comm σ π ha hb hg) W z _ y maxIter epsilon a1) fun f => fit_same σ π ha hb _ f

end
/-- The hypotheses of `C159_error` are met: four observations on a line in two regimes, the first two exchanged, the names of the
regimes exchanged, the constant measured in other units (2 instead of 1), the dependent variable multiplied by 3. -/
example (y : Fin 4 → ℝ) : ∃ f f', gmErrorRegimes (fun _ => .ok (1 / 2)) (frame gRow4 fun _ : Unit => true) wRow4
      (Matrix.of fun _ _ => 1) y = .ok f ∧
    gmErrorRegimes (fun _ => .ok (1 / 2)) (frame ![1, 1, 0, 0] fun _ : Unit => true)
      (wRow4.submatrix (Equiv.swap 0 1) (Equiv.swap 0 1)) (Matrix.of fun _ _ => 2) (fun i => 3 * y (Equiv.swap 0 1 i)) = .ok f' ∧
    SameGM (Equiv.swap 0 1) (Equiv.swap 0 1) (fun _ => 2) 3 f f' := by
  obtain ⟨f, hf, -⟩ := C144_example y
  obtain ⟨f', hf', h⟩ := (C159_error (vary := fun _ : Unit => true) (Equiv.swap (0 : Fin 4) 1) (Equiv.swap (0 : Fin 2) 1)
    (a := fun _ => 2) (fun _ => two_ne_zero) (b := 3) three_ne_zero (fun _ => .ok (1 / 2)) (fun _ => rfl) (g := gRow4)
    (g' := ![1, 1, 0, 0]) (by decide) wRow4 (x := Matrix.of fun _ _ => 1) (x' := Matrix.of fun _ _ => 2)
    (fun i j => by simp) y).1 f hf
  exact ⟨f, f', hf, hf', h⟩

end Spreg.GM
