import Verif.Props.HomLoop
set_option linter.unusedSectionVars false
set_option linter.unusedSimpArgs false
/-
C188: the generalized moments estimator for homoskedastic errors is consistent.
-/
namespace Spreg.Consist
open Spreg Spreg.Lin Spreg.GM Spreg.Sampling Matrix MeasureTheory Filter Topology

variable {Ω : ℕ → Type} [∀ t, MeasurableSpace (Ω t)] {P : ∀ t, Measure (Ω t)}

section fit
variable {m k : Type} [Fintype m] [DecidableEq m] [Fintype k] [DecidableEq k] {opt : Moments (Fin 2) (Fin 2) → Option (Matrix (Fin 2) (Fin 2) ℝ) → Py ℝ}

theorem omegaOls_ok (a1 : String) (W : Matrix m m ℝ) (x : Matrix m k ℝ) (u : m → ℝ) (l : ℝ) (G : Matrix (Fin 2) (Fin 2) ℝ)
    (h0 : ((1 / N m) • ((spFilterM W l x)ᵀ * spFilterM W l x)).det ≠ 0) (h1 : ((spFilterM W l x)ᵀ * spFilterM W l x).det ≠ 0) (h2 : (vh a1 W u l).det ≠ 0)
    (h3 : ((jac G l)ᵀ * ((vh a1 W u l)⁻¹ * jac G l)).det ≠ 0) :
    ∃ D : Matrix k Unit ℝ, (a1 = "het" → D = 0) ∧ omegaHomOls W (homA a1 W 0) (homA a1 W 1) x u l G =
      .ok (fromBlocks (m2 (spFilter W l u) • ((spFilterM W l x)ᵀ * spFilterM W l x)⁻¹) D Dᵀ ((1 / N m) • ((jac G l)ᵀ * ((vh a1 W u l)⁻¹ * jac G l))⁻¹)) := by
  refine ⟨(((((1 / N m) • ((spFilterM W l x)ᵀ * spFilterM W l x))⁻¹)ᵀ * ((1 / N m) • (m3 (spFilter W l u) • (xᵀ * cols2 (fun i => homA a1 W 0 i i) 0)))) *
    ((vh a1 W u l)⁻¹ * jac G l)) * ((1 / N m) • ((jac G l)ᵀ * ((vh a1 W u l)⁻¹ * jac G l))⁻¹), ?_, ?_⟩
  · rintro rfl
    have hz : (cols2 (fun i => homA "het" W 0 i i) 0 : Matrix m (Fin 2) ℝ) = 0 := by
      ext i j
      have : homA "het" W 0 i i = 0 := by
        rw [homA, if_neg (by decide), if_pos rfl, hetA, if_pos rfl, of_apply, if_pos rfl]
      fin_cases j
      · exact this
      · rfl
    rw [hz]
    simp
  · rw [omegaHomOls, invE_ok h0]
    show (do
      let psii ← invE (vh a1 W u l)
      let xxi ← invE ((spFilterM W l x)ᵀ * spFilterM W l x)
      let ji ← invE ((jac G l)ᵀ * (psii * jac G l))
      return fromBlocks (m2 (spFilter W l u) • xxi) (((((1 / N m) • ((spFilterM W l x)ᵀ * spFilterM W l x))⁻¹)ᵀ *
        ((1 / N m) • (m3 (spFilter W l u) • (xᵀ * cols2 (fun i => homA a1 W 0 i i) 0)))) * (psii * jac G l) * ((1 / N m) • ji))
        ((((((1 / N m) • ((spFilterM W l x)ᵀ * spFilterM W l x))⁻¹)ᵀ *
        ((1 / N m) • (m3 (spFilter W l u) • (xᵀ * cols2 (fun i => homA a1 W 0 i i) 0)))) * (psii * jac G l) * ((1 / N m) • ji))ᵀ) ((1 / N m) • ji) : Py _) = _
    rw [invE_ok h2]
    show (do
      let xxi ← invE ((spFilterM W l x)ᵀ * spFilterM W l x)
      let ji ← invE ((jac G l)ᵀ * ((vh a1 W u l)⁻¹ * jac G l))
      return fromBlocks (m2 (spFilter W l u) • xxi) (((((1 / N m) • ((spFilterM W l x)ᵀ * spFilterM W l x))⁻¹)ᵀ *
        ((1 / N m) • (m3 (spFilter W l u) • (xᵀ * cols2 (fun i => homA a1 W 0 i i) 0)))) * ((vh a1 W u l)⁻¹ * jac G l) * ((1 / N m) • ji))
        ((((((1 / N m) • ((spFilterM W l x)ᵀ * spFilterM W l x))⁻¹)ᵀ *
        ((1 / N m) • (m3 (spFilter W l u) • (xᵀ * cols2 (fun i => homA a1 W 0 i i) 0)))) * ((vh a1 W u l)⁻¹ * jac G l) * ((1 / N m) • ji))ᵀ) ((1 / N m) • ji) : Py _) = _
    rw [invE_ok h1, invE_ok h3]
    rfl

theorem hom_fit (a1 : String) (ha : a1 = "hom" ∨ a1 = "hom_sc" ∨ a1 = "het") (W : Matrix m m ℝ) (x : Matrix m k ℝ) (y v : m → ℝ) (beta d : k → ℝ) (maxIter it : ℕ)
    (epsilon lam1 l : ℝ) (o : OLSFit m k) (ho : ols x y = some o) (h1 : opt (mh a1 W o.u) none = .ok lam1)
    (h3 : gmLoop (homStep opt W (homA a1 W 0) (homA a1 W 1) x y) Step.lam epsilon maxIter lam1 1 none = .ok (some (stepOfH a1 W x v beta d l), it))
    (vm : Matrix (k ⊕ Unit) (k ⊕ Unit) ℝ)
    (h5 : omegaHomOls W (homA a1 W 0) (homA a1 W 1) x (v - x *ᵥ d) l (mh a1 W (v - x *ᵥ d)).G = .ok vm) :
    ∃ f, (gmErrorHom opt W x y maxIter epsilon a1).toOption = some f ∧ f.betas = beta + d ∧ f.lam = l ∧ f.vm = vm := by
  refine ⟨⟨beta + d, l, x *ᵥ (beta + d), v - x *ᵥ d, (v - x *ᵥ d) - l • (W *ᵥ (v - x *ᵥ d)), vm, it, iterMsg it maxIter⟩, ?_, rfl, rfl, rfl⟩
  have e : gmErrorHom opt W x y maxIter epsilon a1 = .ok ⟨beta + d, l, x *ᵥ (beta + d), v - x *ᵥ d, (v - x *ᵥ d) - l • (W *ᵥ (v - x *ᵥ d)), vm, it, iterMsg it maxIter⟩ := by
    rw [gmErrorHom, homA_zero a1 ha, olsE_ok ho, ← homA_one a1 W]
    show (do
      let lam1 ← opt (mh a1 W o.u) none
      let (last, it) ← gmLoop (homStep opt W (homA a1 W 0) (homA a1 W 1) x y) Step.lam epsilon maxIter lam1 1 none
      let s ← bound last
      let vm ← omegaHomOls W (homA a1 W 0) (homA a1 W 1) x s.u s.lam s.moments.G
      return ⟨s.betas, s.lam, s.predy, s.u, s.u - s.lam • (W *ᵥ s.u), vm, it, iterMsg it maxIter⟩ : Py (IterFit m k)) = _
    rw [h1]
    show (do
      let (last, it) ← gmLoop (homStep opt W (homA a1 W 0) (homA a1 W 1) x y) Step.lam epsilon maxIter lam1 1 none
      let s ← bound last
      let vm ← omegaHomOls W (homA a1 W 0) (homA a1 W 1) x s.u s.lam s.moments.G
      return ⟨s.betas, s.lam, s.predy, s.u, s.u - s.lam • (W *ᵥ s.u), vm, it, iterMsg it maxIter⟩ : Py (IterFit m k)) = _
    rw [h3]
    show (do
      let vm ← omegaHomOls W (homA a1 W 0) (homA a1 W 1) x (v - x *ᵥ d) l (mh a1 W (v - x *ᵥ d)).G
      return ⟨beta + d, l, x *ᵥ (beta + d), v - x *ᵥ d, (v - x *ᵥ d) - l • (W *ᵥ (v - x *ᵥ d)), vm, it, iterMsg it maxIter⟩ : Py (IterFit m k)) = _
    rw [h5]
    rfl
  rw [e]
  rfl
end fit

section model
variable {k : Type} [Fintype k] [DecidableEq k] {n : ℕ → Type} [∀ t, Fintype (n t)] [∀ t, DecidableEq (n t)]
  {W : ∀ t, Matrix (n t) (n t) ℝ} {x : ∀ t, Matrix (n t) k ℝ} {y v e : ∀ t, Ω t → n t → ℝ} {beta : k → ℝ} {lam : ℝ} {s : ℝ}
  {a1 : String} {G Psi : Matrix (Fin 2) (Fin 2) ℝ} {mu4 : ℝ} {opt : Moments (Fin 2) (Fin 2) → Option (Matrix (Fin 2) (Fin 2) ℝ) → Py ℝ}

theorem hom_core (h : ErrorModel P n W x y v e beta lam fun _ _ => s) (hq : SquaredErrors P n e fun _ _ => s) (hm : HomLimits P n W v e s a1 G Psi mu4)
    (ha : a1 = "hom" ∨ a1 = "hom_sc" ∨ a1 = "het") (hdet : G.det ≠ 0)
    (hneg : G 1 0 < 0 ∨ G 1 1 < 0) (hPsi : Psi.PosDef) {q : Fin 2 → Fin 2 → Matrix k k ℝ} (hreg : RegLimits n W x q) (hq0 : (q 0 0).det ≠ 0)
    (hqs : (limitS q lam).det ≠ 0) (hopt : Minimises2 opt) (maxIter : ℕ) (hmax : 0 < maxIter) (epsilon : ℝ) (heps : epsilon < 1) :
    ∃ (bad : ∀ t, Set (Ω t)) (l : ∀ t, Ω t → ℝ) (d : ∀ t, Ω t → k → ℝ) (A : ∀ t, Ω t → Matrix k k ℝ) (B : ∀ t, Ω t → Matrix Unit Unit ℝ),
      Tendsto (fun t => P t (bad t)) atTop (𝓝 0) ∧ ConvP P l lam ∧ (∀ j, ConvP P (fun t ω => d t ω j) 0) ∧
      (∀ i j, ConvP P (fun t ω => A t ω i j) ((s • (limitS q lam)⁻¹ : Matrix k k ℝ) i j)) ∧
      (∀ i j, ConvP P (fun t ω => B t ω i j) ((((jac0 G lam)ᵀ * (Psi⁻¹ * jac0 G lam))⁻¹ : Matrix Unit Unit ℝ) i j)) ∧
      ∀ t ω, ω ∉ bad t → ∃ f D, (gmErrorHom opt (W t) (x t) (y t ω) maxIter epsilon a1).toOption = some f ∧ f.betas = beta + d t ω ∧ f.lam = l t ω ∧
        (a1 = "het" → D = 0) ∧ f.vm = fromBlocks ((Fintype.card (n t) : ℝ)⁻¹ • A t ω) D Dᵀ ((Fintype.card (n t) : ℝ)⁻¹ • B t ω) := by
  have hpr : ∀ t, IsProbabilityMeasure (P t) := fun t => (h.err t).prob
  have hc : ∀ t, (Fintype.card (n t) : ℝ) ≠ 0 := fun t => by exact_mod_cast (h.pos t).ne'
  have hS1 : ∀ i j, ConvP P (fun t _ => ((Fintype.card (n t) : ℝ)⁻¹ • ((x t)ᵀ * x t) : Matrix k k ℝ) i j) (q 0 0 i j) := fun i j =>
    conv_congr (conv_const _ _ (hreg 0 0 i j)) fun t ω => by
      rw [Matrix.smul_apply, mul_apply, div_eq_inv_mul, smul_eq_mul]
      simp
  have hw1 : ∀ l, ConvP P (fun t ω => ((Fintype.card (n t) : ℝ)⁻¹ • ((x t)ᵀ *ᵥ v t ω)) l) 0 := fun l =>
    conv_congr (em_lin h (fun t => 1) (fun t => 1) 1 1 (fun t => Sums.one) (fun t => Sums.one) l) fun t ω => by
      rw [Pi.smul_apply, Matrix.one_mul, one_mulVec, smul_eq_mul, div_eq_inv_mul]
  set d1 : ∀ t, Ω t → k → ℝ := fun t ω => ((Fintype.card (n t) : ℝ)⁻¹ • ((x t)ᵀ * x t))⁻¹ *ᵥ ((Fintype.card (n t) : ℝ)⁻¹ • ((x t)ᵀ *ᵥ v t ω)) with hd1
  have cd1 : ∀ l, ConvP P (fun t ω => d1 t ω l) 0 := conv_solve _ _ hq0 hS1 _ hw1
  obtain ⟨b1, l1, hb1, cl1, h1⟩ := hom_first h hm hdet hneg hopt d1 cd1
  obtain ⟨r, rfl⟩ : ∃ r, maxIter = r + 1 := ⟨maxIter - 1, by omega⟩
  obtain ⟨b3, d3, l3, hb3, cd3, cl3, h3⟩ := hom_pass h hq hm hdet hneg hPsi hreg hqs hopt l1 cl1
  obtain ⟨b4, d, l, it, hb4, cd, cl, h4⟩ := hom_loop h hq hm hdet hneg hPsi hreg hqs hopt epsilon r l3 cl3 (fun t ω => |l3 t ω - l1 t ω|) d3 cd3 l3 cl3
  set S : ∀ t, Ω t → Matrix k k ℝ := fun t ω => (Fintype.card (n t) : ℝ)⁻¹ • ((spFilterM (W t) (l t ω) (x t))ᵀ * spFilterM (W t) (l t ω) (x t)) with hSd
  have cS : ∀ i j, ConvP P (fun t ω => S t ω i j) (limitS q lam i j) := em_S h hreg l cl
  have c2 := hom_m2 h hq l cl d cd
  set V : ∀ t, Ω t → Matrix (Fin 2) (Fin 2) ℝ := fun t ω => vh a1 (W t) (v t ω - x t *ᵥ d t ω) (l t ω) with hVd
  have cV : ∀ i j, ConvP P (fun t ω => V t ω i j) (Psi i j) := hom_V h hq hm l cl d cd
  set J : ∀ t, Ω t → Matrix (Fin 2) Unit ℝ := fun t ω => jac0 (mh a1 (W t) (v t ω - x t *ᵥ d t ω)).G (l t ω) with hJd
  have cJ : ∀ i j, ConvP P (fun t ω => J t ω i j) (jac0 G lam i j) := fun i _ =>
    conv_plus (hom_G h hm d cd i 0) (conv_mul (conv_smul 2 cl) (hom_G h hm d cd i 1))
  have cV' := conv_matinv V Psi hPsi.det_pos.ne' cV
  have cO : ∀ i j, ConvP P (fun t ω => ((J t ω)ᵀ * ((V t ω)⁻¹ * J t ω)) i j) (((jac0 G lam)ᵀ * (Psi⁻¹ * jac0 G lam)) i j) :=
    conv_matmul (X := fun t ω => (J t ω)ᵀ) (A := (jac0 G lam)ᵀ) (fun i j => cJ j i) (conv_matmul cV' cJ)
  have hO : ((jac0 G lam)ᵀ * (Psi⁻¹ * jac0 G lam)).det ≠ 0 := by rw [← Matrix.mul_assoc]; exact jac_pos G Psi lam hdet hPsi
  have cSi := conv_matinv S (limitS q lam) hqs cS
  refine ⟨fun t => ({_ω | ((Fintype.card (n t) : ℝ)⁻¹ • ((x t)ᵀ * x t)).det = 0} ∪ b1 t) ∪ (b3 t ∪ b4 t) ∪
      ({ω | (S t ω).det = 0} ∪ ({ω | (V t ω).det = 0} ∪ {ω | ((J t ω)ᵀ * ((V t ω)⁻¹ * J t ω)).det = 0})), l, d,
    fun t ω => m2 (spFilter (W t) (l t ω) (v t ω - x t *ᵥ d t ω)) • (S t ω)⁻¹, fun t ω => ((J t ω)ᵀ * ((V t ω)⁻¹ * J t ω))⁻¹, ?_, cl, cd, ?_, ?_, ?_⟩
  · exact union_zero (union_zero (union_zero (conv_det _ _ hq0 hS1) hb1) (union_zero hb3 hb4))
      (union_zero (conv_det _ _ hqs cS) (union_zero (conv_det _ _ hPsi.det_pos.ne' cV) (conv_det _ _ hO cO)))
  · exact fun i j => conv_mul c2 (cSi i j)
  · exact conv_matinv _ _ hO cO
  · intro t ω hω
    simp only [Set.mem_union, Set.mem_ofPred_eq, not_or] at hω
    obtain ⟨⟨⟨g0, g1⟩, g3, g4⟩, g6, g7, g8⟩ := hω
    obtain ⟨o, ho, -, hou, -⟩ := ols_scaled (x t) beta (v t ω) _ (hc t) g0
    have hou' : o.u = v t ω - x t *ᵥ d1 t ω := hou
    have hy : y t ω = x t *ᵥ beta + v t ω := (em_v h t ω).2.2
    have hdS : ((spFilterM (W t) (l t ω) (x t))ᵀ * spFilterM (W t) (l t ω) (x t)).det ≠ 0 := by
      intro hz
      apply g6
      show ((Fintype.card (n t) : ℝ)⁻¹ • ((spFilterM (W t) (l t ω) (x t))ᵀ * spFilterM (W t) (l t ω) (x t))).det = 0
      rw [det_smul, hz, mul_zero]
    obtain ⟨D, hD, hvm⟩ := omegaOls_ok a1 (W t) (x t) (v t ω - x t *ᵥ d t ω) (l t ω) (mh a1 (W t) (v t ω - x t *ᵥ d t ω)).G
      (by rw [one_div]; exact g6) hdS g7 (by rw [jac_eq]; exact g8)
    obtain ⟨f, f1, f2, f3, f4⟩ := hom_fit (opt := opt) a1 ha (W t) (x t) (y t ω) (v t ω) beta (d t ω) (r + 1) (it t ω + 1) epsilon (l1 t ω) (l t ω) o (hy ▸ ho)
      (by rw [hou']; exact h1 t ω g1) (by
        rw [gmLoop, if_pos heps, h3 t ω g3]
        show (do
          let (l, it) ← gmLoop (homStep opt (W t) (homA a1 (W t) 0) (homA a1 (W t) 1) (x t) (y t ω)) Step.lam epsilon r (l3 t ω) |l3 t ω - l1 t ω|
            (some (stepOfH a1 (W t) (x t) (v t ω) beta (d3 t ω) (l3 t ω)))
          return (l, it + 1) : Py _) = _
        rw [h4 t ω g4]
        rfl) _ hvm
    refine ⟨f, D, f1, f2, f3, hD, f4.trans ?_⟩
    have hinv : ((spFilterM (W t) (l t ω) (x t))ᵀ * spFilterM (W t) (l t ω) (x t))⁻¹ = (Fintype.card (n t) : ℝ)⁻¹ • (S t ω)⁻¹ := by
      refine inv_eq_right_inv ?_
      rw [Matrix.mul_smul, ← Matrix.smul_mul]
      exact mul_nonsing_inv _ (isUnit_iff_ne_zero.2 g6)
    rw [hinv, jac_eq, smul_comm]
    congr 1
    rw [one_div]
    rfl

/-- **C188.** `GM_Error_Hom` is consistent when the errors have equal, unknown variances: for every choice of the first moment, with any number of iterations, the coefficients and
lambda converge in probability to their true values, and `n` times the reported variances converge to `s S⁻¹` for the coefficients, where `s` is the variance of the errors and `S` the
limit of the cross products of the filtered regressors, and to `(J' Psi⁻¹ J)⁻¹` with `J = G (1, 2 lambda)'` for lambda. With `A1="het"` the coefficients and lambda are reported as
uncorrelated. The estimator exists with a probability that goes to one. The optimiser is any that minimises the weighted sum of squared moments over the admissible values. -/
theorem C188_gmErrorHom (h : ErrorModel P n W x y v e beta lam fun _ _ => s) (hq : SquaredErrors P n e fun _ _ => s) (hm : HomLimits P n W v e s a1 G Psi mu4)
    (ha : a1 = "hom" ∨ a1 = "hom_sc" ∨ a1 = "het") (hdet : G.det ≠ 0)
    (hneg : G 1 0 < 0 ∨ G 1 1 < 0) (hPsi : Psi.PosDef) {q : Fin 2 → Fin 2 → Matrix k k ℝ} (hreg : RegLimits n W x q) (hq0 : (q 0 0).det ≠ 0)
    (hqs : (q 0 0 - lam • q 0 1 - lam • q 1 0 + lam ^ 2 • q 1 1).det ≠ 0) (hopt : Minimises2 opt) (maxIter : ℕ) (hmax : 0 < maxIter) (epsilon : ℝ) (heps : epsilon < 1) :
    Consistent P (fun t ω => (gmErrorHom opt (W t) (x t) (y t ω) maxIter epsilon a1).toOption.map fun f => f.betas) beta ∧
    Consistent P (fun t ω => (gmErrorHom opt (W t) (x t) (y t ω) maxIter epsilon a1).toOption.map fun f (_ : Unit) => f.lam) (fun _ => lam) ∧
    Consistent P (fun t ω => (gmErrorHom opt (W t) (x t) (y t ω) maxIter epsilon a1).toOption.map fun f (p : k × k) => Fintype.card (n t) * f.vm (Sum.inl p.1) (Sum.inl p.2))
      (fun p => s * (q 0 0 - lam • q 0 1 - lam • q 1 0 + lam ^ 2 • q 1 1)⁻¹ p.1 p.2) ∧
    Consistent P (fun t ω => (gmErrorHom opt (W t) (x t) (y t ω) maxIter epsilon a1).toOption.map fun f (_ : Unit) => Fintype.card (n t) * f.vm (Sum.inr ()) (Sum.inr ()))
      (fun _ => (((Matrix.of fun a (_ : Unit) => G a 0 + 2 * lam * G a 1)ᵀ * (Psi⁻¹ * (Matrix.of fun a (_ : Unit) => G a 0 + 2 * lam * G a 1)))⁻¹ : Matrix Unit Unit ℝ) () ()) ∧
    (a1 = "het" → Consistent P (fun t ω => (gmErrorHom opt (W t) (x t) (y t ω) maxIter epsilon a1).toOption.map fun f (i : k) => Fintype.card (n t) * f.vm (Sum.inl i) (Sum.inr ()))
      (fun _ => 0)) := by
  obtain ⟨bad, l, d, A, B, hbad, cl, cd, cA, cB, hf⟩ := hom_core h hq hm ha hdet hneg hPsi hreg hq0 hqs hopt maxIter hmax epsilon heps
  have hpr : ∀ t, IsProbabilityMeasure (P t) := fun t => (h.err t).prob
  have hc : ∀ t, (Fintype.card (n t) : ℝ) ≠ 0 := fun t => by exact_mod_cast (h.pos t).ne'
  refine ⟨?_, ?_, ?_, ?_, fun hh => ?_⟩
  · refine consistent_except (fun t ω => beta + d t ω) bad hbad (fun t ω hω => ?_) _ fun j => ?_
    · obtain ⟨f, D, e1, e2, -⟩ := hf t ω hω
      rw [e1, Option.map_some, e2]
    · exact conv_add (fun _ => beta j) (beta j) tendsto_const_nhds _ (cd j)
  · refine consistent_except (fun t ω _ => l t ω) bad hbad (fun t ω hω => ?_) _ fun _ => cl
    obtain ⟨f, D, e1, -, e2, -⟩ := hf t ω hω
    rw [e1, Option.map_some, e2]
  · refine consistent_except (k := k × k) (fun t ω (p : k × k) => A t ω p.1 p.2) bad hbad (fun t ω hω => ?_) _ fun p => cA p.1 p.2
    obtain ⟨f, D, e1, -, -, -, e2⟩ := hf t ω hω
    rw [e1, Option.map_some, e2]
    congr 1
    funext p
    rw [fromBlocks_apply₁₁, Matrix.smul_apply, smul_eq_mul, mul_inv_cancel_left₀ (hc t)]
  · refine consistent_except (fun t ω _ => B t ω () ()) bad hbad (fun t ω hω => ?_) _ fun _ => cB () ()
    obtain ⟨f, D, e1, -, -, -, e2⟩ := hf t ω hω
    rw [e1, Option.map_some, e2]
    congr 1
    funext p
    rw [fromBlocks_apply₂₂, Matrix.smul_apply, smul_eq_mul, mul_inv_cancel_left₀ (hc t)]
  · refine consistent_except (fun t ω _ => 0) bad hbad (fun t ω hω => ?_) _ fun _ => conv_const (P := P) (fun _ => 0) 0 tendsto_const_nhds
    obtain ⟨f, D, e1, -, -, e2, e3⟩ := hf t ω hω
    rw [e1, Option.map_some, e3, e2 hh]
    congr 1
    funext i
    rw [fromBlocks_apply₁₂]
    simp
end model
end Spreg.Consist
