import Verif.Props.RegWorkLag
/-
C177: data sets that agree around a regime and for which the results of the regime differ.
-/
set_option linter.unusedSectionVars false
namespace Spreg.RegWork
open Matrix Spreg Spreg.Lin Spreg.GM Spreg.Regimes Spreg.Multi Spreg.Local

/-! ### A variable that is constant in another regime -/

/-- As `lineD`, with the values `x` of the regressor; the first regime has y = 0, 2. -/
noncomputable def dropD (x : ℕ → ℝ) : Data ℕ ℕ := { lineD (fun a => if a = 1 then 2 else if a = 3 then 1 else 0) (fun _ _ => 1) with x := [x] }

theorem ols_run (y : ℕ → ℝ) (ids : List ℕ) (x : List (ℕ → ℝ))
    (h : IsUnit ((matOf ((fun _ => 1) :: x.map (rows ids)))ᵀ * matOf ((fun _ => 1) :: x.map (rows ids))).det) :
    ∃ (m : RegRes ℝ) (b : Fin ((fun _ => 1) :: x.map (rows ids)).length → ℝ) (u : Fin ids.length → ℝ), workOLS false false y ids x = .ok m ∧ m.u = List.ofFn u ∧
      u = rows ids y - matOf ((fun _ => 1) :: x.map (rows ids)) *ᵥ b ∧ (matOf ((fun _ => 1) :: x.map (rows ids)))ᵀ *ᵥ u = 0 := by
  have ho := ols_of_isUnit _ (rows ids y) h
  simp only [workOLS, olsE, ho]
  exact ⟨_, _, _, rfl, rfl, rfl, normal_eq _ _ h⟩

theorem fit4 (y a b c d : Fin 4 → ℝ)
    (hd : ∀ k : Fin 4 → ℝ, (∀ i, k 0 + k 1 * a i + k 2 * b i + k 3 * d i = 0) → k = 0)
    (hc : ∀ k : Fin 4 → ℝ, (∀ i, k 0 + k 1 * a i + k 2 * b i + k 3 * c i = 0) → k = 0) :
    ∃ m, fitTSLS .none' false y [a, b] [c] [d] = .ok m ∧ ∀ i, m.betas 0 + m.betas 1 * a i + m.betas 2 * b i + m.betas 3 * c i = y i := by
  have mv : ∀ (e : Fin 4 → ℝ) (k : Fin 4 → ℝ) (i : Fin 4), ((matOf ((fun _ => 1) :: [a, b] ++ [e]) : Matrix (Fin 4) (Fin 4) ℝ) *ᵥ k) i =
      k 0 + k 1 * a i + k 2 * b i + k 3 * e i := by
    intro e k i
    simp [mulVec, dotProduct, Fin.sum_univ_four, matOf]
    ring
  set z : Matrix (Fin 4) (Fin 4) ℝ := matOf ((fun _ => 1) :: [a, b] ++ [c]) with hz
  set h : Matrix (Fin 4) (Fin 4) ℝ := matOf ((fun _ => 1) :: [a, b] ++ [d]) with hh
  have ih : ∀ w, h *ᵥ w = 0 → w = 0 := fun w hw => hd w fun i => by rw [← mv d w i]; exact congrFun hw i
  have iz : ∀ w, z *ᵥ w = 0 → w = 0 := fun w hw => hc w fun i => by rw [← mv c w i]; exact congrFun hw i
  have unit : ∀ A : Matrix (Fin 4) (Fin 4) ℝ, (∀ w, A *ᵥ w = 0 → w = 0) → IsUnit A := fun A hA => by
    rw [← mulVec_injective_iff_isUnit]
    exact (injective_iff_map_eq_zero (mulVecLin A)).2 hA
  have ut : ∀ w, hᵀ *ᵥ w = 0 → w = 0 := by
    intro w hw
    have := (mulVec_injective_iff_isUnit (A := hᵀ)).2 ((isUnit_transpose h).2 (unit h ih))
    exact this (by rw [hw, mulVec_zero])
  obtain ⟨f, hf⟩ := LagReg.tsls_ok z h y ih fun v hv => iz v (ut _ hv)
  have foc := tslsZH_foc hf
  obtain ⟨u1, -, -, -, -, -, hp, hu⟩ := tslsZH_facts hf
  have u0 : f.u = 0 := by
    refine ut _ ?_
    have key : IsUnit (zᵀ * h * (hᵀ * h)⁻¹) := by
      refine ((isUnit_transpose z).2 (unit z iz)).mul (unit h ih) |>.mul ?_
      rw [isUnit_nonsing_inv_iff, isUnit_iff_isUnit_det]
      exact u1
    exact (mulVec_injective_iff_isUnit.2 key) (by rw [foc, mulVec_zero])
  have hzb : ∀ i, (z *ᵥ f.betas) i = y i := fun i => by
    have := congrFun (u0.symm.trans hu) i
    rw [hp, Pi.zero_apply, Pi.sub_apply] at this
    linarith
  have hE : tslsE z h y = .ok f := by rw [tslsE, hf]
  refine ⟨ofFit f.betas (Pooled.s2 false (Fintype.card (Fin 4)) f.u • f.varb) f.u f.predy, ?_, fun i => ?_⟩
  · show (Pooled.tslsStep z h y false false).map _ = _
    rw [Pooled.tslsStep, hE]
    rfl
  · rw [← hzb i, mv c]
    rfl

/-- **C177 does not hold for OLS (nor 2SLS) when a variable is constant in another regime.** The two data sets differ in the regressor in
regime 3 only; in the second it does not vary there, and the model of regime 7 is estimated without it. -/
theorem C177_constant_violated : ∃ (x x' : ℕ → ℝ) (nm nm' : List String) (a a' : Asm ℝ),
    SameAround (dropD x) (dropD x') 7 0 ∧
    olsRegimes false false (dropD x) [7, 3] ["x"] 0 none = .ok (nm, a) ∧ olsRegimes false false (dropD x') [7, 3] ["x"] 0 none = .ok (nm', a') ∧
    a.u[0]? = some (0 : ℝ) ∧ a'.u[0]? = some (-1 : ℝ) := by
  have i3 : regiIds [7, 7, 3, 3] 3 = [2, 3] := by decide
  have i7 : regiIds [7, 7, 3, 3] 7 = [0, 1] := by decide
  set y : ℕ → ℝ := fun a => if a = 1 then 2 else if a = 3 then 1 else 0 with hy
  set x : ℕ → ℝ := fun a => a with hx
  set x' : ℕ → ℝ := fun a => if a = 1 then 1 else if a = 0 then 0 else 5 with hx'
  have hm : members (dropD x) 7 = {0, 1} := by
    ext a
    simp only [members, Set.mem_insert_iff, Set.mem_singleton_iff]
    show [7, 7, 3, 3][a]? = some 7 ↔ _
    rcases a with _ | _ | _ | _ | a <;> simp
  have hsame : SameAround (dropD x) (dropD x') 7 0 := by
    refine ⟨rfl, fun _ _ => rfl, .none, .none, .cons ?_ .nil, fun _ _ => rfl, fun _ _ => rfl, rfl, rfl, fun t ht => absurd ht (Nat.not_lt_zero t)⟩
    show SameOn (members (dropD x) 7) _ _
    rw [hm]
    rintro a (rfl | rfl) <;> simp [hx, hx']
  -- designs of two observations
  have two : ∀ (a b : ℕ), a ≠ b → IsUnit ((matOf ((fun _ => 1) :: [x].map (rows [a, b])))ᵀ * matOf ((fun _ => 1) :: [x].map (rows [a, b]))).det := by
    intro a b hab
    refine (xtx_isUnit_iff _).2 fun u hu => ?_
    have h0 := congrFun hu (0 : Fin 2)
    have h1 := congrFun hu (1 : Fin 2)
    simp only [mulVec, dotProduct, Pi.zero_apply] at h0 h1
    erw [Fin.sum_univ_two] at h0 h1
    simp only [matOf, of_apply] at h0 h1
    replace h0 : u (0 : Fin 2) + (a : ℝ) * u (1 : Fin 2) = 0 := by simp at h0; exact h0
    replace h1 : u (0 : Fin 2) + (b : ℝ) * u (1 : Fin 2) = 0 := by simp at h1; exact h1
    have e : ((a : ℝ) - b) * u (1 : Fin 2) = 0 := by linarith
    have hab' : (a : ℝ) - b ≠ 0 := sub_ne_zero.2 (by exact_mod_cast hab)
    have u1 : u (1 : Fin 2) = 0 := (mul_eq_zero.1 e).resolve_left hab'
    have u0 : u (0 : Fin 2) = 0 := by rw [u1] at h0; linarith
    funext i
    revert i
    show ∀ i : Fin 2, u i = 0
    intro i
    fin_cases i
    · exact u0
    · exact u1
  have one : ∀ (a b : ℕ), IsUnit ((matOf ((fun _ => 1) :: ([] : List (ℕ → ℝ)).map (rows [a, b])))ᵀ * matOf ((fun _ => 1) :: ([] : List (ℕ → ℝ)).map (rows [a, b]))).det := by
    intro a b
    refine (xtx_isUnit_iff _).2 fun u hu => ?_
    have h0 := congrFun hu (0 : Fin 2)
    simp only [mulVec, dotProduct, Pi.zero_apply] at h0
    erw [Fin.sum_univ_one] at h0
    simp only [matOf, of_apply] at h0
    replace h0 : u (0 : Fin 1) = 0 := by simp at h0; exact h0
    funext i
    revert i
    show ∀ i : Fin 1, u i = 0
    intro i
    rw [Subsingleton.elim i 0]; exact h0
  have k1 : kept constOn [7, 3] [7, 7, 3, 3] [x] = [x] := by
    have c1 : ∀ a b : ℕ, a ≠ b → constOn [a, b] x = false := by
      intro a b hab
      simp only [constOn, decide_eq_false_iff_not]
      intro h
      have := h a (by simp) b (by simp)
      simp only [hx] at this
      exact hab (by exact_mod_cast this)
    simp [kept, i3, i7, c1]
  have k2 : kept constOn [7, 3] [7, 7, 3, 3] [x'] = [] := by
    have c1 : constOn [2, 3] x' = true := by
      simp only [constOn, decide_eq_true_eq]
      intro a ha b hb
      have : a = 2 ∨ a = 3 := by simpa using ha
      have : b = 2 ∨ b = 3 := by simpa using hb
      rcases ‹a = 2 ∨ a = 3› with rfl | rfl <;> rcases ‹b = 2 ∨ b = 3› with rfl | rfl <;> simp [hx']
    simp [kept, i3, i7, c1]
  -- one regime at a time
  obtain ⟨m1, b1, u1, e1, eu1, -, n1⟩ := ols_run y [0, 1] [x] (two 0 1 (by simp))
  obtain ⟨m1', b1', u1', e1', eu1', ev1', n1'⟩ := ols_run y [0, 1] [] (one 0 1)
  have v1 : u1 (0 : Fin 2) = 0 := by
    have h0 := congrFun n1 (0 : Fin 2)
    have h1 := congrFun n1 (1 : Fin 2)
    simp only [mulVec, dotProduct, Pi.zero_apply] at h0 h1
    erw [Fin.sum_univ_two] at h0 h1
    simp only [matOf, of_apply, transpose_apply] at h0 h1
    replace h0 : u1 (0 : Fin 2) + u1 (1 : Fin 2) = 0 := by simp at h0; exact h0
    replace h1 : ((0 : ℕ) : ℝ) * u1 (0 : Fin 2) + ((1 : ℕ) : ℝ) * u1 (1 : Fin 2) = 0 := by exact h1
    push_cast at h1
    linarith
  have v1' : u1' (0 : Fin 2) = -1 := by
    have h0 := congrFun n1' (0 : Fin 1)
    simp only [mulVec, dotProduct, Pi.zero_apply] at h0
    erw [Fin.sum_univ_two] at h0
    simp only [matOf, of_apply, transpose_apply] at h0
    replace h0 : u1' (0 : Fin 2) + u1' (1 : Fin 2) = 0 := by simp at h0; exact h0
    have g0 := congrFun ev1' (0 : Fin 2)
    have g1 := congrFun ev1' (1 : Fin 2)
    simp only [mulVec, dotProduct, Pi.sub_apply] at g0 g1
    erw [Fin.sum_univ_one] at g0 g1
    simp only [matOf, of_apply] at g0 g1
    replace g0 : u1' (0 : Fin 2) = 0 - b1' (0 : Fin 1) := by simp [rows, hy] at g0; simpa using g0
    replace g1 : u1' (1 : Fin 2) = 2 - b1' (0 : Fin 1) := by simp [rows, hy] at g1; simpa using g1
    linarith
  have run : ∀ (x0 : ℕ → ℝ) (cols : List (ℕ → ℝ)), kept constOn [7, 3] [7, 7, 3, 3] [x0] = cols → ∀ m m2, workOLS false false y [0, 1] cols = .ok m →
      workOLS false false y [2, 3] cols = .ok m2 → ∃ nm a, multi .ols 0 constOn [7, 3] [7, 7, 3, 3] ["x"] [x0]
        (fun r cols => workOLS false false y (regiIds [7, 7, 3, 3] r) cols) = .ok (nm, a) ∧ a.u[0]? = m.u[0]? := by
    intro x0 cols hk m m2 hm hm2
    have hex : ∀ r ∈ [7, 3], ∃ m, workOLS false false y (regiIds [7, 7, 3, 3] r) (kept constOn [7, 3] [7, 7, 3, 3] [x0]) = .ok m ∧
        Sized .ols 0 (kept constOn [7, 3] [7, 7, 3, 3] [x0]).length m := by
      intro r hr
      rw [hk]
      rcases List.mem_cons.1 hr with rfl | hr
      · rw [i7]; exact ⟨m, hm, (workOLS_sized _ _ _ _ _ _ hm).1⟩
      · rw [List.mem_singleton.1 hr, i3]; exact ⟨m2, hm2, (workOLS_sized _ _ _ _ _ _ hm2).1⟩
    obtain ⟨nm, a, hok, -⟩ := C136_ols_tsls .ols (Or.inl rfl) 0 constOn [7, 3] [7, 7, 3, 3] ["x"] [x0] (by simp) rfl
      (fun r cols => workOLS false false y (regiIds [7, 7, 3, 3] r) cols) hex
    refine ⟨_, a, hok, ?_⟩
    obtain ⟨ms, hl, H⟩ := C135_assembly .ols 0 constOn [7, 3] [7, 7, 3, 3] (by simp) ["x"] [x0] _ _ a
      (fun r _ m h => workOLS_sized _ _ _ _ _ _ h) hok (Or.inl rfl)
    obtain ⟨g1, -, -, -, g5, -⟩ := H 0 (by simp) (by rw [hl]; simp)
    have g1' : workOLS false false y (regiIds [7, 7, 3, 3] 7) (kept constOn [7, 3] [7, 7, 3, 3] [x0]) = .ok _ := g1
    rw [hk, i7, hm] at g1'
    have em := Except.ok.inj g1'
    rw [← em] at g5
    have g5' : (regiIds [7, 7, 3, 3] 7).map (fun i => a.u[i]?) = m.u.map some := g5
    rw [i7] at g5'
    have := congrArg (fun l => l[0]?) g5'
    simp only [List.map_cons, List.getElem?_cons_zero, List.getElem?_map] at this
    cases hm0 : m.u[0]? with
    | none => rw [hm0] at this; cases this
    | some v => rw [hm0] at this; exact Option.some.inj this
  obtain ⟨m2, b2, u2, e2, -, -, -⟩ := ols_run y [2, 3] [x] (two 2 3 (by simp))
  obtain ⟨m2', b2', u2', e2', -, -, -⟩ := ols_run y [2, 3] [] (one 2 3)
  obtain ⟨nm, a, ok, h0⟩ := run x [x] k1 m1 m2 e1 e2
  obtain ⟨nm', a', ok', h0'⟩ := run x' [] k2 m1' m2' e1' e2'
  refine ⟨x, x', nm, nm', a, a', hsame, ok, ok', ?_, ?_⟩
  · rw [h0, eu1, ← v1]; rfl
  · rw [h0', eu1', ← v1']; rfl

/-! ### The spatial lag with spatially lagged regressors -/

/-- The neighbour of each of eight observations: four of regime 0 and four of regime 1, and each is linked to one of the other regime. -/
def nbr : ℕ → ℕ
  | 0 => 4 | 1 => 5 | 2 => 6 | 3 => 7 | 4 => 2 | 5 => 3 | 6 => 0 | _ => 1

/-- Eight observations; `v` is the value of the dependent variable at observation 6, in regime 1. -/
noncomputable def durD (v : ℝ) : Data ℕ ℕ :=
  { y := fun a => if a = 2 then 1 else if a = 6 then v else 0, x := [fun a => if a = 0 ∨ a = 5 then 1 else 0], yend := none, q := none,
    regimes := [0, 0, 0, 0, 1, 1, 1, 1],
    w := { ids := List.range 8, nb := fun i => [nbr i], wt := fun _ _ => 1, tr := .O } }

theorem dur_lag (v : ℝ) (c : ℕ → ℝ) (a : ℕ) (ha : a < 8) : lagC (durD v).w c a = c (nbr a) := by
  have e : ∀ b, b < 8 → entry (durD v).w a b = if b = nbr a then 1 else 0 := by
    intro b hb
    simp [entry, durD, WReg.W.eff, WReg.W.orig, ha, hb]
  have h8 : (durD v).w.ids.length = 8 := rfl
  have e2 : (List.range 8).map (fun b => entry (durD v).w a b * c b) = (List.range 8).map fun b => (if b = nbr a then 1 else 0) * c b :=
    List.map_congr_left fun b hb => by rw [e b (List.mem_range.1 hb)]
  rw [lagC, h8, e2]
  have h : nbr a < 8 := by
    unfold nbr; split <;> norm_num
  generalize nbr a = k at h
  interval_cases k <;> simp [List.range_succ]

/-- **C177 does not hold for the spatial lag model with spatially lagged regressors** (`GM_Lag_Regimes`, `slx_lags=1`,
`regime_lag_sep=True`, `regime_err_sep=True`): the spatial lag of the dependent variable is the one for the complete weights. The data sets
differ in the dependent variable of one observation of regime 1; the coefficient of the spatial lag in regime 0 is 1 for the first and 1/2
for the second. -/
theorem C177_durbin_violated : (∀ n, SameAround (durD 1) (durD 2) 0 n) ∧
    ∃ (nm nm' : List String) (a a' : Asm ℝ),
      gmLagRegimes .none' false 1 true (durD 1) [0, 1] ["x", "W_x"] 1 .all = .ok (nm, a) ∧
      gmLagRegimes .none' false 1 true (durD 2) [0, 1] ["x", "W_x"] 1 .all = .ok (nm', a') ∧ a.betas 3 = 1 ∧ a'.betas 3 = 1 / 2 := by
  have i0 : regiIds [0, 0, 0, 0, 1, 1, 1, 1] 0 = [0, 1, 2, 3] := by decide
  have i1 : regiIds [0, 0, 0, 0, 1, 1, 1, 1] 1 = [4, 5, 6, 7] := by decide
  constructor
  · intro n
    have hm : members (durD 1) 0 = {0, 1, 2, 3} := by
      ext a
      simp only [members, Set.mem_insert_iff, Set.mem_singleton_iff]
      show [0, 0, 0, 0, 1, 1, 1, 1][a]? = some 0 ↔ _
      rcases a with _ | _ | _ | _ | _ | _ | _ | _ | a <;> simp
    refine ⟨rfl, ?_, .none, .none, .cons (fun _ _ => rfl) .nil, fun _ _ => rfl, fun _ _ => rfl, rfl, rfl, fun _ _ _ _ _ => rfl⟩
    rw [hm]
    rintro a (rfl | rfl | rfl | rfl) <;> simp [durD]
  · have run : ∀ v : ℝ, v ≠ 0 → ∃ nm a, gmLagRegimes .none' false 1 true (durD v) [0, 1] ["x", "W_x"] 1 .all = .ok (nm, a) ∧ a.betas 3 = 1 / v := by
      intro v hv
      set y := (durD v).y with hy
      set x : ℕ → ℝ := fun a => if a = 0 ∨ a = 5 then 1 else 0 with hx
      set w := (durD v).w with hw
      have pre : gmLagPre (durD v) 1 true 1 .all = .ok ([x, lagC w x], some [lagC w y], some [lagC w (lagC w x)]) := rfl
      have L1 : ∀ c a, a < 8 → lagC w c a = c (nbr a) := dur_lag v
      have nl : ∀ a, nbr a < 8 := by intro a; unfold nbr; split <;> norm_num
      have col : ∀ i : Fin 4, (x i = if i = 0 then 1 else 0) ∧ (lagC w x i = if i = 1 then 1 else 0) ∧ (lagC w y i = if i = 2 then v else 0) ∧
          (lagC w (lagC w x) i = if i = 2 then 1 else 0) ∧ (y i = if i = 2 then 1 else 0) := by
        intro i
        have h8 : (i : ℕ) < 8 := by omega
        rw [L1 _ _ h8, L1 _ _ h8, L1 _ _ h8, L1 _ _ (nl _)]
        fin_cases i <;> simp [hx, hy, durD, nbr]
      have col' : ∀ i : Fin 4, (x (4 + i) = if i = 1 then 1 else 0) ∧ (lagC w x (4 + i) = if i = 2 then 1 else 0) ∧ (lagC w y (4 + i) = if i = 0 then 1 else 0) ∧
          (lagC w (lagC w x) (4 + i) = if i = 3 then 1 else 0) := by
        intro i
        have h8 : 4 + (i : ℕ) < 8 := by omega
        rw [L1 _ _ h8, L1 _ _ h8, L1 _ _ h8, L1 _ _ (nl _)]
        fin_cases i <;> simp [hx, hy, durD, nbr]
      have r0 : ∀ c : ℕ → ℝ, rows [0, 1, 2, 3] c = fun i : Fin 4 => c i := by
        intro c; funext i; revert i
        show ∀ i : Fin 4, _
        intro i; fin_cases i <;> rfl
      have r1 : ∀ c : ℕ → ℝ, rows [4, 5, 6, 7] c = fun i : Fin 4 => c (4 + i) := by
        intro c; funext i; revert i
        show ∀ i : Fin 4, _
        intro i; fin_cases i <;> rfl
      have vec : ∀ k : Fin 4 → ℝ, k 0 = 0 → k 1 = 0 → k 2 = 0 → k 3 = 0 → k = 0 := by
        intro k h0 h1 h2 h3; funext i; fin_cases i <;> assumption
      obtain ⟨m0, e0, f0⟩ := fit4 (fun i => y i) (fun i => x i) (fun i => lagC w x i) (fun i => lagC w y i) (fun i => lagC w (lagC w x) i)
        (fun k hk => by
          have h0 := hk 0; have h1 := hk 1; have h2 := hk 2; have h3 := hk 3
          rw [(col _).1, (col _).2.1, (col _).2.2.2.1] at h0 h1 h2 h3
          simp at h0 h1 h2 h3
          exact vec k h3 (by linarith) (by linarith) (by linarith))
        (fun k hk => by
          have h0 := hk 0; have h1 := hk 1; have h2 := hk 2; have h3 := hk 3
          rw [(col _).1, (col _).2.1, (col _).2.2.1] at h0 h1 h2 h3
          simp at h0 h1 h2 h3
          have : k 3 * v = 0 := by linarith
          exact vec k h3 (by linarith) (by linarith) ((mul_eq_zero.1 this).resolve_right hv))
      obtain ⟨m1, e1, -⟩ := fit4 (fun i => y (4 + i)) (fun i => x (4 + i)) (fun i => lagC w x (4 + i)) (fun i => lagC w y (4 + i))
        (fun i => lagC w (lagC w x) (4 + i))
        (fun k hk => by
          have h0 := hk 0; have h1 := hk 1; have h2 := hk 2; have h3 := hk 3
          rw [(col' _).1, (col' _).2.1, (col' _).2.2.2] at h0 h1 h2 h3
          simp at h0 h1 h2 h3
          exact vec k h0 (by linarith) (by linarith) (by linarith))
        (fun k hk => by
          have h0 := hk 0; have h1 := hk 1; have h2 := hk 2; have h3 := hk 3
          rw [(col' _).1, (col' _).2.1, (col' _).2.2.1] at h0 h1 h2 h3
          simp at h0 h1 h2 h3
          exact vec k h3 (by linarith) (by linarith) (by linarith))
      have rho : m0.betas 3 = 1 / v := by
        have h2 := f0 2
        have h3 := f0 3
        rw [(col _).1, (col _).2.1, (col _).2.2.1, (col _).2.2.2.2] at h2 h3
        simp at h2 h3
        rw [eq_div_iff hv]; linarith
      have hwi : ∃ wi w0 w1, WReg.wRegimes w [0, 0, 0, 0, 1, 1, 1, 1] [0, 1] true (some 4) = .ok wi ∧ WReg.getW wi.1 0 = .ok w0 ∧ WReg.getW wi.1 1 = .ok w1 :=
        ⟨_, _, _, rfl, rfl, rfl⟩
      obtain ⟨wi, w0, w1, hwi, g0, g1⟩ := hwi
      set est : ℕ → List (ℕ → ℝ) → Py (RegRes ℝ) := fun r cols => do
        let wr ← WReg.getW wi.1 r
        workGMLag .none' false 1 1 true y (some [lagC w y]) (some [lagC w (lagC w x)]) wr (regiIds [0, 0, 0, 0, 1, 1, 1, 1] r) cols with hest
      have t0 : est 0 [x, lagC w x] = .ok m0 := by
        simp only [hest, g0, i0]
        show fitTSLS .none' false (rows [0, 1, 2, 3] y) [rows [0, 1, 2, 3] x, rows [0, 1, 2, 3] (lagC w x)] [rows [0, 1, 2, 3] (lagC w y)]
          [rows [0, 1, 2, 3] (lagC w (lagC w x))] = _
        simp only [r0]
        exact e0
      have t1 : est 1 [x, lagC w x] = .ok m1 := by
        simp only [hest, g1, i1]
        show fitTSLS .none' false (rows [4, 5, 6, 7] y) [rows [4, 5, 6, 7] x, rows [4, 5, 6, 7] (lagC w x)] [rows [4, 5, 6, 7] (lagC w y)]
          [rows [4, 5, 6, 7] (lagC w (lagC w x))] = _
        simp only [r1]
        exact e1
      have sz : ∀ r cs m, est r cs = .ok m → Sized .gmLag 0 cs.length m ∧ m.u.length = (regiIds [0, 0, 0, 0, 1, 1, 1, 1] r).length ∧
          m.predy.length = (regiIds [0, 0, 0, 0, 1, 1, 1, 1] r).length := by
        intro r cs m hm
        obtain ⟨wr, -, h2⟩ := bind_ok hm
        exact workGMLag_sized _ _ _ _ _ _ _ _ _ _ _ _ h2 0 (by simp)
      have cf : ∀ (ids : List ℕ) (c : ℕ → ℝ) (a b : ℕ), a ∈ ids → b ∈ ids → c a ≠ c b → constOn ids c = false := by
        intro ids c a b ha hb hab
        simp only [constOn, decide_eq_false_iff_not]
        exact fun h => hab (h a ha b hb)
      have nc : ∀ c ∈ [x, lagC w x], ∀ r ∈ [0, 1], constOn (regiIds [0, 0, 0, 0, 1, 1, 1, 1] r) c = false := by
        intro c hc r hr
        have hc : c = x ∨ c = lagC w x := by simpa using hc
        have hr : r = 0 ∨ r = 1 := by simpa using hr
        rcases hr with rfl | rfl
        · rw [i0]
          rcases hc with rfl | rfl
          · exact cf _ _ 0 1 (by simp) (by simp) (by simp [hx])
          · exact cf _ _ 1 0 (by simp) (by simp) (by rw [L1 _ _ (by norm_num), L1 _ _ (by norm_num)]; simp [hx, nbr])
        · rw [i1]
          rcases hc with rfl | rfl
          · exact cf _ _ 5 4 (by simp) (by simp) (by simp [hx])
          · exact cf _ _ 6 4 (by simp) (by simp) (by rw [L1 _ _ (by norm_num), L1 _ _ (by norm_num)]; simp [hx, nbr])
      have hk : kept constOn [0, 1] [0, 0, 0, 0, 1, 1, 1, 1] [x, lagC w x] = [x, lagC w x] := by
        rw [kept, List.filter_eq_self]
        intro c hcc
        rw [List.all_eq_true]
        intro r hr
        simp [nc c hcc r hr]
      obtain ⟨⟨nm, a⟩, hok⟩ := (C136_violated .gmLag (by simp) (by simp) 0 constOn [0, 1] [0, 0, 0, 0, 1, 1, 1, 1] (by simp) ["x", "W_x"] [x, lagC w x] est
        (fun r hr => by
          rw [hk]
          have hr : r = 0 ∨ r = 1 := by simpa using hr
          rcases hr with rfl | rfl
          · exact ⟨_, t0, (sz _ _ _ t0).1⟩
          · exact ⟨_, t1, (sz _ _ _ t1).1⟩)).1 nc
      refine ⟨nm, a, ?_, ?_⟩
      · rw [gmLagRegimes, pre]
        have hwi' : WReg.wRegimes (durD v).w (durD v).regimes [0, 1] true
            (some ([x, lagC w x].length + ((durD v).yend.getD []).length + 2)) = .ok wi := hwi
        simp only [bind, Except.bind]
        rw [hwi']
        exact hok
      · obtain ⟨ms, hl, H⟩ := C135_assembly .gmLag 0 constOn [0, 1] [0, 0, 0, 0, 1, 1, 1, 1] (by simp) ["x", "W_x"] [x, lagC w x] est nm a
          (fun r _ m h => sz r _ m h) hok (Or.inr (Or.inr nc))
        obtain ⟨q1, q2, -⟩ := H 0 (by simp) (by rw [hl]; simp)
        have q1' : est 0 (kept constOn [0, 1] [0, 0, 0, 0, 1, 1, 1, 1] [x, lagC w x]) = .ok _ := q1
        rw [hk, t0] at q1'
        have em := Except.ok.inj q1'
        rw [← em] at q2
        have h4 : 3 < m0.kb := by rw [(sz _ _ _ t0).1.1]; simp [Cls.ownB, Cls.ownV]
        have := q2 3 h4
        rw [Nat.zero_mul, Nat.zero_add, rho] at this
        exact this
    obtain ⟨nm, a, h1, h2⟩ := run 1 one_ne_zero
    obtain ⟨nm', a', h1', h2'⟩ := run 2 two_ne_zero
    exact ⟨nm, nm', a, a', h1, h1', by rw [h2]; norm_num, h2'⟩

end Spreg.RegWork
