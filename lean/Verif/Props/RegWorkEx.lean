import Verif.Props.RegWorkViol
/-
C177: runs that meet the hypotheses.
-/
set_option linter.unusedSectionVars false
namespace Spreg.RegWork
open Matrix Spreg Spreg.Lin Spreg.GM Spreg.Regimes Spreg.Multi Spreg.Local

/-- **C177 (a case, OLS).** -/
theorem C177_ols_example (x : ℕ → ℝ) (h0 : x 0 ≠ x 1) (h1 : x 2 ≠ x 3) :
    Varies (dropD x) [7, 3] 0 none ∧ (∃ p, olsRegimes false false (dropD x) [7, 3] ["x"] 0 none = .ok p) ∧
      ∀ x', x' 0 = x 0 → x' 1 = x 1 → SameAround (dropD x) (dropD x') 7 0 := by
  have i3 : regiIds [7, 7, 3, 3] 3 = [2, 3] := by decide
  have i7 : regiIds [7, 7, 3, 3] 7 = [0, 1] := by decide
  have hv : Varies (dropD x) [7, 3] 0 none := by
    intro names p hp c hc r hr
    cases hp
    obtain rfl : c = x := by simpa [dropD] using hc
    have hr : r = 7 ∨ r = 3 := by simpa using hr
    rcases hr with rfl | rfl
    · exact ⟨0, rfl, 1, rfl, h0⟩
    · exact ⟨2, rfl, 3, rfl, h1⟩
  refine ⟨hv, ?_, ?_⟩
  · have two : ∀ (a b : ℕ), x a ≠ x b → IsUnit ((matOf ((fun _ => 1) :: [x].map (rows [a, b])))ᵀ * matOf ((fun _ => 1) :: [x].map (rows [a, b]))).det := by
      intro a b hab
      refine (xtx_isUnit_iff _).2 fun u hu => ?_
      have h0 := congrFun hu (0 : Fin 2)
      have h1 := congrFun hu (1 : Fin 2)
      simp only [mulVec, dotProduct, Pi.zero_apply] at h0 h1
      erw [Fin.sum_univ_two] at h0 h1
      simp only [matOf, of_apply] at h0 h1
      replace h0 : u (0 : Fin 2) + x a * u (1 : Fin 2) = 0 := by simp at h0; exact h0
      replace h1 : u (0 : Fin 2) + x b * u (1 : Fin 2) = 0 := by simp at h1; exact h1
      have e : (x a - x b) * u (1 : Fin 2) = 0 := by linarith
      have u1 : u (1 : Fin 2) = 0 := (mul_eq_zero.1 e).resolve_left (sub_ne_zero.2 hab)
      have u0 : u (0 : Fin 2) = 0 := by rw [u1] at h0; linarith
      funext i
      revert i
      show ∀ i : Fin 2, u i = 0
      intro i
      fin_cases i
      · exact u0
      · exact u1
    have nc : ∀ c ∈ [x], ∀ r ∈ [7, 3], constOn (regiIds [7, 7, 3, 3] r) c = false := by
      intro c hc r hr
      exact constOn_false (D := dropD x) (hv ["x"] ([x], ["x"]) rfl c hc r hr)
    have hk : kept constOn [7, 3] [7, 7, 3, 3] [x] = [x] := by
      rw [kept, List.filter_eq_self]
      intro c hcc
      rw [List.all_eq_true]
      intro r hr
      simp [nc c hcc r hr]
    obtain ⟨m1, -, -, e1, -⟩ := ols_run (dropD x).y [0, 1] [x] (two 0 1 h0)
    obtain ⟨m2, -, -, e2, -⟩ := ols_run (dropD x).y [2, 3] [x] (two 2 3 h1)
    obtain ⟨nm, a, hok, -⟩ := C136_ols_tsls .ols (Or.inl rfl) 0 constOn [7, 3] [7, 7, 3, 3] ["x"] [x] (by simp) rfl
      (fun r cols => workOLS false false (dropD x).y (regiIds [7, 7, 3, 3] r) cols) (fun r hr => by
        rw [hk]
        have hr : r = 7 ∨ r = 3 := by simpa using hr
        rcases hr with rfl | rfl
        · exact ⟨m1, by rw [i7]; exact e1, (workOLS_sized _ _ _ _ _ _ e1).1⟩
        · exact ⟨m2, by rw [i3]; exact e2, (workOLS_sized _ _ _ _ _ _ e2).1⟩)
    exact ⟨_, hok⟩
  · intro x' e0 e1
    refine ⟨rfl, fun _ _ => rfl, .none, .none, .cons ?_ .nil, fun _ _ => rfl, fun _ _ => rfl, rfl, rfl, fun t ht => absurd ht (Nat.not_lt_zero t)⟩
    have hm : members (dropD x) 7 = {0, 1} := by
      ext a
      simp only [members, Set.mem_insert_iff, Set.mem_singleton_iff]
      show [7, 7, 3, 3][a]? = some 7 ↔ _
      rcases a with _ | _ | _ | _ | a <;> simp
    show SameOn (members (dropD x) 7) _ _
    rw [hm]
    rintro a (rfl | rfl)
    · exact e0.symm
    · exact e1.symm

theorem fit3 (y a c d : Fin 3 → ℝ) (hd : ∀ k : Fin 3 → ℝ, (∀ i, k 0 + k 1 * a i + k 2 * d i = 0) → k = 0)
    (hc : ∀ k : Fin 3 → ℝ, (∀ i, k 0 + k 1 * a i + k 2 * c i = 0) → k = 0) : ∃ m, fitTSLS .none' false y [a] [c] [d] = .ok m := by
  have mv : ∀ (e : Fin 3 → ℝ) (k : Fin 3 → ℝ) (i : Fin 3), ((matOf ((fun _ => 1) :: [a] ++ [e]) : Matrix (Fin 3) (Fin 3) ℝ) *ᵥ k) i =
      k 0 + k 1 * a i + k 2 * e i := by
    intro e k i
    simp [mulVec, dotProduct, Fin.sum_univ_three, matOf]
    ring
  set z : Matrix (Fin 3) (Fin 3) ℝ := matOf ((fun _ => 1) :: [a] ++ [c]) with hz
  set h : Matrix (Fin 3) (Fin 3) ℝ := matOf ((fun _ => 1) :: [a] ++ [d]) with hh
  have ih : ∀ w, h *ᵥ w = 0 → w = 0 := fun w hw => hd w fun i => by rw [← mv d w i]; exact congrFun hw i
  have iz : ∀ w, z *ᵥ w = 0 → w = 0 := fun w hw => hc w fun i => by rw [← mv c w i]; exact congrFun hw i
  have ut : ∀ w, hᵀ *ᵥ w = 0 → w = 0 := by
    intro w hw
    have u : IsUnit h := by
      rw [← mulVec_injective_iff_isUnit]
      exact (injective_iff_map_eq_zero (mulVecLin h)).2 ih
    have := (mulVec_injective_iff_isUnit (A := hᵀ)).2 ((isUnit_transpose h).2 u)
    exact this (by rw [hw, mulVec_zero])
  obtain ⟨f, hf⟩ := LagReg.tsls_ok z h y ih fun v hv => iz v (ut _ hv)
  have hE : tslsE z h y = .ok f := by rw [tslsE, hf]
  refine ⟨ofFit f.betas (Pooled.s2 false (Fintype.card (Fin 3)) f.u • f.varb) f.u f.predy, ?_⟩
  show (Pooled.tslsStep z h y false false).map _ = _
  rw [Pooled.tslsStep, hE]
  rfl

/-- Six observations: two regimes, each a circle of three. -/
noncomputable def lagD (y : ℕ → ℝ) : Data ℕ ℕ :=
  { y := y, x := [fun a => if a = 0 ∨ a = 3 then 1 else 0], yend := none, q := none, regimes := [0, 0, 0, 1, 1, 1],
    w := { ids := List.range 6, nb := fun i => [if i = 0 then 1 else if i = 1 then 2 else if i = 2 then 0 else if i = 3 then 4 else if i = 4 then 5 else 3],
           wt := fun _ _ => 1, tr := .O } }

/-- **C177 (a case, 2SLS with a spatial lag).** The run succeeds whenever the first and the last value of `y` differ in both regimes. -/
theorem C177_gmLag_example (y : ℕ → ℝ) (h0 : y 0 ≠ y 2) (h1 : y 3 ≠ y 5) :
    (∃ p, gmLagRegimes .none' false 1 true (lagD y) [0, 1] ["x"] 0 .all = .ok p) ∧
      ∀ y', y' 0 = y 0 → y' 1 = y 1 → y' 2 = y 2 → SameAround (lagD y) (lagD y') 0 0 := by
  have i0 : regiIds [0, 0, 0, 1, 1, 1] 0 = [0, 1, 2] := by decide
  have i1 : regiIds [0, 0, 0, 1, 1, 1] 1 = [3, 4, 5] := by decide
  constructor
  · set x : ℕ → ℝ := fun a => if a = 0 ∨ a = 3 then 1 else 0 with hx
    set w := (lagD y).w with hw
    have vec : ∀ k : Fin 3 → ℝ, k 0 = 0 → k 1 = 0 → k 2 = 0 → k = 0 := by
      intro k h0 h1 h2; funext i; fin_cases i <;> assumption
    -- the weights of a regime
    have sub : ∀ o, o = 0 ∨ o = 3 → wMat 3 ({ WReg.wSubset w [o, o + 1, o + 2] with tr := .O }) = !![0, 1, 0; 0, 0, 1; 1, 0, 0] := by
      rintro o (rfl | rfl) <;> ext i j <;> fin_cases i <;> fin_cases j <;>
        simp [wMat, entry, WReg.wSubset, WReg.W.eff, WReg.W.orig, hw, lagD]
    have fit : ∀ o, o = 0 ∨ o = 3 → y o ≠ y (o + 2) → ∃ m, workGMLag .none' false 0 1 true y none none { WReg.wSubset w [o, o + 1, o + 2] with tr := .O }
        [o, o + 1, o + 2] [x] = .ok m := by
      intro o ho hy
      have hxo : x o = 1 ∧ x (o + 1) = 0 ∧ x (o + 2) = 0 := by rcases ho with rfl | rfl <;> simp [hx]
      set W : Matrix (Fin 3) (Fin 3) ℝ := wMat 3 { WReg.wSubset w [o, o + 1, o + 2] with tr := .O } with hW
      rw [sub o ho] at hW
      have lagv : ∀ c : ℕ → ℝ, (W *ᵥ rows [o, o + 1, o + 2] c : Fin 3 → ℝ) = ![c (o + 1), c (o + 2), c o] := by
        intro c
        have r : (rows [o, o + 1, o + 2] c : Fin 3 → ℝ) = ![c o, c (o + 1), c (o + 2)] := by
          funext i; fin_cases i <;> rfl
        rw [r, hW]
        funext i
        fin_cases i <;> simp [mulVec, dotProduct, Fin.sum_univ_three]
      have rx : (rows [o, o + 1, o + 2] x : Fin 3 → ℝ) = ![1, 0, 0] := by
        funext i; fin_cases i
        · exact hxo.1
        · exact hxo.2.1
        · exact hxo.2.2
      have := fit3 (rows [o, o + 1, o + 2] y) ![1, 0, 0] ![y (o + 1), y (o + 2), y o] ![0, 0, 1]
        (fun k hk => by
          have e0 := hk 0; have e1 := hk 1; have e2 := hk 2
          simp at e0 e1 e2
          exact vec k (by linarith) (by linarith) (by linarith))
        (fun k hk => by
          have e0 := hk 0; have e1 := hk 1; have e2 := hk 2
          simp at e0 e1 e2
          have : k 2 * (y o - y (o + 2)) = 0 := by linarith
          have k2 : k 2 = 0 := (mul_eq_zero.1 this).resolve_right (sub_ne_zero.2 hy)
          rw [k2] at e0 e1
          exact vec k (by linarith) (by linarith) k2)
      obtain ⟨m, hm⟩ := this
      refine ⟨m, ?_⟩
      have e : workGMLag .none' false 0 1 true y none none { WReg.wSubset w [o, o + 1, o + 2] with tr := .O } [o, o + 1, o + 2] [x] =
          fitTSLS (m := 3) .none' false (rows [o, o + 1, o + 2] y) [(rows [o, o + 1, o + 2] x : Fin 3 → ℝ)]
            [(W *ᵥ rows [o, o + 1, o + 2] y : Fin 3 → ℝ)] [(W *ᵥ rows [o, o + 1, o + 2] x : Fin 3 → ℝ)] := by
        rw [hW, ← sub o ho]
        rfl
      rw [e, lagv, lagv, rx, hxo.1, hxo.2.1, hxo.2.2]
      exact hm
    obtain ⟨m0, t0⟩ := fit 0 (Or.inl rfl) h0
    obtain ⟨m1, t1⟩ := fit 3 (Or.inr rfl) h1
    have hwi : ∃ wi, WReg.wRegimes w [0, 0, 0, 1, 1, 1] [0, 1] true (some 3) = .ok wi ∧
        WReg.getW wi.1 0 = .ok { WReg.wSubset w [0, 1, 2] with tr := .O } ∧ WReg.getW wi.1 1 = .ok { WReg.wSubset w [3, 4, 5] with tr := .O } :=
      ⟨_, rfl, rfl, rfl⟩
    obtain ⟨wi, hwi, g0, g1⟩ := hwi
    set est : ℕ → List (ℕ → ℝ) → Py (RegRes ℝ) := fun r cols => do
      let wr ← WReg.getW wi.1 r
      workGMLag .none' false 0 1 true y none none wr (regiIds [0, 0, 0, 1, 1, 1] r) cols with hest
    have s0 : est 0 [x] = .ok m0 := by
      simp only [hest, g0, i0]
      exact t0
    have s1 : est 1 [x] = .ok m1 := by
      simp only [hest, g1, i1]
      exact t1
    have sz : ∀ r cs m, est r cs = .ok m → Sized .gmLag 0 cs.length m := by
      intro r cs m hm
      obtain ⟨wr, -, h2⟩ := bind_ok hm
      exact (workGMLag_sized _ _ _ _ _ _ _ _ _ _ _ _ h2 0 (by simp)).1
    have nc : ∀ c ∈ [x], ∀ r ∈ [0, 1], constOn (regiIds [0, 0, 0, 1, 1, 1] r) c = false := by
      intro c hc r hr
      obtain rfl : c = x := by simpa using hc
      have hr : r = 0 ∨ r = 1 := by simpa using hr
      refine constOn_false (D := lagD y) ?_
      rcases hr with rfl | rfl
      · exact ⟨0, rfl, 1, rfl, by simp [hx]⟩
      · exact ⟨3, rfl, 4, rfl, by simp [hx]⟩
    have hk : kept constOn [0, 1] [0, 0, 0, 1, 1, 1] [x] = [x] := by
      rw [kept, List.filter_eq_self]
      intro c hcc
      rw [List.all_eq_true]
      intro r hr
      simp [nc c hcc r hr]
    obtain ⟨p, hok⟩ := (C136_violated .gmLag (by simp) (by simp) 0 constOn [0, 1] [0, 0, 0, 1, 1, 1] (by simp) ["x"] [x] est
      (fun r hr => by
        rw [hk]
        have hr : r = 0 ∨ r = 1 := by simpa using hr
        rcases hr with rfl | rfl
        · exact ⟨_, s0, sz _ _ _ s0⟩
        · exact ⟨_, s1, sz _ _ _ s1⟩)).1 nc
    refine ⟨p, ?_⟩
    have hwi' : WReg.wRegimes (lagD y).w (lagD y).regimes [0, 1] true (some ([x].length + ((lagD y).yend.getD []).length + 2)) = .ok wi := hwi
    have pre : gmLagPre (lagD y) 1 true 0 .all = .ok ([x], none, none) := rfl
    rw [gmLagRegimes, pre]
    simp only [bind, Except.bind]
    rw [hwi']
    exact hok
  · intro y' e0 e1 e2
    refine ⟨rfl, ?_, .none, .none, .cons (fun _ _ => rfl) .nil, fun _ _ => rfl, fun _ _ => rfl, rfl, rfl, fun t ht => absurd ht (Nat.not_lt_zero t)⟩
    have hm : members (lagD y) 0 = {0, 1, 2} := by
      ext a
      simp only [members, Set.mem_insert_iff, Set.mem_singleton_iff]
      show [0, 0, 0, 1, 1, 1][a]? = some 0 ↔ _
      rcases a with _ | _ | _ | _ | _ | _ | a <;> simp
    rw [hm]
    rintro a (rfl | rfl | rfl)
    · exact e0.symm
    · exact e1.symm
    · exact e2.symm

end Spreg.RegWork
