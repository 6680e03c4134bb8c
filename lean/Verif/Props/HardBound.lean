import Verif.Model.HardBound
import Verif.Props.GMRegimes
import Verif.Props.LagRegimes
import Verif.Props.GMIter2
/-
What `hard_bound` guarantees (C164).
-/
set_option linter.unusedSectionVars false
namespace Spreg.HardBound
open Matrix Spreg Spreg.Lin Spreg.GM Spreg.LagReg

/-- Whatever `a` returns, `b` returns. -/
def Le {α : Type} (a b : Py α) : Prop := ∀ v, a = .ok v → b = .ok v

theorem Le.refl {α : Type} (a : Py α) : Le a a := fun _ h => h

theorem Le.bind {α β : Type} {a b : Py α} {f g : α → Py β} (h : Le a b) (hf : ∀ v, Le (f v) (g v)) : Le (a >>= f) (b >>= g) := by
  intro v hv
  cases a with
  | error e => cases hv
  | ok w =>
    rw [h w rfl]
    exact hf w v hv

theorem Le.ite {α : Type} (p : Prop) [Decidable p] {a b c d : Py α} (h : Le a b) (h' : Le c d) :
    Le (if p then a else c) (if p then b else d) := by
  split
  · exact h
  · exact h'

theorem guarded_le {α : Type} (opt : α → Py ℝ) (a : α) : Le (guarded true opt a) (guarded false opt a) := by
  refine Le.bind (Le.refl _) fun lam => ?_
  intro v hv
  simp only [Bool.false_eq_true, false_and, if_false]
  split at hv
  · cases hv
  · exact hv

theorem guarded2_le {α β : Type} (opt : α → β → Py ℝ) (a : α) (b : β) : Le (guarded2 true opt a b) (guarded2 false opt a b) :=
  guarded_le (fun p : α × β => opt p.1 p.2) (a, b)

theorem guarded_lt {α : Type} {opt : α → Py ℝ} {a : α} {v : ℝ} (h : guarded true opt a = .ok v) : |v| < 99 / 100 := by
  rw [guarded] at h
  obtain ⟨w, -, h⟩ := bind_ok h
  split at h
  · cases h
  · next hc =>
    cases h
    simpa using hc

theorem guarded2_lt {α β : Type} {opt : α → β → Py ℝ} {a : α} {b : β} {v : ℝ} (h : guarded2 true opt a b = .ok v) :
    |v| < 99 / 100 :=
  guarded_lt (opt := fun p : α × β => opt p.1 p.2) (a := (a, b)) h

theorem gmLoop_le {S : Type} {f f' : ℝ → Py S} (h : ∀ a, Le (f a) (f' a)) (newLam : S → ℝ) (epsilon : ℝ) :
    ∀ (r : ℕ) (lam eps : ℝ) (last : Option S), Le (gmLoop f newLam epsilon r lam eps last) (gmLoop f' newLam epsilon r lam eps last)
  | 0, _, _, _ => Le.refl _
  | r + 1, lam, eps, last => by
    rw [gmLoop, gmLoop]
    refine Le.ite _ (Le.bind (h lam) fun s => ?_) (Le.refl _)
    exact Le.bind (gmLoop_le h newLam epsilon r _ _ _) fun p => Le.refl _

variable {n k l c kx ke kq ρ : Type} [Fintype n] [Fintype k] [Fintype l] [Fintype c] [Fintype kx] [Fintype ke] [Fintype kq]
  [DecidableEq n] [DecidableEq k] [DecidableEq l] [DecidableEq c] [DecidableEq kx] [DecidableEq ke] [DecidableEq kq]

/-- What the option promises about the coefficient `lam` of the spatial error: with `hard_bound=True` (`strict`) a result is returned
only with a coefficient inside the bounds, and then it is the result without the option (`loose`). -/
def Guards {R : Type} (lam : R → ℝ) (strict loose : Py R) : Prop :=
  ∀ r, strict = .ok r → |lam r| < 99 / 100 ∧ loose = .ok r

/-- **C164.** `GM_Error` and `GM_Error_Regimes` (joint branch) for any design `F`. -/
theorem C164_error (opt : Moments (Fin 3) (Fin 3) → Py ℝ) (F : Matrix n k ℝ → Matrix n c ℝ) (W : Matrix n n ℝ) (x : Matrix n k ℝ)
    (y : n → ℝ) : Guards GMErrorFit.lam (gmErrorRegimes (guarded true opt) F W x y) (gmErrorRegimes (guarded false opt) F W x y) := by
  intro r hr
  constructor
  · rw [gmErrorRegimes] at hr
    obtain ⟨o, -, hr⟩ := bind_ok hr
    obtain ⟨lam, hl, hr⟩ := bind_ok hr
    obtain ⟨o2, -, hr⟩ := bind_ok hr
    cases hr
    exact guarded_lt hl
  · refine (?_ : Le _ _) r hr
    exact Le.bind (Le.refl _) fun o => Le.bind (guarded_le opt _) fun lam => Le.refl _

/-- **C164.** `GM_Endog_Error`, and the spatial error part of `GM_Combo`. -/
theorem C164_endog (opt : Moments (Fin 3) (Fin 3) → Py ℝ) (W : Matrix n n ℝ) (z : Matrix n k ℝ) (h : Matrix n l ℝ) (y : n → ℝ) :
    Guards GMErrorFit.lam (gmEndogError (guarded true opt) W z h y) (gmEndogError (guarded false opt) W z h y) := by
  intro r hr
  constructor
  · rw [gmEndogError] at hr
    obtain ⟨o, -, hr⟩ := bind_ok hr
    obtain ⟨lam, hl, hr⟩ := bind_ok hr
    obtain ⟨o2, -, hr⟩ := bind_ok hr
    cases hr
    exact guarded_lt hl
  · refine (?_ : Le _ _) r hr
    exact Le.bind (Le.refl _) fun o => Le.bind (guarded_le opt _) fun lam => Le.refl _

/-- **C164.** `GM_Error_Hom`. -/
theorem C164_hom (opt : Moments (Fin 2) (Fin 2) → Option (Matrix (Fin 2) (Fin 2) ℝ) → Py ℝ) (W : Matrix n n ℝ) (x : Matrix n k ℝ)
    (y : n → ℝ) (maxIter : ℕ) (epsilon : ℝ) (a1 : String) :
    Guards IterFit.lam (gmErrorHom (guarded2 true opt) W x y maxIter epsilon a1)
      (gmErrorHom (guarded2 false opt) W x y maxIter epsilon a1) := by
  have hs : ∀ A1 A2 a, Le (homStep (guarded2 true opt) W A1 A2 x y a) (homStep (guarded2 false opt) W A1 A2 x y a) := fun A1 A2 a =>
    Le.bind (Le.refl _) fun o => Le.bind (guarded2_le opt _ _) fun lam => Le.refl _
  intro r hr
  constructor
  · rw [gmErrorHom] at hr
    obtain ⟨A1, -, hr⟩ := bind_ok hr
    obtain ⟨o, -, hr⟩ := bind_ok hr
    obtain ⟨lam1, -, hr⟩ := bind_ok hr
    obtain ⟨⟨last, it⟩, hL, hr⟩ := bind_ok hr
    obtain ⟨s, hb, hr⟩ := bind_ok hr
    obtain ⟨vm, -, hr⟩ := bind_ok hr
    cases hr
    refine gmLoop_fixed hL hb (P := fun s => |s.lam| < 99 / 100) fun a s hst => ?_
    rw [homStep] at hst
    obtain ⟨o', -, hst⟩ := bind_ok hst
    obtain ⟨lam, hl, hst⟩ := bind_ok hst
    cases hst
    exact guarded2_lt hl
  · refine (?_ : Le _ _) r hr
    exact Le.bind (Le.refl _) fun A1 => Le.bind (Le.refl _) fun o => Le.bind (guarded2_le opt _ _) fun lam1 =>
      Le.bind (gmLoop_le (fun a => hs _ _ a) _ _ _ _ _ _) fun p => Le.refl _

/-- **C164.** `GM_Endog_Error_Hom`, and the spatial error part of `GM_Combo_Hom`. -/
theorem C164_endog_hom (opt : Moments (Fin 2) (Fin 2) → Option (Matrix (Fin 2) (Fin 2) ℝ) → Py ℝ) (W : Matrix n n ℝ)
    (z : Matrix n k ℝ) (h : Matrix n l ℝ) (y : n → ℝ) (maxIter : ℕ) (epsilon : ℝ) (a1 : String) :
    Guards IterFit.lam (gmEndogErrorHom (guarded2 true opt) W z h y maxIter epsilon a1)
      (gmEndogErrorHom (guarded2 false opt) W z h y maxIter epsilon a1) := by
  have hs : ∀ A1 A2 a, Le (homEndogStep (guarded2 true opt) W A1 A2 z h y a) (homEndogStep (guarded2 false opt) W A1 A2 z h y a) :=
    fun A1 A2 a => Le.bind (Le.refl _) fun o => Le.bind (Le.refl _) fun p => Le.bind (guarded2_le opt _ _) fun lam => Le.refl _
  intro r hr
  constructor
  · rw [gmEndogErrorHom] at hr
    obtain ⟨A1, -, hr⟩ := bind_ok hr
    obtain ⟨o, -, hr⟩ := bind_ok hr
    obtain ⟨lam1, -, hr⟩ := bind_ok hr
    obtain ⟨⟨last, it⟩, hL, hr⟩ := bind_ok hr
    obtain ⟨s, hb, hr⟩ := bind_ok hr
    obtain ⟨vm, -, hr⟩ := bind_ok hr
    cases hr
    refine gmLoop_fixed hL hb (P := fun s => |s.lam| < 99 / 100) fun a s hst => ?_
    rw [homEndogStep] at hst
    obtain ⟨o', -, hst⟩ := bind_ok hst
    obtain ⟨p', -, hst⟩ := bind_ok hst
    obtain ⟨lam, hl, hst⟩ := bind_ok hst
    cases hst
    exact guarded2_lt hl
  · refine (?_ : Le _ _) r hr
    exact Le.bind (Le.refl _) fun A1 => Le.bind (Le.refl _) fun o => Le.bind (guarded2_le opt _ _) fun lam1 =>
      Le.bind (gmLoop_le (fun a => hs _ _ a) _ _ _ _ _ _) fun p => Le.refl _

/-- **C164.** `GM_Error_Het`: the final coefficient is checked. -/
theorem C164_het (opt : Moments (Fin 2) (Fin 2) → Option (Matrix (Fin 2) (Fin 2) ℝ) → Py ℝ) (W : Matrix n n ℝ) (x : Matrix n k ℝ)
    (y : n → ℝ) (maxIter : ℕ) (epsilon : ℝ) (step1c : Bool) :
    Guards IterFit.lam (gmErrorHet opt W x y maxIter epsilon step1c true) (gmErrorHet opt W x y maxIter epsilon step1c false) ∧
    ∀ r, gmErrorHet opt W x y maxIter epsilon step1c false = .ok r → |r.lam| < 99 / 100 →
      gmErrorHet opt W x y maxIter epsilon step1c true = .ok r := by
  refine ⟨fun r hr => ?_, fun r hr hlt => ?_⟩
  · rw [gmErrorHet] at hr ⊢
    obtain ⟨o, h1, hr⟩ := bind_ok hr
    obtain ⟨lam1, h2, hr⟩ := bind_ok hr
    obtain ⟨lam2, h3, hr⟩ := bind_ok hr
    obtain ⟨⟨last, it⟩, hL, hr⟩ := bind_ok hr
    obtain ⟨s, hb, hr⟩ := bind_ok hr
    split at hr
    · cases hr
    · next hc =>
      have hc : |s.lam| < 99 / 100 := by simpa using hc
      have hr' := hr
      obtain ⟨vm, h5, hr⟩ := bind_ok hr
      cases hr
      refine ⟨hc, ?_⟩
      simp only [bind, Except.bind, h1, h2, h3, hL, hb, Bool.false_eq_true, false_and, if_false]
      exact hr'
  · rw [gmErrorHet] at hr ⊢
    obtain ⟨o, h1, hr⟩ := bind_ok hr
    obtain ⟨lam1, h2, hr⟩ := bind_ok hr
    obtain ⟨lam2, h3, hr⟩ := bind_ok hr
    obtain ⟨⟨last, it⟩, hL, hr⟩ := bind_ok hr
    obtain ⟨s, hb, hr⟩ := bind_ok hr
    rw [if_neg (by simp)] at hr
    have hr' := hr
    obtain ⟨vm, h5, hr⟩ := bind_ok hr
    cases hr
    simp only [bind, Except.bind, h1, h2, h3, hL, hb]
    rw [if_neg (by rintro ⟨-, hc⟩; exact absurd hlt (not_lt.2 hc))]
    exact hr'


/-- **C164.** `GM_Endog_Error_Het` (with `step1c=False`): the option has the same meaning; the coefficient of the last endogenous
variable is at most 0.9 in absolute value with and without the option, because it is clipped (C84). -/
theorem C164_endog_het (opt : Moments (Fin 2) (Fin 2) → Option (Matrix (Fin 2) (Fin 2) ℝ) → Py ℝ) (W : Matrix n n ℝ)
    (z : Matrix n (k ⊕ Unit) ℝ) (h : Matrix n l ℝ) (y : n → ℝ) (maxIter : ℕ) (epsilon : ℝ) :
    Guards IterFit.lam (gmEndogErrorHet opt W z h y maxIter epsilon true) (gmEndogErrorHet opt W z h y maxIter epsilon false) ∧
    ∀ r, gmEndogErrorHet opt W z h y maxIter epsilon false = .ok r → |r.betas (.inr ())| ≤ 9 / 10 ∧ (|r.lam| < 99 / 100 →
      gmEndogErrorHet opt W z h y maxIter epsilon true = .ok r) := by
  refine ⟨fun r hr => ?_, fun r hr => ?_⟩
  · rw [gmEndogErrorHet] at hr ⊢
    obtain ⟨o, h1, hr⟩ := bind_ok hr
    obtain ⟨lam1, h2, hr⟩ := bind_ok hr
    obtain ⟨⟨last, it⟩, hL, hr⟩ := bind_ok hr
    obtain ⟨s, hb, hr⟩ := bind_ok hr
    split at hr
    · cases hr
    · next hc =>
      have hc : |s.lam| < 99 / 100 := by
        by_contra hn
        exact hc ⟨rfl, .inl (not_lt.1 hn)⟩
      have hr' := hr
      obtain ⟨P, -, hr⟩ := bind_ok hr
      obtain ⟨vm, -, hr⟩ := bind_ok hr
      cases hr
      refine ⟨hc, ?_⟩
      simp only [bind, Except.bind, h1, h2, hL, hb, Bool.false_eq_true, false_and, if_false]
      exact hr'
  · have hle := (C84_foc_partial hr).1
    refine ⟨hle, fun hlt => ?_⟩
    rw [gmEndogErrorHet] at hr ⊢
    obtain ⟨o, h1, hr⟩ := bind_ok hr
    obtain ⟨lam1, h2, hr⟩ := bind_ok hr
    obtain ⟨⟨last, it⟩, hL, hr⟩ := bind_ok hr
    obtain ⟨s, hb, hr⟩ := bind_ok hr
    rw [if_neg (by simp)] at hr
    have hr' := hr
    obtain ⟨P, -, hr⟩ := bind_ok hr
    obtain ⟨vm, -, hr⟩ := bind_ok hr
    cases hr
    simp only [bind, Except.bind, h1, h2, hL, hb]
    rw [if_neg (by
      rintro ⟨-, hc | hc⟩
      · exact absurd hlt (not_lt.2 hc)
      · have hle : |s.betas (.inr ())| ≤ 9 / 10 := hle
        linarith)]
    exact hr'

/-- **C164.** Joint branch of `GM_Error_Het_Regimes`. -/
theorem C164_het_regimes (opt : Moments (Fin 2) (Fin 2) → Option (Matrix (Fin 2) (Fin 2) ℝ) → Py ℝ) (F : Matrix n k ℝ → Matrix n c ℝ)
    (W : Matrix n n ℝ) (x : Matrix n k ℝ) (y : n → ℝ) (maxIter : ℕ) (epsilon : ℝ) (step1c : Bool) :
    Guards IterFit.lam (gmErrorHetRegimes (guarded2 true opt) F W x y maxIter epsilon step1c)
      (gmErrorHetRegimes (guarded2 false opt) F W x y maxIter epsilon step1c) := by
  have hs : ∀ a, Le (hetStepR (guarded2 true opt) F W x y a) (hetStepR (guarded2 false opt) F W x y a) := fun a =>
    Le.bind (Le.refl _) fun o => Le.bind (guarded2_le opt _ _) fun lam => Le.refl _
  intro r hr
  constructor
  · rw [gmErrorHetRegimes] at hr
    obtain ⟨o, -, hr⟩ := bind_ok hr
    obtain ⟨lam1, -, hr⟩ := bind_ok hr
    obtain ⟨lam2, -, hr⟩ := bind_ok hr
    obtain ⟨⟨last, it⟩, hL, hr⟩ := bind_ok hr
    obtain ⟨s, hb, hr⟩ := bind_ok hr
    obtain ⟨vm, -, hr⟩ := bind_ok hr
    cases hr
    refine gmLoop_fixed hL hb (P := fun s => |s.lam| < 99 / 100) fun a s hst => ?_
    rw [hetStepR] at hst
    obtain ⟨o', -, hst⟩ := bind_ok hst
    obtain ⟨lam, hl, hst⟩ := bind_ok hst
    cases hst
    exact guarded2_lt hl
  · refine (?_ : Le _ _) r hr
    refine Le.bind (Le.refl _) fun o => Le.bind (guarded2_le opt _ _) fun lam1 => Le.bind ?_ fun lam2 =>
      Le.bind (gmLoop_le (fun a => hs a) _ _ _ _ _ _) fun p => Le.refl _
    rw [step1cLam, step1cLam]
    exact Le.ite _ (guarded2_le opt _ _) (Le.refl _)

/-- **C164.** Joint branch of `GM_Endog_Error_Het_Regimes`, and the spatial error part of `GM_Combo_Het_Regimes`. -/
theorem C164_endog_het_regimes (opt : Moments (Fin 2) (Fin 2) → Option (Matrix (Fin 2) (Fin 2) ℝ) → Py ℝ)
    (F : Matrix n k ℝ → Matrix n c ℝ) (W : Matrix n n ℝ) (z : Matrix n k ℝ) (h : Matrix n l ℝ) (y : n → ℝ) (maxIter : ℕ)
    (epsilon : ℝ) :
    Guards IterFit.lam (gmEndogErrorHetRegimes (guarded2 true opt) F W z h y maxIter epsilon)
      (gmEndogErrorHetRegimes (guarded2 false opt) F W z h y maxIter epsilon) := by
  have hs : ∀ b a, Le (hetEndogStepR (guarded2 true opt) F W z h y b a) (hetEndogStepR (guarded2 false opt) F W z h y b a) :=
    fun b a => Le.bind (Le.refl _) fun o => Le.bind (guarded2_le opt _ _) fun lam => Le.refl _
  intro r hr
  constructor
  · rw [gmEndogErrorHetRegimes] at hr
    obtain ⟨o, -, hr⟩ := bind_ok hr
    obtain ⟨lam1, -, hr⟩ := bind_ok hr
    obtain ⟨⟨last, it⟩, hL, hr⟩ := bind_ok hr
    obtain ⟨s, hb, hr⟩ := bind_ok hr
    obtain ⟨P, -, hr⟩ := bind_ok hr
    obtain ⟨vm, -, hr⟩ := bind_ok hr
    cases hr
    refine gmLoop_fixed hL hb (P := fun s => |s.lam| < 99 / 100) fun a s hst => ?_
    rw [hetEndogStepR] at hst
    obtain ⟨o', -, hst⟩ := bind_ok hst
    obtain ⟨lam, hl, hst⟩ := bind_ok hst
    cases hst
    exact guarded2_lt hl
  · refine (?_ : Le _ _) r hr
    exact Le.bind (Le.refl _) fun o => Le.bind (guarded2_le opt _ _) fun lam1 =>
      Le.bind (gmLoop_le (fun a => hs _ a) _ _ _ _ _ _) fun p => Le.refl _

/-- **C164.** Joint branch of `GM_Error_Hom_Regimes`. -/
theorem C164_hom_regimes (opt : Moments (Fin 2) (Fin 2) → Option (Matrix (Fin 2) (Fin 2) ℝ) → Py ℝ) (F : Matrix n k ℝ → Matrix n c ℝ)
    (W : Matrix n n ℝ) (x : Matrix n k ℝ) (y : n → ℝ) (maxIter : ℕ) (epsilon : ℝ) (a1 : String) :
    Guards IterFit.lam (gmErrorHomRegimes (guarded2 true opt) F W x y maxIter epsilon a1)
      (gmErrorHomRegimes (guarded2 false opt) F W x y maxIter epsilon a1) := by
  have hs : ∀ A1 A2 b a, Le (homStepR (guarded2 true opt) F W A1 A2 x y b a) (homStepR (guarded2 false opt) F W A1 A2 x y b a) :=
    fun A1 A2 b a => Le.bind (Le.refl _) fun o => Le.bind (guarded2_le opt _ _) fun lam => Le.refl _
  intro r hr
  constructor
  · rw [gmErrorHomRegimes] at hr
    obtain ⟨A1, -, hr⟩ := bind_ok hr
    obtain ⟨o, -, hr⟩ := bind_ok hr
    obtain ⟨lam1, -, hr⟩ := bind_ok hr
    obtain ⟨⟨last, it⟩, hL, hr⟩ := bind_ok hr
    obtain ⟨s, hb, hr⟩ := bind_ok hr
    obtain ⟨vm, -, hr⟩ := bind_ok hr
    cases hr
    refine gmLoop_fixed hL hb (P := fun s => |s.lam| < 99 / 100) fun a s hst => ?_
    rw [homStepR] at hst
    obtain ⟨o', -, hst⟩ := bind_ok hst
    obtain ⟨lam, hl, hst⟩ := bind_ok hst
    cases hst
    exact guarded2_lt hl
  · refine (?_ : Le _ _) r hr
    exact Le.bind (Le.refl _) fun A1 => Le.bind (Le.refl _) fun o => Le.bind (guarded2_le opt _ _) fun lam1 =>
      Le.bind (gmLoop_le (fun a => hs _ _ _ a) _ _ _ _ _ _) fun p => Le.refl _

/-- **C164.** Joint branch of `GM_Endog_Error_Hom_Regimes`, and the spatial error part of `GM_Combo_Hom_Regimes`. -/
theorem C164_endog_hom_regimes (opt : Moments (Fin 2) (Fin 2) → Option (Matrix (Fin 2) (Fin 2) ℝ) → Py ℝ)
    (F : Matrix n k ℝ → Matrix n c ℝ) (W : Matrix n n ℝ) (z : Matrix n k ℝ) (h : Matrix n l ℝ) (y : n → ℝ) (maxIter : ℕ)
    (epsilon : ℝ) (a1 : String) :
    Guards IterFit.lam (gmEndogErrorHomRegimes (guarded2 true opt) F W z h y maxIter epsilon a1)
      (gmEndogErrorHomRegimes (guarded2 false opt) F W z h y maxIter epsilon a1) := by
  have hs : ∀ A1 A2 b a, Le (homEndogStepR (guarded2 true opt) F W A1 A2 z h y b a)
      (homEndogStepR (guarded2 false opt) F W A1 A2 z h y b a) :=
    fun A1 A2 b a => Le.bind (Le.refl _) fun o => Le.bind (Le.refl _) fun p => Le.bind (guarded2_le opt _ _) fun lam => Le.refl _
  intro r hr
  constructor
  · rw [gmEndogErrorHomRegimes] at hr
    obtain ⟨A1, -, hr⟩ := bind_ok hr
    obtain ⟨o, -, hr⟩ := bind_ok hr
    obtain ⟨lam1, -, hr⟩ := bind_ok hr
    obtain ⟨⟨last, it⟩, hL, hr⟩ := bind_ok hr
    obtain ⟨s, hb, hr⟩ := bind_ok hr
    obtain ⟨vm, -, hr⟩ := bind_ok hr
    cases hr
    refine gmLoop_fixed hL hb (P := fun s => |s.lam| < 99 / 100) fun a s hst => ?_
    rw [homEndogStepR] at hst
    obtain ⟨o', -, hst⟩ := bind_ok hst
    obtain ⟨p', -, hst⟩ := bind_ok hst
    obtain ⟨lam, hl, hst⟩ := bind_ok hst
    cases hst
    exact guarded2_lt hl
  · refine (?_ : Le _ _) r hr
    exact Le.bind (Le.refl _) fun A1 => Le.bind (Le.refl _) fun o => Le.bind (guarded2_le opt _ _) fun lam1 =>
      Le.bind (gmLoop_le (fun a => hs _ _ _ a) _ _ _ _ _ _) fun p => Le.refl _

/-! ### The spatial lag coefficient -/

/-- **C164.** `GM_Lag`: with `hard_bound=True` a result is returned only with a spatial coefficient in (-1, 1), and it is the result
without the option; without it a coefficient outside comes with the warning and with predictions of zero, and only then. -/
theorem C164_lag (W : Matrix n n ℝ) (x : Matrix n kx ℝ) (yend : Matrix n ke ℝ) (q : Matrix n kq ℝ) (y : n → ℝ) (L : ℕ)
    (lagQ : Bool) :
    (∀ r, gmLagC W x yend q y L lagQ true = .ok r → |r.1.betas lagCol| < 1 ∧ gmLagC W x yend q y L lagQ false = .ok r) ∧
    (∀ r, gmLagC W x yend q y L lagQ false = .ok r →
      (r.2.warned = true ↔ 1 ≤ |r.1.betas lagCol|) ∧
      (1 ≤ |r.1.betas lagCol| → r.2.predy_e = 0 ∧ r.2.e_pred = 0 ∧ gmLagC W x yend q y L lagQ true = .error .exception) ∧
      (|r.1.betas lagCol| < 1 → gmLagC W x yend q y L lagQ true = .ok r)) := by
  refine ⟨fun r hr => ?_, fun r hr => ?_⟩
  · rw [gmLagC] at hr
    obtain ⟨f, hf, hr⟩ := bind_ok hr
    obtain ⟨p, hp, hr⟩ := bind_ok hr
    cases hr
    rw [post] at hp
    obtain ⟨⟨a, b, w⟩, ha, hp⟩ := bind_ok hp
    cases hp
    by_cases hc : |f.betas lagCol| < 1
    · refine ⟨hc, ?_⟩
      rw [Impacts.spAtt, if_pos hc] at ha
      simp only [gmLagC, post, bind, Except.bind, hf, Impacts.spAtt, if_pos hc]
      simp only [ha]
      rfl
    · rw [Impacts.spAtt, if_neg hc] at ha
      cases ha
  · rw [gmLagC] at hr
    obtain ⟨f, hf, hr⟩ := bind_ok hr
    obtain ⟨p, hp, hr⟩ := bind_ok hr
    cases hr
    rw [post] at hp
    obtain ⟨⟨a, b, w⟩, ha, hp⟩ := bind_ok hp
    cases hp
    by_cases hc : |f.betas lagCol| < 1
    · have ha0 := ha
      rw [Impacts.spAtt, if_pos hc] at ha
      refine ⟨⟨fun hw => ?_, fun h => absurd hc (not_lt.2 h)⟩, fun h => absurd hc (not_lt.2 h), fun _ => ?_⟩
      · exfalso
        obtain ⟨p, hp', hp⟩ : ∃ p, Impacts.inverseProd W (f.predy - f.betas lagCol • (W *ᵥ y)) (f.betas lagCol) false
            .powerExp Impacts.defThreshold none = .ok p ∧ (p, y - p, false) = (a, b, w) := by
          cases hI : Impacts.inverseProd W (f.predy - f.betas lagCol • (W *ᵥ y)) (f.betas lagCol) false
            .powerExp Impacts.defThreshold none with
          | error e => rw [hI] at ha; cases ha
          | ok p => rw [hI] at ha; exact ⟨p, rfl, Except.ok.inj ha⟩
        have hw : w = true := hw
        rw [hw] at hp
        cases hp
      · simp only [gmLagC, post, bind, Except.bind, hf, Impacts.spAtt, if_pos hc]
        simp only [ha]
        rfl
    · rw [Impacts.spAtt, if_neg hc] at ha
      cases ha
      refine ⟨⟨fun _ => not_lt.1 hc, fun _ => rfl⟩, fun _ => ⟨rfl, rfl, ?_⟩, fun h => absurd h hc⟩
      simp only [gmLagC, post, bind, Except.bind, hf, Impacts.spAtt, if_neg hc]
      rfl

/-- **C164, partial.** `GM_Combo`: `hard_bound=True` bounds the coefficient of the spatial error. -/
theorem C164_combo_partial (opt : Moments (Fin 3) (Fin 3) → Py ℝ) (W : Matrix n n ℝ) (x : Matrix n kx ℝ) (yend : Matrix n ke ℝ)
    (q : Matrix n kq ℝ) (y : n → ℝ) (L : ℕ) (lagQ : Bool) :
    Guards (fun r => r.1.lam) (gmComboC opt W x yend q y L lagQ true) (gmComboC opt W x yend q y L lagQ false) := by
  intro r hr
  constructor
  · rw [gmComboC] at hr
    obtain ⟨f, hf, hr⟩ := bind_ok hr
    obtain ⟨p, -, hr⟩ := bind_ok hr
    cases hr
    exact (C164_endog opt W _ _ y f hf).1
  · refine (?_ : Le _ _) r hr
    exact Le.bind (fun f hf => (C164_endog opt W _ _ y f hf).2) fun f => Le.refl _

/-- **C164, partial.** `GM_Combo_Hom`: `hard_bound=True` bounds the coefficient of the spatial error. -/
theorem C164_combo_hom_partial (opt : Moments (Fin 2) (Fin 2) → Option (Matrix (Fin 2) (Fin 2) ℝ) → Py ℝ) (W : Matrix n n ℝ)
    (x : Matrix n kx ℝ) (yend : Matrix n ke ℝ) (q : Matrix n kq ℝ) (y : n → ℝ) (L : ℕ) (lagQ : Bool) (maxIter : ℕ) (epsilon : ℝ)
    (a1 : String) :
    Guards (fun r => r.1.lam) (gmComboHomC opt W x yend q y L lagQ maxIter epsilon a1 true)
      (gmComboHomC opt W x yend q y L lagQ maxIter epsilon a1 false) := by
  intro r hr
  constructor
  · rw [gmComboHomC] at hr
    obtain ⟨f, hf, hr⟩ := bind_ok hr
    obtain ⟨p, -, hr⟩ := bind_ok hr
    cases hr
    exact (C164_endog_hom opt W _ _ y maxIter epsilon a1 f hf).1
  · refine (?_ : Le _ _) r hr
    exact Le.bind (fun f hf => (C164_endog_hom opt W _ _ y maxIter epsilon a1 f hf).2) fun f => Le.refl _

/-- **C164.** `GM_Combo_Het`: with `hard_bound=True` both coefficients are inside the bounds, and the warning on the spatial lag never
appears. -/
theorem C164_combo_het (opt : Moments (Fin 2) (Fin 2) → Option (Matrix (Fin 2) (Fin 2) ℝ) → Py ℝ) (W : Matrix n n ℝ)
    (x : Matrix n kx ℝ) (yend : Matrix n ke ℝ) (q : Matrix n kq ℝ) (y : n → ℝ) (L : ℕ) (lagQ : Bool) (maxIter : ℕ) (epsilon : ℝ) :
    Guards (fun r => r.1.lam) (gmComboHetC opt W x yend q y L lagQ maxIter epsilon true)
      (gmComboHetC opt W x yend q y L lagQ maxIter epsilon false) ∧
    ∀ hb r, gmComboHetC opt W x yend q y L lagQ maxIter epsilon hb = .ok r → |r.1.betas (.inr ())| ≤ 9 / 10 := by
  refine ⟨fun r hr => ⟨?_, (?_ : Le _ _) r hr⟩, fun hb r hr => ?_⟩
  · rw [gmComboHetC] at hr
    obtain ⟨f, hf, hr⟩ := bind_ok hr
    obtain ⟨p, -, hr⟩ := bind_ok hr
    cases hr
    exact ((C164_endog_het opt W _ _ y maxIter epsilon).1 f hf).1
  · exact Le.bind (fun f hf => ((C164_endog_het opt W _ _ y maxIter epsilon).1 f hf).2) fun f => Le.refl _
  · rw [gmComboHetC] at hr
    obtain ⟨f, hf, hr⟩ := bind_ok hr
    obtain ⟨p, -, hr⟩ := bind_ok hr
    cases hr
    exact (C84_foc_partial hf).1

/-! ### Cases -/

section
variable {n k l : Type} [Fintype n] [Fintype k] [Fintype l] [DecidableEq n] [DecidableEq k] [DecidableEq l]

/-- Two-stage least squares with a perfect fit. -/
theorem exact_fit (z : Matrix n k ℝ) (h : Matrix n l ℝ) (b : k → ℝ) (hh : ∀ w, h *ᵥ w = 0 → w = 0)
    (hz : ∀ v, hᵀ *ᵥ (z *ᵥ v) = 0 → v = 0) :
    ∃ f, tslsE z h (z *ᵥ b) = .ok f ∧ f.betas = b ∧ f.predy = z *ᵥ b ∧ f.u = 0 := by
  obtain ⟨f, hf⟩ := tsls_ok z h (z *ᵥ b) hh hz
  refine ⟨f, by rw [tslsE, hf], ?_⟩
  obtain ⟨-, -, h1, h2, h3, h4, h5, h6⟩ := tslsZH_facts hf
  have hb : f.betas = b := by
    rw [h4, h1, h3, mulVec_mulVec, mulVec_mulVec, Matrix.mul_assoc _ hᵀ z, Matrix.mul_assoc _ _ (hᵀ * z), show hᵀ * z = (zᵀ * h)ᵀ by
      rw [transpose_mul, transpose_transpose], nonsing_inv_mul _ h2, one_mulVec]
  rw [h6, h5, hb, sub_self]
  exact ⟨rfl, rfl, rfl⟩

/-- A ring of three observations with `x = (0, 1, 3)` and `y = (2, 1, 1)`: `y = -x + 2 W y`. -/
theorem ring (e : Fin 3 ≃ n) (W : Matrix n n ℝ) (x : Matrix n Unit ℝ) (ye q : Matrix n Empty ℝ) (y : n → ℝ)
    (hW : ∀ a b, W (e a) (e b) = if b = a + 1 then 1 else 0) (hx : ∀ a, x (e a) () = ![0, 1, 3] a)
    (hy : ∀ a, y (e a) = ![2, 1, 1] a) :
    ∃ f, tslsE (lagZ W x ye y) (lagH W x q 1 true) y = .ok f ∧ f.betas lagCol = 2 ∧ f.u = 0 := by
  have sum : ∀ φ : n → ℝ, ∑ i, φ i = φ (e 0) + φ (e 1) + φ (e 2) := by
    intro φ
    rw [← Equiv.sum_comp e, Fin.sum_univ_three]
  have hwy : ∀ a, (W *ᵥ y) (e a) = ![1, 1, 2] a := by
    intro a
    rw [mulVec, dotProduct, sum]
    simp only [hW, hy]
    fin_cases a <;> simp
  have hwx : ∀ a, (W ^ (0 + 1) * lagVars x q true : Matrix n _ ℝ) (e a) (.inl ()) = ![1, 3, 0] a := by
    intro a
    have hl : ∀ b, lagVars x q true (e b) (.inl ()) = ![0, 1, 3] b := fun b => hx b
    rw [zero_add, pow_one, mul_apply, sum]
    simp only [hW, hl]
    fin_cases a <;> simp
  have hz : ∀ a v, (lagZ W x ye y *ᵥ v) (e a) = v (.inl (.inl ())) + ![0, 1, 3] a * v (.inl (.inr ())) +
      ![1, 1, 2] a * v lagCol := by
    intro a v
    simp only [mulVec, dotProduct, lagZ, of_apply, Fintype.sum_sum_type, fromCols_apply_inl, fromCols_apply_inr,
      Finset.univ_unique, Finset.sum_singleton, Finset.univ_eq_empty, Finset.sum_empty, zero_add, one_mul]
    rw [← hwy a, ← hx a]
    rfl
  have h0 : ∀ a, lagH W x q 1 true (e a) (.inl (.inl ())) = 1 := fun a => rfl
  have h1 : ∀ a, lagH W x q 1 true (e a) (.inl (.inr ())) = ![0, 1, 3] a := fun a => hx a
  have h2 : ∀ a, lagH W x q 1 true (e a) (.inr (.inr (.inl (), 0))) = ![1, 3, 0] a := fun a => hwx a
  have hb : y = lagZ W x ye y *ᵥ (Sum.elim (Sum.elim 0 (-1)) (Sum.elim 0 2)) := by
    funext i
    obtain ⟨a, rfl⟩ := e.surjective i
    rw [hz, hy]
    fin_cases a <;> norm_num [lagCol]
  have A : ∀ w, lagH W x q 1 true *ᵥ w = 0 → w = 0 := by
    intro w hw
    have ee : ∀ a : Fin 3, w (.inl (.inl ())) + ![0, 1, 3] a * w (.inl (.inr ())) +
        ![1, 3, 0] a * w (.inr (.inr (.inl (), 0))) = 0 := by
      intro a
      have := congrFun hw (e a)
      simp only [mulVec, dotProduct, Fintype.sum_sum_type, Fintype.sum_prod_type,
        Finset.univ_unique, Finset.sum_singleton, Finset.univ_eq_empty, Finset.sum_empty, zero_add, add_zero,
        Pi.zero_apply] at this
      have h3 := h0 a
      rw [← h1 a, ← h2 a]
      refine Eq.trans ?_ this
      refine congrArg₂ _ (congrArg₂ _ ?_ rfl) rfl
      exact (one_mul _).symm.trans (congrArg (· * _) h3.symm)
    have e0 := ee 0
    have e1 := ee 1
    have e2 := ee 2
    simp at e0 e1 e2
    funext c
    rcases c with (⟨⟩ | ⟨⟩) | (c | ⟨(⟨⟩ | ⟨c, _⟩), p⟩)
    · show w (.inl (.inl ())) = 0
      linarith
    · show w (.inl (.inr ())) = 0
      linarith
    · exact c.elim
    · obtain rfl : p = 0 := Subsingleton.elim _ _
      show w (.inr (.inr (.inl (), 0))) = 0
      linarith
    · exact c.elim
  have B : ∀ v, (lagH W x q 1 true)ᵀ *ᵥ (lagZ W x ye y *ᵥ v) = 0 → v = 0 := by
    intro v hv
    have hc : ∀ c, ∑ i, lagH W x q 1 true i c * (lagZ W x ye y *ᵥ v) i = 0 := fun c => congrFun hv c
    have c0 := hc (.inl (.inl ()))
    have c1 := hc (.inl (.inr ()))
    have c2 := hc (.inr (.inr (.inl (), 0)))
    rw [sum] at c0 c1 c2
    simp only [h0, h1, h2, hz] at c0 c1 c2
    simp at c0 c1 c2
    funext c
    rcases c with (⟨⟩ | ⟨⟩) | (c | ⟨⟩)
    · show v (.inl (.inl ())) = 0
      linarith
    · show v (.inl (.inr ())) = 0
      linarith
    · exact c.elim
    · show v lagCol = 0
      linarith
  obtain ⟨f, hf, hf1, -, hf3⟩ := exact_fit (lagZ W x ye y) (lagH W x q 1 true) (Sum.elim (Sum.elim 0 (-1)) (Sum.elim 0 2)) A B
  rw [← hb] at hf
  exact ⟨f, hf, by rw [hf1]; rfl, hf3⟩

theorem post_out (W : Matrix n n ℝ) (y predy wy : n → ℝ) {rho : ℝ} (h : ¬ |rho| < 1) : post W y predy wy rho false = .ok ⟨0, 0, true⟩ := by
  simp only [post, Impacts.spAtt, if_neg h]
  rfl

end

def ringW : Matrix (Fin 3) (Fin 3) ℝ := fun a b => if b = a + 1 then 1 else 0
def ringX : Matrix (Fin 3) Unit ℝ := fun a _ => ![0, 1, 3] a
def ringY : Fin 3 → ℝ := ![2, 1, 1]
def ringE : Matrix (Fin 3) Empty ℝ := fun _ c => c.elim

/-- **C164 is violated by `GM_Combo`.** With `hard_bound=True` a result with the spatial coefficient 2 is returned, with predictions
of zero and a warning. The optimiser stays at its starting value 0: the residuals, and so all moments, are zero. -/
theorem C164_combo_violated : ∃ r, gmComboC (fun _ => .ok 0) ringW ringX ringE ringE ringY 1 true true = .ok r ∧
    r.1.betas lagCol = 2 ∧ r.2.warned = true ∧ r.2.predy_e = 0 := by
  obtain ⟨f, hf, hb, hu⟩ := ring (Equiv.refl _) ringW ringX ringE ringE ringY (fun _ _ => rfl) (fun _ => rfl) (fun _ => rfl)
  have h0 : spFilterM ringW 0 (lagZ ringW ringX ringE ringY) = lagZ ringW ringX ringE ringY := by
    rw [spFilterM, zero_smul, sub_zero]
  have h1 : spFilter ringW 0 ringY = ringY := by rw [spFilter, zero_smul, sub_zero]
  have h2 : ∀ M, guarded true (fun _ : Moments (Fin 3) (Fin 3) => (.ok 0 : Py ℝ)) M = .ok 0 := by
    intro M
    simp only [guarded, bind, Except.bind]
    rw [if_neg]
    norm_num
  have h3 : ¬ |f.betas lagCol| < 1 := by rw [hb]; norm_num
  simp only [gmComboC, gmEndogError, h2, bind, Except.bind, hf, h0, h1, pure, Except.pure, post_out _ _ _ _ h3]
  exact ⟨_, rfl, hb, rfl, rfl⟩

/-- On the same data `GM_Lag` keeps the promise: with `hard_bound=True` it raises, without it warns. -/
theorem C164_lag_example : gmLagC ringW ringX ringE ringE ringY 1 true true = .error .exception ∧
    ∃ r, gmLagC ringW ringX ringE ringE ringY 1 true false = .ok r ∧ r.2.warned = true := by
  obtain ⟨f, hf, hb, hu⟩ := ring (Equiv.refl _) ringW ringX ringE ringE ringY (fun _ _ => rfl) (fun _ => rfl) (fun _ => rfl)
  have h3 : ¬ |f.betas lagCol| < 1 := by rw [hb]; norm_num
  constructor
  · simp only [gmLagC, bind, Except.bind, hf, post, Impacts.spAtt, if_neg h3]
    rfl
  · simp only [gmLagC, bind, Except.bind, hf, post, Impacts.spAtt, if_neg h3]
    exact ⟨_, rfl, rfl⟩

def regY : Fin 2 × Fin 3 → ℝ := fun a => ![2, 1, 1] a.2

/-- **C164 is violated by `GM_Lag_Regimes` with HAC.** With `hard_bound=True` a result is returned in which the spatial coefficient is
2 in both regimes and all predictions are zero, and there is no warning. -/
theorem C164_lag_regimes_violated :
    ∃ r, gmLagRegC Prod.fst [0, 1] LagReg.exW LagReg.exX LagReg.exE LagReg.exE regY 1 true true = .ok r ∧ (∀ g, r.1.betas (lagCol, g) = 2) ∧
      r.2.warned = false ∧ r.2.predy_e = 0 := by
  have hW : GM.NoLinks Prod.fst LagReg.exW := fun i j h => if_neg fun e => h e.1
  have hr : ∀ r : Fin 2, ∃ f, gmLag (subW Prod.fst LagReg.exW r) (RegimesMat.sub LagReg.exX Prod.fst r) (RegimesMat.sub LagReg.exE Prod.fst r)
      (RegimesMat.sub LagReg.exE Prod.fst r) (RegimesMat.subv regY Prod.fst r) 1 true = some f ∧ f.betas lagCol = 2 := by
    intro r
    let e : Fin 3 ≃ {i : Fin 2 × Fin 3 // i.1 = r} :=
      ⟨fun a => ⟨(r, a), rfl⟩, fun i => i.1.2, fun a => rfl, fun i => Subtype.ext (Prod.ext i.2.symm rfl)⟩
    obtain ⟨f, hf, hb, -⟩ := ring e (subW Prod.fst LagReg.exW r) (RegimesMat.sub LagReg.exX Prod.fst r) (RegimesMat.sub LagReg.exE Prod.fst r)
      (RegimesMat.sub LagReg.exE Prod.fst r) (RegimesMat.subv regY Prod.fst r)
      (fun a b => if_congr (by simp [e]) rfl rfl) (fun a => rfl) (fun a => rfl)
    refine ⟨f, ?_, hb⟩
    rw [tslsE] at hf
    rw [gmLag]
    split at hf
    · rename_i o ho
      rw [ho]
      cases hf
      rfl
    · cases hf
  choose fs hfs hb using hr
  obtain ⟨f, hf, ha⟩ := (C147_separate Prod.fst LagReg.exW hW LagReg.exX LagReg.exE LagReg.exE regY 1 true).1 fs hfs
  have hb' : ∀ g, f.betas (lagCol, g) = 2 := fun g => (ha.betas g lagCol).trans (hb g)
  have h3 : ∀ g, ¬ |f.betas (lagCol, g)| < 1 := fun g => by rw [hb']; norm_num
  rw [gmLagRegimes] at hf
  simp only [gmLagRegC, tslsE, hf, bind, Except.bind, spAttReg, List.mapM_cons, List.mapM_nil, Impacts.spAtt, if_neg (h3 _)]
  refine ⟨_, rfl, hb', rfl, ?_⟩
  funext i
  simp

end Spreg.HardBound
