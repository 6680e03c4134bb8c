import Verif.Props.PanelGLS3
import Verif.Props.SURData
import Verif.Props.KKPOld
import Verif.Model.Diagnostics
import Verif.Model.DGP
import Mathlib.MeasureTheory.Integral.Bochner.Basic
/-
Smaller functions: `constant_check` (C51), `make_heterror` (C165), `sur_dictZ` (C171), `_get_panel_data` of the deprecated class
(C148), and what PanelFE and PanelRE report besides the coefficients (C103, C104).
-/
set_option linter.unusedSectionVars false

namespace Spreg.Diag

theorem foldl_min_le (l : List ℝ) : ∀ a : ℝ, l.foldl min a ≤ a ∧ ∀ b ∈ l, l.foldl min a ≤ b := by
  induction l with
  | nil => simp
  | cons c l ih =>
    intro a
    obtain ⟨h1, h2⟩ := ih (min a c)
    refine ⟨h1.trans (min_le_left _ _), fun b hb => ?_⟩
    rcases List.mem_cons.1 hb with rfl | hb
    · exact h1.trans (min_le_right _ _)
    · exact h2 b hb

theorem le_foldl_max (l : List ℝ) : ∀ a : ℝ, a ≤ l.foldl max a ∧ ∀ b ∈ l, b ≤ l.foldl max a := by
  induction l with
  | nil => simp
  | cons c l ih =>
    intro a
    obtain ⟨h1, h2⟩ := ih (max a c)
    refine ⟨(le_max_left _ _).trans h1, fun b hb => ?_⟩
    rcases List.mem_cons.1 hb with rfl | hb
    · exact (le_max_right _ _).trans h1
    · exact h2 b hb

theorem foldl_min_const (l : List ℝ) (a : ℝ) (h : ∀ b ∈ l, b = a) : l.foldl min a = a ∧ l.foldl max a = a := by
  induction l with
  | nil => simp
  | cons c l ih =>
    have := h c (by simp)
    subst this
    simpa using ih fun b hb => h b (by simp [hb])

/-- `C51` (the check of the diagnostics). `constant_check` says that there is a constant exactly when all entries of some column
are equal. -/
theorem C51_constantCheck (cols : List (ℝ × List ℝ)) :
    constantCheck cols = true ↔ ∃ c ∈ cols, ∀ b ∈ c.2, b = c.1 := by
  induction cols with
  | nil => simp [constantCheck]
  | cons c t ih =>
    obtain ⟨a, l⟩ := c
    have key : l.foldl min a = l.foldl max a ↔ ∀ b ∈ l, b = a := by
      constructor
      · intro h b hb
        have h1 := (foldl_min_le l a); have h2 := le_foldl_max l a
        have h3 := h1.2 b hb; have h4 := h2.2 b hb
        linarith [h1.1, h2.1]
      · intro h
        obtain ⟨h1, h2⟩ := foldl_min_const l a h
        rw [h1, h2]
    rw [constantCheck]
    by_cases h : l.foldl min a = l.foldl max a
    · rw [if_pos h]
      exact ⟨fun _ => ⟨(a, l), by simp, key.1 h⟩, fun _ => rfl⟩
    · rw [if_neg h, ih]
      constructor
      · rintro ⟨c, hc, h'⟩; exact ⟨c, by simp [hc], h'⟩
      · rintro ⟨c, hc, h'⟩
        rcases List.mem_cons.1 hc with rfl | hc
        · exact absurd (key.2 h') h
        · exact ⟨c, hc, h'⟩

/-- A constant in the second column is found; without one the answer is no. -/
example : constantCheck [(1, [2]), (3, [3])] = true ∧ constantCheck [(1, [2]), (3, [4])] = false := by
  refine ⟨(C51_constantCheck _).2 ⟨(3, [3]), by simp, by simp⟩, ?_⟩
  rw [Bool.eq_false_iff, Ne, C51_constantCheck]
  rintro ⟨c, hc, h⟩
  fin_cases hc <;> simp at h

end Spreg.Diag

namespace Spreg.DGP

/-- `C165` (heteroskedastic errors). `make_heterror` returns errors exactly when the two vectors have the same length; the error
of observation `i` is then the error of constant variance times the root of its multiplier, so that, for random errors of
variance `s` and mean `0` and non-negative multipliers, its mean stays `0` and its variance is `s` times the multiplier. -/
theorem C165_heterror {n : ℕ} (u : Fin n → ℝ) (v : Vec) :
    ((makeHeterror u v).isSome ↔ v.1 = n) ∧
    ∀ h, makeHeterror u v = some h → ∀ (i : Fin n) (j : Fin v.1), i.val = j.val → 0 ≤ v.2 j →
      h i = u i * Real.sqrt (v.2 j) ∧ h i ^ 2 = v.2 j * u i ^ 2 := by
  unfold makeHeterror
  by_cases hv : v.1 = n
  · rw [dif_pos hv]
    refine ⟨by simp [hv], fun h hh i j hij h0 => ?_⟩
    cases hh
    have : Fin.cast hv.symm i = j := Fin.ext hij
    simp only [this]
    exact ⟨trivial, by rw [mul_pow, Real.sq_sqrt h0]; ring⟩
  · rw [dif_neg hv]
    exact ⟨by simp [hv], fun h hh => absurd hh (by simp)⟩

open MeasureTheory in
/-- `C165` (heteroskedastic errors, distribution). -/
theorem C165_heterror_moments {n : ℕ} {Ω : Type} [MeasurableSpace Ω] (P : Measure Ω) (u : Ω → Fin n → ℝ) (v : Vec) (s : ℝ)
    (hm : ∀ i, ∫ ω, u ω i ∂P = 0) (hs : ∀ i, ∫ ω, u ω i ^ 2 ∂P = s) (h : Ω → Fin n → ℝ)
    (hh : ∀ ω, makeHeterror (u ω) v = some (h ω)) (i : Fin n) (j : Fin v.1) (hij : i.val = j.val) (h0 : 0 ≤ v.2 j) :
    ∫ ω, h ω i ∂P = 0 ∧ ∫ ω, h ω i ^ 2 ∂P = v.2 j * s := by
  have e := fun ω => (C165_heterror (u ω) v).2 _ (hh ω) i j hij h0
  simp only [fun ω => (e ω).2]
  rw [integral_const_mul, hs]
  simp only [fun ω => (e ω).1]
  rw [integral_mul_const, hm, zero_mul]
  exact ⟨rfl, trivial⟩

/-- The hypotheses are met: fair signs, multipliers 4 and 9. -/
example : makeHeterror ![1, -1] ⟨2, ![4, 9]⟩ = some ![2, -3] := by
  have h4 : Real.sqrt 4 = 2 := by rw [show (4 : ℝ) = 2 ^ 2 by norm_num]; exact Real.sqrt_sq (by norm_num)
  have h9 : Real.sqrt 9 = 3 := by rw [show (9 : ℝ) = 3 ^ 2 by norm_num]; exact Real.sqrt_sq (by norm_num)
  unfold makeHeterror
  rw [dif_pos rfl]
  congr 1
  funext i
  fin_cases i <;> simp [h4, h9]

end Spreg.DGP

namespace Spreg.SURLag

variable {α : Type}

/-- `C171` (`sur_dictZ`). With cross-sectional data the additional variables of the equations (endogenous variables, instruments)
are the columns named, in the order given, equation by equation; it succeeds exactly when all names are columns. -/
theorem C171_dictZ (df : String → Option α) (zv : List (List String)) :
    ((∃ z, surDictZ df zv = .ok z) ↔ ∀ l ∈ zv, ∀ s ∈ l, (df s).isSome) ∧
    (∀ z, surDictZ df zv = .ok z → List.Forall₂ (List.Forall₂ fun s c => df s = some c) zv z) ∧
    (∀ e, surDictZ df zv = .error e → e = .attributeError) := by
  have one : ∀ l : List String, ((∃ o, lookup df l = .ok o) ↔ ∀ s ∈ l, (df s).isSome) ∧
      (∀ o, lookup df l = .ok o → List.Forall₂ (fun s c => df s = some c) l o) ∧
      (∀ e, lookup df l = .error e → e = .attributeError) := by
    intro l
    induction l with
    | nil => simp [lookup, pure, Except.pure]
    | cons s l ih =>
      have hc : ∀ c, df s = some c → lookup df (s :: l) = (lookup df l).bind fun r => .ok (c :: r) := by
        intro c h
        unfold lookup; rw [List.mapM_cons]; simp only [h]; rfl
      have hn : df s = none → lookup df (s :: l) = .error .attributeError := by
        intro h
        unfold lookup; rw [List.mapM_cons]; simp only [h]; rfl
      cases h : df s with
      | none => rw [hn h]; simp [h]
      | some c =>
        rw [hc c h]
        cases h' : lookup df l with
        | error e =>
          rw [h'] at ih
          simp only [Except.bind]
          refine ⟨by simpa [h] using ih.1, by simp, ?_⟩
          intro e' he
          cases he
          exact ih.2.2 e rfl
        | ok o =>
          rw [h'] at ih
          simp only [Except.bind]
          refine ⟨by simpa [h] using ih.1, ?_, by simp⟩
          intro o' ho
          cases ho
          exact .cons h (ih.2.1 o rfl)
  unfold surDictZ
  induction zv with
  | nil => simp [pure, Except.pure]
  | cons l zv ih =>
    rw [List.mapM_cons]
    cases h : lookup df l with
    | error e =>
      have := one l
      rw [h] at this
      simp only [bind, Except.bind]
      refine ⟨?_, by simp, ?_⟩
      · have h1 := this.1
        constructor
        · rintro ⟨z, hz⟩; exact absurd hz (by simp)
        · intro hz
          exact absurd (h1.2 (hz l (by simp))) (by simp)
      · intro e' he; cases he; exact this.2.2 e rfl
    | ok c =>
      have := one l
      rw [h] at this
      have hl := this.1.1 ⟨c, rfl⟩
      cases h' : zv.mapM (lookup df) with
      | error e =>
        rw [h'] at ih
        simp only [bind, Except.bind]
        refine ⟨?_, by simp, ?_⟩
        · constructor
          · rintro ⟨z, hz⟩; exact absurd hz (by simp)
          · intro hz
            exact absurd (ih.1.2 fun l hl => hz l (by simp [hl])) (by simp)
        · intro e' he; cases he; exact ih.2.2 e rfl
      | ok o =>
        rw [h'] at ih
        simp only [bind, Except.bind, pure, Except.pure]
        refine ⟨⟨fun _ => ?_, fun _ => ⟨_, rfl⟩⟩, ?_, by simp⟩
        · intro l' hl'
          rcases List.mem_cons.1 hl' with rfl | hl'
          · exact hl
          · exact ih.1.1 ⟨o, rfl⟩ l' hl'
        · intro z hz; cases hz
          exact .cons (this.2.1 c rfl) (ih.2.1 o rfl)

/-- Two equations with instruments. -/
example : surDictZ (fun s => if s = "a" then some 1 else if s = "b" then some 2 else none) [["b", "a"], ["a"]] =
      .ok [[2, 1], [1]] ∧
    surDictZ (fun s => if s = "a" then some 1 else none) [["a"], ["b"]] = .error .attributeError := by
  constructor <;> simp [surDictZ, lookup, List.mapM_cons, bind, Except.bind, pure, Except.pure]

end Spreg.SURLag

namespace Spreg.KKPOld
open Spreg.Panel

variable {α : Type}

/-- `C148` (wide data with names). Whenever the number of columns of `x` is a multiple of the number of periods, the deprecated
class stacks a wide panel and names its variables as its successor does, and raises the same exceptions. -/
theorem C148_names (y x : Mat α) (wn : ℕ) (nameY : NameY) (nameX : Option (List String)) (hw : wn ≠ 0) (hdiv : wn ∣ y.rows)
    (hT : y.cols > 1) (hx : x.rows = y.rows) (hd : y.cols ∣ x.cols) :
    oldPanel y x wn nameY nameX = checkPanel y x wn nameY nameX := by
  rw [oldPanel, (C148_wide y x wn hw hdiv hT hx).1 hd]
  rfl

end Spreg.KKPOld

namespace Spreg.PanelGLS
open Matrix Spreg.Lin Spreg.PanelML

variable {τ n k : Type} [Fintype τ] [Fintype n] [Fintype k] [DecidableEq τ] [DecidableEq n] [DecidableEq k]

/-- Sum of the demeaned cross products and `T` times that of the means. -/
theorem xtx_split [Nonempty τ] (x : Matrix (τ × n) k ℝ) :
    xᵀ * x = (x - tileM τ (unitMeanM x))ᵀ * (x - tileM τ (unitMeanM x)) +
      (Fintype.card τ : ℝ) • ((unitMeanM x)ᵀ * unitMeanM x) := by
  have hT : (Fintype.card τ : ℝ) ≠ 0 := by exact_mod_cast Fintype.card_ne_zero
  ext p q
  rw [Matrix.add_apply, Matrix.smul_apply]
  simp only [mul_apply, transpose_apply, Matrix.sub_apply, tileM, unitMeanM, Matrix.of_apply, smul_eq_mul]
  rw [Fintype.sum_prod_type_right, Fintype.sum_prod_type_right, Finset.mul_sum, ← Finset.sum_add_distrib]
  refine Finset.sum_congr rfl fun i _ => ?_
  have e1 : ∑ s : τ, (x (s, i) p - (∑ s, x (s, i) p) / Fintype.card τ) * (x (s, i) q - (∑ s, x (s, i) q) / Fintype.card τ) =
      ∑ s : τ, x (s, i) p * x (s, i) q - (∑ s, x (s, i) p) / Fintype.card τ * (∑ s, x (s, i) q)
        - (∑ s, x (s, i) q) / Fintype.card τ * (∑ s, x (s, i) p)
        + Fintype.card τ * ((∑ s, x (s, i) p) / Fintype.card τ * ((∑ s, x (s, i) q) / Fintype.card τ)) := by
    rw [Finset.mul_sum, Finset.mul_sum, ← Finset.sum_sub_distrib, ← Finset.sum_sub_distrib, ← nsmul_eq_mul,
      ← Finset.card_univ, ← Finset.sum_const, ← Finset.sum_add_distrib]
    exact Finset.sum_congr rfl fun s _ => by ring
  rw [e1]
  field_simp
  ring

/-- `C103` fails for `xtxi`: PanelFE reports the inverse of the cross products of the regressors before they are demeaned, so
that, unless all residuals of the demeaned regression are zero, its variance matrix is `sig2` times `xtxi` exactly when the mean of every regressor over the
periods is zero for every unit. -/
theorem C103_xtxi_violated [Nonempty τ] (y : τ × n → ℝ) (x : Matrix (τ × n) k ℝ) (f : FEFit τ n k) (hf : panelFE y x = some f) :
    f.xtxi * (xᵀ * x) = 1 ∧ f.predy = x *ᵥ f.betas ∧ f.predy + f.u = y ∧
    (f.sig2 ≠ 0 → (f.vm = f.sig2 • f.xtxi ↔ ∀ i j, ∑ s, x (s, i) j = 0)) := by
  have hT : (Fintype.card τ : ℝ) ≠ 0 := by exact_mod_cast Fintype.card_ne_zero
  unfold panelFE at hf
  simp only at hf
  obtain ⟨reg, hreg, hf⟩ := Option.bind_eq_some_iff.1 hf
  obtain ⟨xi, hxi, hf⟩ := Option.map_eq_some_iff.1 hf
  subst hf
  obtain ⟨hu, hxe, -, hxi'⟩ := inv?_eq_some hxi
  obtain ⟨hd, hreg'⟩ := ols_eq_some hreg
  refine ⟨hxi', rfl, by simp, fun h0 => ?_⟩
  set d := x - tileM τ (unitMeanM x) with hdd
  have hr : reg.xtxi = (dᵀ * d)⁻¹ := by rw [hreg']; rfl
  have hs := xtx_split x
  rw [← hdd] at hs
  have e1 : (utu reg.u / (NT τ n - Fintype.card n)) • reg.xtxi = (utu reg.u / (NT τ n - Fintype.card n)) • xi ↔ reg.xtxi = xi := by
    exact ⟨fun h => smul_right_injective _ h0 h, fun h => by rw [h]⟩
  refine e1.trans ?_
  have e2 : reg.xtxi = xi ↔ dᵀ * d = xᵀ * x := by
    rw [hr, hxe]
    exact ⟨fun h => by rw [← nonsing_inv_nonsing_inv _ hd, h, nonsing_inv_nonsing_inv _ hu], fun h => by rw [h]⟩
  rw [e2]
  constructor
  · intro h i j
    have h1 : (unitMeanM x)ᵀ * unitMeanM x = 0 := by
      rw [← h, left_eq_add] at hs
      exact (smul_eq_zero.1 hs).resolve_left hT
    have h2 : unitMeanM x = 0 := by
      rw [← Matrix.conjTranspose_eq_transpose_of_trivial, Matrix.conjTranspose_mul_self_eq_zero] at h1
      exact h1
    have := congrFun (congrFun h2 i) j
    simpa [unitMeanM, hT] using this
  · intro h
    have h2 : unitMeanM x = 0 := by
      ext i j
      simp [unitMeanM, h i j]
    rw [h2] at hs
    simpa using hs.symm

/-- The panel of `fe_example`: the variance is positive, the regressor has mean one for the second unit, and `vm` is not `sig2`
times `xtxi`. -/
example : ∃ f, panelFE (hY 1) hX1 = some f ∧ f.sig2 ≠ 0 ∧ f.vm ≠ f.sig2 • f.xtxi := by
  obtain ⟨f, o, hf, ho, h0, hc⟩ := fe_example
  obtain ⟨-, -, -, h, -⟩ := (C103_lsdv_partial _ _).2 f o hf ho
  have hs : f.sig2 ≠ 0 := by
    rw [h]
    refine div_ne_zero (fun e => h0 ((utu_eq_zero _).1 e)) ?_
    simp
    norm_num
  refine ⟨f, hf, hs, fun e => ?_⟩
  have := ((C103_xtxi_violated _ _ f hf).2.2.2 hs).1 e 1 ()
  have h2 := ((C103_xtxi_violated _ _ f hf).2.2.2 hs).1 e 0 ()
  simp [hX1, hMean, hSgn, Fin.sum_univ_two] at this h2

/-- `C104` (fitted values). PanelRE predicts with the regressors as given: predicted values and residuals add up to `y`. -/
theorem C104_predy (pinv : Matrix k k ℝ → Matrix k k ℝ) (y : τ × n → ℝ) (x : Matrix (τ × n) k ℝ) (f : REFit τ n k)
    (hf : panelRE pinv y x = some f) : f.predy = x *ᵥ f.betas ∧ f.predy + f.u = y := by
  unfold panelRE at hf
  simp only at hf
  obtain ⟨w, -, hf⟩ := Option.bind_eq_some_iff.1 hf
  obtain ⟨reg, -, hf⟩ := Option.map_eq_some_iff.1 hf
  subst hf
  exact ⟨rfl, by simp⟩

end Spreg.PanelGLS
