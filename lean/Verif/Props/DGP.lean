import Verif.Model.DGP
import Verif.Props.Impacts
import Mathlib.Tactic.Positivity
/-
C33: the data generating processes solve their structural equations.
-/
namespace Spreg.DGP
open Matrix Spreg Spreg.Lin Spreg.Impacts

variable {n : ℕ}

/-- `y = c W y + v`: exactly with the true inverse; with the power expansion up to the first term left out,
`c^(k+1) W^(k+1) v`, where term `k` has norm at most 1e-10 unless all 10^7 terms were used. -/
def Solves (W : Matrix (Fin n) (Fin n) ℝ) (c : ℝ) (v y : Fin n → ℝ) : InvMethod → Prop
  | .trueInv => y = c • (W *ᵥ y) + v
  | .powerExp => ∃ k, y = c • (W *ᵥ y) + v - c ^ (k + 1) • (W ^ (k + 1) *ᵥ v) ∧
      (norm2 (c ^ k • (W ^ k *ᵥ v)) ≤ 0.0000000001 ∨ k = 10000000)
  | .other => False

/-- The error process: autoregressive or moving average. -/
def ErrorOf (W : Matrix (Fin n) (Fin n) ℝ) (lam : ℝ) (u e : Fin n → ℝ) (im : InvMethod) : EModel → Prop
  | .sar => Solves W lam u e im
  | .ma => e = u + lam • (W *ᵥ u)
  | .other => False

theorem wcast_rfl (W : Matrix (Fin n) (Fin n) ℝ) (h : (⟨n, W⟩ : Wts).1 = n) : wcast ⟨n, W⟩ h = W := rfl

theorem vadd_rfl (a b : Fin n → ℝ) (h : (⟨n, b⟩ : Vec).1 = n) : vadd a ⟨n, b⟩ h = a + b := rfl

theorem invp_solves (W : Matrix (Fin n) (Fin n) ℝ) (v y : Fin n → ℝ) (c : ℝ) (im : InvMethod)
    (h : invp W v c im = .ok y) : Solves W c v y im := by
  cases im with
  | trueInv => exact (C34_true_inv W v c defThreshold none).1 y h
  | powerExp =>
    obtain ⟨m, _, _, h2, h3, _⟩ := C30_partial_sum W v c defThreshold none (by norm_num [defThreshold]) y h
    refine ⟨m, ?_, h3⟩
    have : y = c • (W *ᵥ y) + (v - term W c v (m + 1)) := by rw [← h2]; abel
    rw [add_sub_assoc]; exact this
  | other => cases h

theorem errProc_spec (W : Matrix (Fin n) (Fin n) ℝ) (u e : Fin n → ℝ) (lam : ℝ) (model : EModel)
    (im : InvMethod) (h : errProc W u lam model im = .ok (some e)) : ErrorOf W lam u e im model := by
  cases model with
  | sar =>
    unfold errProc at h
    cases hp : invp W u lam im with
    | error _ => simp only [hp] at h; cases h
    | ok p => simp only [hp] at h; cases h; exact invp_solves W u _ lam im hp
  | ma => cases h; rfl
  | other => cases h

/-- C33: the spatial lag process: `y = rho W y + xb + u`. -/
theorem C33_lag (u xb : Fin n → ℝ) (W : Matrix (Fin n) (Fin n) ℝ) (rho : ℝ) (im : InvMethod) (y : Fin n → ℝ)
    (h : dgpLag u ⟨n, xb⟩ ⟨n, W⟩ rho im false = .ok (some y)) : Solves W rho (u + xb) y im := by
  unfold dgpLag at h
  simp only [dite_true, wcast_rfl, vadd_rfl] at h
  cases hp : invp W (u + xb) rho im with
  | error _ => rw [hp] at h; cases h
  | ok p => rw [hp] at h; cases h; exact invp_solves _ _ _ _ _ hp

/-- C33: the spatial Durbin process: `y = rho W y + xb + WX gamma + u`. -/
theorem C33_spdurbin (u xb wxg : Fin n → ℝ) (W : Matrix (Fin n) (Fin n) ℝ) (rho : ℝ) (im : InvMethod)
    (y : Fin n → ℝ) (h : dgpSpdurbin u ⟨n, xb⟩ ⟨n, wxg⟩ ⟨n, W⟩ rho im false = .ok (some y)) :
    Solves W rho (u + xb + wxg) y im := by
  unfold dgpSpdurbin at h
  simp only [dite_true, wcast_rfl, vadd_rfl] at h
  cases hp : invp W (u + xb + wxg) rho im with
  | error _ => rw [hp] at h; cases h
  | ok p => rw [hp] at h; cases h; exact invp_solves _ _ _ _ _ hp

/-- C33: the spatial error process: `y = xb + e` with `e` the error process of `u`. -/
theorem C33_sperror (u xb : Fin n → ℝ) (W : Matrix (Fin n) (Fin n) ℝ) (lam : ℝ) (model : EModel)
    (im : InvMethod) (y : Fin n → ℝ) (h : dgpSperror u ⟨n, xb⟩ ⟨n, W⟩ lam model im false = .ok (some y)) :
    ∃ e, ErrorOf W lam u e im model ∧ y = e + xb := by
  unfold dgpSperror at h
  simp only [dite_true, wcast_rfl, vadd_rfl] at h
  cases hp : errProc W u lam model im with
  | error _ => rw [hp] at h; cases h
  | ok o =>
    rw [hp] at h
    cases o with
    | none => cases h
    | some e => cases h; exact ⟨e, errProc_spec _ _ _ _ _ _ hp, rfl⟩

/-- C33: the SLX error process: `y = xb + WX gamma + e`. -/
theorem C33_slxerror (u xb wxg : Fin n → ℝ) (W : Matrix (Fin n) (Fin n) ℝ) (lam : ℝ) (model : EModel)
    (im : InvMethod) (y : Fin n → ℝ)
    (h : dgpSlxerror u ⟨n, xb⟩ ⟨n, wxg⟩ ⟨n, W⟩ lam model im false = .ok (some y)) :
    ∃ e, ErrorOf W lam u e im model ∧ y = e + xb + wxg := by
  unfold dgpSlxerror at h
  simp only [dite_true, wcast_rfl, vadd_rfl] at h
  cases hp : errProc W u lam model im with
  | error _ => rw [hp] at h; cases h
  | ok o =>
    rw [hp] at h
    cases o with
    | none => cases h
    | some e => cases h; exact ⟨e, errProc_spec _ _ _ _ _ _ hp, rfl⟩

/-- C33: lag with spatial error: `y = rho W y + xb + e`. -/
theorem C33_lagerr (u xb : Fin n → ℝ) (W : Matrix (Fin n) (Fin n) ℝ) (rho lam : ℝ) (model : EModel)
    (im : InvMethod) (y : Fin n → ℝ)
    (h : dgpLagerr u ⟨n, xb⟩ ⟨n, W⟩ rho lam model im false = .ok (some y)) :
    ∃ e, ErrorOf W lam u e im model ∧ Solves W rho (e + xb) y im := by
  unfold dgpLagerr at h
  simp only [dite_true, wcast_rfl, vadd_rfl] at h
  cases hp : errProc W u lam model im with
  | error _ => rw [hp] at h; cases h
  | ok o =>
    rw [hp] at h
    cases o with
    | none => cases h
    | some e =>
      simp only [Except.bind] at h
      cases hq : invp W (e + xb) rho im with
      | error _ => rw [hq] at h; cases h
      | ok p => rw [hq] at h; cases h; exact ⟨e, errProc_spec _ _ _ _ _ _ hp, invp_solves _ _ _ _ _ hq⟩

/-- C33: the general nested process: `y = rho W y + xb + WX gamma + e`. -/
theorem C33_gns (u xb wxg : Fin n → ℝ) (W : Matrix (Fin n) (Fin n) ℝ) (rho lam : ℝ) (model : EModel)
    (im : InvMethod) (y : Fin n → ℝ)
    (h : dgpGns u ⟨n, xb⟩ ⟨n, wxg⟩ ⟨n, W⟩ rho lam model im false = .ok (some y)) :
    ∃ e, ErrorOf W lam u e im model ∧ Solves W rho (e + xb + wxg) y im := by
  unfold dgpGns at h
  simp only [dite_true, wcast_rfl, vadd_rfl] at h
  cases hp : errProc W u lam model im with
  | error _ => rw [hp] at h; cases h
  | ok o =>
    rw [hp] at h
    cases o with
    | none => cases h
    | some e =>
      simp only [Except.bind] at h
      cases hq : invp W (e + xb + wxg) rho im with
      | error _ => rw [hq] at h; cases h
      | ok p => rw [hq] at h; cases h; exact ⟨e, errProc_spec _ _ _ _ _ _ hp, invp_solves _ _ _ _ _ hq⟩

/-- C33: with the true inverse these processes succeed exactly when `I - rho W` is nonsingular (lag). -/
theorem C33_lag_defined (u xb : Fin n → ℝ) (W : Matrix (Fin n) (Fin n) ℝ) (rho : ℝ) (ybin : Bool) :
    (∃ y, dgpLag u ⟨n, xb⟩ ⟨n, W⟩ rho .trueInv ybin = .ok (some y)) ↔ IsUnit (1 - rho • W).det := by
  unfold dgpLag
  simp only [dite_true, wcast_rfl, vadd_rfl]
  by_cases hu : IsUnit (1 - rho • W).det
  · simp only [hu, iff_true]
    unfold invp inverseProd
    simp only [inv?_of_isUnit hu]
    exact ⟨_, rfl⟩
  · simp only [hu, iff_false]
    unfold invp
    rw [(C34_true_inv W (u + xb) rho defThreshold none).2 hu]
    rintro ⟨y, hy⟩
    cases hy

/-- C33: the matrix exponential process: `exp(log(1-rho) W) y = xb + u`. -/
theorem C33_mess (u xb : Fin n → ℝ) (W : Matrix (Fin n) (Fin n) ℝ) (rho : ℝ) (y : Fin n → ℝ)
    (h : dgpMess u ⟨n, xb⟩ ⟨n, W⟩ rho = .ok (some y)) :
    NormedSpace.exp (Real.log (1 - rho) • W) *ᵥ y = u + xb := by
  unfold dgpMess at h
  simp only [dite_true, wcast_rfl, vadd_rfl] at h
  cases h
  rw [mulVec_mulVec, ← Matrix.exp_add_of_commute]
  · rw [neg_smul, add_neg_cancel, NormedSpace.exp_zero, one_mulVec]
  · rw [neg_smul]; exact (Commute.refl _).neg_right

/-- C33: the processes without spatial multiplier. -/
theorem C33_ols_slx (u xb wxg : Fin n → ℝ) :
    dgpOls u ⟨n, xb⟩ = .ok (some (u + xb)) ∧
    dgpSlx u ⟨n, xb⟩ ⟨n, wxg⟩ false = .ok (some (u + xb + wxg)) := by
  unfold dgpOls dgpSlx
  constructor <;> simp [vadd_rfl, binIf]

/-- C33: arguments of mismatching dimension give `None` (for all processes whose check returns). -/
theorem C33_mismatch (u : Fin n → ℝ) (xb wxg : Vec) (w : Wts) (rho lam : ℝ) (model : EModel) (im : InvMethod)
    (ybin : Bool) :
    (xb.1 ≠ n → dgpOls u xb = .ok none) ∧
    (xb.1 ≠ n ∨ wxg.1 ≠ n → dgpSlx u xb wxg ybin = .ok none) ∧
    (w.1 ≠ n → dgpErrproc u w lam model im = .ok none) ∧
    (xb.1 ≠ n ∨ w.1 ≠ n → dgpSperror u xb w lam model im ybin = .ok none) ∧
    (xb.1 ≠ n ∨ wxg.1 ≠ n ∨ w.1 ≠ n → dgpSlxerror u xb wxg w lam model im ybin = .ok none) ∧
    (xb.1 ≠ n ∨ w.1 ≠ n → dgpLag u xb w rho im ybin = .ok none) ∧
    (xb.1 ≠ n ∨ w.1 ≠ n → dgpLagerr u xb w rho lam model im ybin = .ok none) ∧
    (xb.1 ≠ n ∨ w.1 ≠ n → dgpMess u xb w rho = .ok none) ∧
    (xb.1 ≠ n ∨ wxg.1 ≠ n → dgpSpdurbin u xb wxg w rho im ybin = .ok none) ∧
    (xb.1 ≠ n ∨ wxg.1 ≠ n → dgpGns u xb wxg w rho lam model im ybin = .ok none) := by
  unfold dgpOls dgpSlx dgpErrproc dgpSperror dgpSlxerror dgpLag dgpLagerr dgpMess dgpSpdurbin dgpGns
  refine ⟨?_, ?_, ?_, ?_, ?_, ?_, ?_, ?_, ?_, ?_⟩ <;> intro h <;>
    by_cases h1 : xb.1 = n <;> by_cases h2 : wxg.1 = n <;> by_cases h3 : w.1 = n <;> simp_all

/-- C33, defect: for weights of the wrong size `dgp_spdurbin` and `dgp_gns` do not return `None` but go on
into a product of mismatching dimensions. -/
theorem C33_mismatch_violated (u xb wxg : Fin n → ℝ) (w : Wts) (hw : w.1 ≠ n) (rho lam : ℝ) (ybin : Bool) :
    dgpSpdurbin u ⟨n, xb⟩ ⟨n, wxg⟩ w rho .powerExp ybin = .error .valueError ∧
    dgpGns u ⟨n, xb⟩ ⟨n, wxg⟩ w rho lam .sar .powerExp ybin = .error .valueError := by
  unfold dgpSpdurbin dgpGns
  simp [hw]

/-- C33: the binary outcome is 0 or 1; unless `y` is constant both values occur. -/
theorem C33_make_bin (y : Fin n → ℝ) :
    (∀ i, makeBin y i = 0 ∨ makeBin y i = 1) ∧
    ((∃ i j, y i ≠ y j) → (∃ i, makeBin y i = 1) ∧ ∃ i, makeBin y i = 0) := by
  refine ⟨fun i => by unfold makeBin; split <;> simp, ?_⟩
  rintro ⟨a, b, hab⟩
  have hn : (0 : ℝ) < n := by
    have := a.pos
    exact_mod_cast this
  set mean := (∑ j, y j) / n with hm
  have hsum : ∑ j, (y j - mean) = 0 := by
    rw [Finset.sum_sub_distrib, Finset.sum_const, Finset.card_univ, Fintype.card_fin, nsmul_eq_mul, hm]
    field_simp; ring
  have hex : ∃ i, mean < y i := by
    by_contra hcon
    push Not at hcon
    have hz := (Finset.sum_eq_zero_iff_of_nonpos fun j _ => by have := hcon j; linarith).1 hsum
    have h1 := hz a (Finset.mem_univ a)
    have h2 := hz b (Finset.mem_univ b)
    exact hab (by linarith)
  have hex2 : ∃ i, ¬ mean < y i := by
    by_contra hcon
    push Not at hcon
    have : 0 < ∑ j, (y j - mean) := Finset.sum_pos (fun j _ => by have := hcon j; linarith) ⟨a, Finset.mem_univ a⟩
    linarith
  obtain ⟨i, hi⟩ := hex
  obtain ⟨j, hj⟩ := hex2
  exact ⟨⟨i, by unfold makeBin; rw [if_pos hi]⟩, ⟨j, by unfold makeBin; rw [if_neg hj]⟩⟩

/-- C33: `make_wx` returns the blocks `W x, W^2 x, ..., W^o x` in this order (the first block for `o <= 1`). -/
theorem C33_make_wx {C : Type} (W : C → C) (x : List C) (o : ℕ) :
    makeWx W x o = (List.range (max o 1)).flatMap fun i => x.map W^[i + 1] := by
  have key : ∀ m, (List.range m).foldl (fun (s : List C × List C) _ => (s.1.map W, s.2 ++ s.1.map W))
      (x.map W, x.map W) = (x.map W^[m + 1], (List.range (m + 1)).flatMap fun i => x.map W^[i + 1]) := by
    intro m
    induction m with
    | zero => simp
    | succ m ih =>
      rw [List.range_succ, List.foldl_append, List.foldl_cons, List.foldl_nil, ih]
      simp only [Prod.mk.injEq]
      have e : (x.map W^[m + 1]).map W = x.map W^[m + 1 + 1] := by
        rw [List.map_map, ← Function.iterate_succ']
      refine ⟨e, ?_⟩
      rw [e, List.range_succ (n := m + 1), List.flatMap_append]
      simp
  unfold makeWx
  split
  · next h =>
    obtain ⟨m, rfl⟩ : ∃ m, o = m + 1 := ⟨o - 1, by omega⟩
    simp only [Nat.add_sub_cancel, key]
    rw [show max (m + 1) 1 = m + 1 by omega]
  · next h =>
    rw [show max o 1 = 1 by omega]; simp

/-- C33: linear variance multipliers run from `vlow` to `vup`; a single observation fails. -/
theorem C33_vmult_linear (n : ℕ) (vlo vup : ℝ) :
    (2 ≤ n → ∃ v, vmultLinear n vlo vup = .ok v ∧ v.length = n ∧ v[0]? = some vlo ∧ v[n - 1]? = some vup) ∧
    vmultLinear 1 vlo vup = .error .zeroDivision := by
  refine ⟨fun h => ?_, by simp [vmultLinear]⟩
  have h1 : n ≠ 1 := by omega
  refine ⟨_, by unfold vmultLinear; rw [if_neg h1], by simp, ?_, ?_⟩
  · rw [List.getElem?_map, List.getElem?_range (by omega)]; simp
  · rw [List.getElem?_map, List.getElem?_range (by omega)]
    have hn : (n : ℝ) - 1 ≠ 0 := by
      have : (2 : ℝ) ≤ n := by exact_mod_cast h
      intro hh; linarith
    simp only [Option.map_some, Option.some.injEq]
    rw [Nat.cast_sub (by omega), Nat.cast_one]
    field_simp; ring

theorem flatRep_get (vup : List ℝ) (vlow : List ℕ) (g j : ℕ) (hg : g < vup.length) (hg' : g < vlow.length)
    (hj : j < vlow.getD g 0) :
    ((vup.zip vlow).flatMap fun p => List.replicate p.2 p.1)[(vlow.take g).sum + j]? = some (vup.getD g 0) := by
  induction g generalizing vup vlow with
  | zero =>
    cases vup with
    | nil => simp at hg
    | cons a vup =>
      cases vlow with
      | nil => simp at hg'
      | cons m vlow =>
        simp at hj
        simp [List.getElem?_append_left, hj]
  | succ g ih =>
    cases vup with
    | nil => simp at hg
    | cons a vup =>
      cases vlow with
      | nil => simp at hg'
      | cons m vlow =>
        have := ih vup vlow (by simpa using hg) (by simpa using hg') (by simpa using hj)
        simp only [List.zip_cons_cons, List.flatMap_cons, List.take_succ_cons, List.sum_cons, List.getD_cons_succ]
        rw [List.getElem?_append_right (by simp; omega), List.length_replicate, ← this]
        congr 1; omega

/-- C33: group variance multipliers: exactly when the group sizes add up to `n` (and there is one multiplier
per group), one value per observation, the observations of group `g` getting the multiplier of group `g`. -/
theorem C33_vmult_group (n : ℕ) (vlow : List ℕ) (vup : List ℝ) :
    (∀ v, vmultGroup n vlow vup = some v → v.length = n ∧
      ∀ g < vup.length, ∀ j < vlow.getD g 0, v[(vlow.take g).sum + j]? = some (vup.getD g 0)) ∧
    (vmultGroup n vlow vup = none ↔ ¬ (vup.length = vlow.length ∧ vlow.sum = n)) := by
  unfold vmultGroup
  constructor
  · intro v h
    split at h
    · next hc =>
      cases h
      refine ⟨?_, fun g hg j hj => flatRep_get vup vlow g j hg (hc.1 ▸ hg) hj⟩
      rw [List.length_flatMap]
      simp only [List.length_replicate]
      rw [← hc.2]
      congr 1
      have : (vup.zip vlow).map (fun p => p.2) = vlow := List.map_snd_zip hc.1.ge
      exact this
    · cases h
  · split <;> simp_all

/-- C33: `make_xb` includes the constant: coefficient 0 plus the inner product with the others. -/
theorem C33_make_xb {k : ℕ} (x : Matrix (Fin n) (Fin k) ℝ) (beta : List ℝ) :
    (beta.length = k + 1 → ∃ v, makeXb x beta = some v ∧
      ∀ i, v i = beta.getD 0 0 + ∑ j : Fin k, x i j * beta.getD (j.val + 1) 0) ∧
    (beta.length ≠ k + 1 → makeXb x beta = none) := by
  unfold makeXb
  exact ⟨fun h => ⟨_, by rw [if_neg (by omega)], fun i => rfl⟩, fun h => by rw [if_pos (Ne.symm h)]⟩

/-- Non-vacuity for C33: a lag process on two neighbours. -/
example : ∃ y, dgpLag (![1, 2] : Fin 2 → ℝ) ⟨2, ![3, 4]⟩ ⟨2, !![0, 1; 1, 0]⟩ (1/2) .trueInv false = .ok (some y) := by
  rw [C33_lag_defined, isUnit_iff_ne_zero, det_fin_two]; norm_num

end Spreg.DGP
