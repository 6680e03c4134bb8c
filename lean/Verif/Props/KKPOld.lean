import Verif.Model.KKPOld
import Verif.Props.PanelGLS4
import Verif.Props.Panel
/-
C148: the deprecated `GM_KKP` and its successor `GM_ErrorRE`.
-/
namespace Spreg.KKPOld
open Matrix Spreg Spreg.Lin Spreg.PanelML Spreg.GM Spreg.PanelGLS Spreg.Panel
open scoped Kronecker

variable {τ n k : Type} [Fintype τ] [Fintype n] [Fintype k] [DecidableEq τ] [DecidableEq n] [DecidableEq k]

theorem oldQ_false : oldQ τ n false = kkpQ1 τ n := rfl

theorem oldQ_mulVec (f : Bool) (v : τ × n → ℝ) : oldQ τ n f *ᵥ v = kkpQ f v := by
  rw [kkpQ_mat]
  congr 1
  cases f
  · rfl
  · rw [oldQ, if_pos rfl, if_pos rfl, quasi]
    congr 1
    ext a b
    simp

theorem oldEntries_eq (f : Bool) (W : Matrix n n ℝ) (u : τ × n → ℝ) : oldEntries f W u = kkpEntries f W u := by
  simp only [oldEntries, kkpEntries, oldQ_mulVec]

theorem oldMoments0_eq (W : Matrix n n ℝ) (u : τ × n → ℝ) : oldMoments0 W u = momentsKKP0 W u := by
  simp only [oldMoments0, momentsKKP0, oldEntries_eq, expo, Nat.sub_zero, pow_one]
  rw [mul_comm (_ - 1) (traceW2 W)]

theorem oldMoments1_eq (W : Matrix n n ℝ) (u : τ × n → ℝ) : oldMoments1 W u = momentsKKP1 W u := by
  simp only [oldMoments1, momentsKKP1, oldEntries_eq, expo, Nat.sub_self, pow_zero, mul_one, one_mul]

theorem oldMoments6_eq (W : Matrix n n ℝ) (u : τ × n → ℝ) : oldMoments6 W u = moments6 W u := by
  simp only [oldMoments6, moments6, oldMoments0_eq, oldMoments1_eq]

theorem oldGLS_eq (y : τ × n → ℝ) (x : Matrix (τ × n) k ℝ) (W : Matrix n n ℝ) (a b c : ℝ) :
    oldGLS y x W a b c = (kkpGLS y x W a b c).map fun f => ⟨f, Fintype.card n⟩ := by
  simp only [oldGLS, kkpGLS, oldQ_false, Option.map_map]
  rfl

theorem kkpOld_eq (opt3 : Moments (Fin 3) (Fin 3) → ℝ × ℝ)
    (opt6 : Moments (Fin 2 × Fin 3) (Fin 4) → Option (Matrix (Fin 2 × Fin 3) (Fin 2 × Fin 3) ℝ) → ℝ × ℝ × ℝ)
    (y : τ × n → ℝ) (x : Matrix (τ × n) k ℝ) (W : Matrix n n ℝ) (fullWeights : Bool) :
    kkpOld opt3 opt6 y x W fullWeights = (kkp opt3 opt6 y x W fullWeights).map fun f => ⟨f, Fintype.card n⟩ := by
  unfold kkpOld kkp
  rw [Option.map_bind]
  congr 1
  funext o
  simp only [oldMoments0_eq, oldMoments6_eq, oldQ_false, oldGLS_eq, Function.comp_apply, panelFilter]
  have ht : oldTau W = getTau W := rfl
  rw [ht]
  unfold kkpXi
  by_cases hz : (diagonal ![(opt3 (momentsKKP0 W o.u)).2 * (opt3 (momentsKKP0 W o.u)).2 / (↑(Fintype.card τ) - 1),
      (o.u - (opt3 (momentsKKP0 W o.u)).1 • bigW τ W *ᵥ o.u) ⬝ᵥ
          kkpQ1 τ n *ᵥ (o.u - (opt3 (momentsKKP0 W o.u)).1 • bigW τ W *ᵥ o.u) / ↑(Fintype.card n) *
        ((o.u - (opt3 (momentsKKP0 W o.u)).1 • bigW τ W *ᵥ o.u) ⬝ᵥ
          kkpQ1 τ n *ᵥ (o.u - (opt3 (momentsKKP0 W o.u)).1 • bigW τ W *ᵥ o.u) / ↑(Fintype.card n))] ⊗ₖ
      (if fullWeights = true then getTau W else 1) : Matrix (Fin 2 × Fin 3) (Fin 2 × Fin 3) ℝ) = 0
  · exact (if_pos hz).trans (congrArg _ (if_pos hz)).symm
  · refine (if_neg hz).trans (Eq.trans ?_ (congrArg _ (if_neg hz)).symm)
    rw [Option.map_bind]
    congr 1
    funext A
    simp only [Function.comp_apply]
    split <;> rfl

/-- `C148`. On the same stacked data the deprecated estimator and its successor solve the same moment conditions and return
the same coefficients, variance components, predictions, residuals and variances, and fail on the same data. -/
theorem C148_equal (opt3 : Moments (Fin 3) (Fin 3) → ℝ × ℝ)
    (opt6 : Moments (Fin 2 × Fin 3) (Fin 4) → Option (Matrix (Fin 2 × Fin 3) (Fin 2 × Fin 3) ℝ) → ℝ × ℝ × ℝ)
    (y : τ × n → ℝ) (x : Matrix (τ × n) k ℝ) (W : Matrix n n ℝ) (fullWeights : Bool) :
    (kkpOld opt3 opt6 y x W fullWeights).map OldFit.fit = kkp opt3 opt6 y x W fullWeights := by
  rw [kkpOld_eq, Option.map_map]
  cases kkp opt3 opt6 y x W fullWeights <;> rfl

/-- `C148` is violated for the attribute `n`: it is the number of units, not the number of observations, as soon as there is
more than one period. -/
theorem C148_n_violated [Nonempty n] (hT : 1 < Fintype.card τ) (opt3 : Moments (Fin 3) (Fin 3) → ℝ × ℝ)
    (opt6 : Moments (Fin 2 × Fin 3) (Fin 4) → Option (Matrix (Fin 2 × Fin 3) (Fin 2 × Fin 3) ℝ) → ℝ × ℝ × ℝ)
    (y : τ × n → ℝ) (x : Matrix (τ × n) k ℝ) (W : Matrix n n ℝ) (fullWeights : Bool) (f : OldFit τ n k)
    (h : kkpOld opt3 opt6 y x W fullWeights = some f) :
    f.n * Fintype.card τ = Fintype.card (τ × n) ∧ f.n ≠ Fintype.card (τ × n) := by
  have hn : f.n = Fintype.card n := by
    rw [kkpOld_eq] at h
    obtain ⟨g, -, rfl⟩ := Option.map_eq_some_iff.1 h
    rfl
  have hp : 0 < Fintype.card n := Fintype.card_pos
  rw [hn, Fintype.card_prod]
  refine ⟨mul_comm _ _, ?_⟩
  nlinarith

variable {α : Type}

/-- `C148` (wide data). The deprecated class stacks a wide panel as its successor does, and rejects an `x` whose number of
columns is not a multiple of the number of periods, of which the successor drops columns silently
(`C39_trailing_dropped_violated`). -/
theorem C148_wide (y x : Mat α) (wn : ℕ) (hw : wn ≠ 0) (hdiv : wn ∣ y.rows) (hT : y.cols > 1) (hx : x.rows = y.rows) :
    (y.cols ∣ x.cols → oldPanelData y x wn = checkPanelData y x wn) ∧
    (¬ y.cols ∣ x.cols → oldPanelData y x wn = .error .exception) := by
  constructor
  · intro hd
    have hk : x.cols = x.cols / y.cols * y.cols := (Nat.div_mul_cancel hd).symm
    rw [oldPanelData, checkPanelData, if_neg hw, if_neg hw, if_neg (not_not.2 hdiv), if_neg (not_not.2 hdiv)]
    simp only
    rw [if_neg (by omega), if_neg (fun h => h.1 hx), if_neg (fun h => h.2 hk), if_pos hT]
    rw [if_pos hT]
  · intro hd
    have h1 : x.cols ≠ x.cols / y.cols * y.cols := fun h => hd ⟨_, h.trans (mul_comm _ _)⟩
    have h2 : x.cols ≠ x.cols / y.cols := by
      intro h
      have h0 : 0 < x.cols := Nat.pos_of_ne_zero fun h0 => hd (h0 ▸ dvd_zero _)
      have := Nat.div_lt_self h0 hT
      omega
    rw [oldPanelData, if_neg hw, if_neg (not_not.2 hdiv)]
    simp only
    rw [if_neg (by omega), if_neg (fun h => h.1 hx), if_pos ⟨h2, h1⟩]

/-- `C148` (long data). One column in `y` and as many rows in `x`: the data pass through unchanged, as in the successor. -/
theorem C148_long (y x : Mat α) (wn : ℕ) (hw : wn ≠ 0) (hdiv : wn ∣ y.rows) (hT : y.cols = 1) (hx : x.rows = y.rows) :
    ∃ r r', oldPanelData y x wn = .ok r ∧ checkPanelData y x wn = .ok r' ∧ r.y = y ∧ r.x = x ∧ r'.y = y ∧ r'.x = x := by
  refine ⟨⟨y, x, x.cols / y.cols, y.cols⟩, ⟨y, x, x.cols, y.rows / wn⟩, ?_, ?_, rfl, rfl, rfl, rfl⟩
  · rw [oldPanelData, if_neg hw, if_neg (not_not.2 hdiv)]
    simp only
    rw [if_neg (by omega), if_neg (fun h => h.1 hx), if_neg (fun h => h.1 (by rw [hT, Nat.div_one])), if_neg (by omega)]
  · rw [checkPanelData, if_neg hw, if_neg (not_not.2 hdiv), if_neg (by omega)]

theorem flatten_replicate_get {L : Type} (l : List L) (i : ℕ) (hi : i < l.length) : ∀ (t s : ℕ), s < t →
    (List.replicate t l).flatten[s * l.length + i]? = l[i]?
  | 0, s, h => by omega
  | t + 1, 0, _ => by
    rw [List.replicate_succ, List.flatten_cons, zero_mul, zero_add, List.getElem?_append_left hi]
  | t + 1, s + 1, h => by
    rw [List.replicate_succ, List.flatten_cons, List.getElem?_append_right (by rw [add_mul, one_mul]; omega),
      show (s + 1) * l.length + i - l.length = s * l.length + i by rw [add_mul, one_mul]; omega,
      flatten_replicate_get l i hi t s (by omega)]

/-- `C148` (regimes). With one regime per unit, the observation of unit `i` in period `s` is in the regime of unit `i`; with
one regime per observation they are used as given; any other number is rejected. -/
theorem C148_regimes {L : Type} (regimes : List L) (N T : ℕ) (hN : 0 < N) :
    (regimes.length = N → ∃ l, setRegimes regimes N (T * N) = .ok l ∧ l.length = T * N ∧
      ∀ s < T, ∀ i < N, l[s * N + i]? = regimes[i]?) ∧
    (regimes.length = T * N → ∃ l, setRegimes regimes N (T * N) = .ok l ∧ l.length = T * N ∧
      (1 < T → l = regimes)) ∧
    (regimes.length ≠ N → regimes.length ≠ T * N → setRegimes regimes N (T * N) = .error .exception) := by
  have hdiv : T * N / N = T := Nat.mul_div_cancel _ hN
  have hrep : ∀ l : List L, l.length = N → setRegimes l N (T * N) = .ok (List.replicate T l).flatten := by
    intro l hl
    rw [setRegimes, if_pos hl, if_neg (by omega), hdiv]
  refine ⟨fun h => ⟨_, hrep _ h, by simp [h], fun s hs i hi => ?_⟩, fun h => ?_, fun h1 h2 => ?_⟩
  · subst h
    exact flatten_replicate_get _ _ hi _ _ hs
  · by_cases h1 : regimes.length = N
    · refine ⟨_, hrep _ h1, by simp [h1], fun hT => ?_⟩
      nlinarith
    · exact ⟨regimes, by rw [setRegimes, if_neg h1, if_pos h], h, fun _ => rfl⟩
  · rw [setRegimes, if_neg h1, if_neg h2]

/-- A wide panel and regimes by unit meet the hypotheses of `C148_wide` and `C148_regimes`. -/
example : (∃ r, oldPanelData (⟨3, 2, fun i t => 10 * i + t⟩ : Mat ℕ) ⟨3, 4, fun i j => 100 * i + j⟩ 3 = .ok r ∧
      r.x.get 4 1 = 103) ∧
    oldPanelData (⟨3, 2, fun i t => 10 * i + t⟩ : Mat ℕ) ⟨3, 5, fun i j => 100 * i + j⟩ 3 = .error .exception ∧
    setRegimes ["a", "b", "a"] 3 6 = .ok ["a", "b", "a", "a", "b", "a"] := ⟨⟨_, rfl, rfl⟩, rfl, rfl⟩

end Spreg.KKPOld
