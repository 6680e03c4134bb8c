import Verif.Model.Residuals
import Verif.Props.Cache
import Verif.Props.OptGMM
/-
Property C155: `utu`, `sig2n`, `sig2n_k` are those of the reported residuals.
-/
namespace Spreg.Cache
open Matrix Spreg.Lin
variable {n k : Type} [Fintype n]

/-- The statistics read from the object after any other reads. -/
def Shows (o : Obj n k) (t : ℝ) : Prop :=
  ∀ keys : List Key, let o' := run o (keys.map Op.read)
    o'.base = o.base ∧ (get o' .utu).1 = t ∧ (get o' .sig2n).1 = t / o.base.nobs ∧
      (get o' .sig2n_k).1 = t / (o.base.nobs - o.base.nvar)

/-- The statistics are those of the residuals in the object. -/
def Coherent (o : Obj n k) : Prop := Shows o (∑ i, o.base.u i ^ 2)

/-- The sum of squares `t` is cached; what else is cached agrees with it. -/
structure Inv (o : Obj n k) (t : ℝ) : Prop where
  utu : o.lookup .utu = some t
  sig2n : ∀ v, o.lookup .sig2n = some v → v = t / o.base.nobs
  sig2nk : ∀ v, o.lookup .sig2n_k = some v → v = t / (o.base.nobs - o.base.nvar)

theorem Inv.cur {o : Obj n k} {t : ℝ} (h : Inv o t) :
    cur o .utu = t ∧ cur o .sig2n = t / o.base.nobs ∧ cur o .sig2n_k = t / (o.base.nobs - o.base.nvar) := by
  refine ⟨by simp [Cache.cur, h.utu], ?_, ?_⟩
  · show (o.lookup .sig2n).getD ((o.lookup .utu).getD (utuOf o.base) / o.base.nobs) = _
    rw [h.utu]
    cases hv : o.lookup .sig2n with
    | none => rfl
    | some v => exact h.sig2n v hv
  · show (o.lookup .sig2n_k).getD ((o.lookup .utu).getD (utuOf o.base) / (o.base.nobs - o.base.nvar)) = _
    rw [h.utu]
    cases hv : o.lookup .sig2n_k with
    | none => rfl
    | some v => exact h.sig2nk v hv

theorem Inv.read {o : Obj n k} {t : ℝ} (h : Inv o t) (key : Key) : Inv (get o key).2 t ∧ (get o key).2.base = o.base := by
  obtain ⟨-, h2, h3, h4⟩ := get_spec o key
  obtain ⟨c1, c2, c3⟩ := h.cur
  refine ⟨⟨?_, ?_, ?_⟩, h2⟩
  · by_cases hk : key = .utu
    · subst hk; rw [h3, c1]
    · rcases h4 .utu (Ne.symm hk) with e | ⟨-, -, -, e⟩
      · rw [e, h.utu]
      · rw [e, c1]
  · intro v hv
    rw [h2]
    by_cases hk : key = .sig2n
    · subst hk; rw [h3] at hv; rw [← Option.some.inj hv, c2]
    · rcases h4 .sig2n (Ne.symm hk) with e | ⟨e, -⟩
      · exact h.sig2n v (e ▸ hv)
      · cases e
  · intro v hv
    rw [h2]
    by_cases hk : key = .sig2n_k
    · subst hk; rw [h3] at hv; rw [← Option.some.inj hv, c3]
    · rcases h4 .sig2n_k (Ne.symm hk) with e | ⟨e, -⟩
      · exact h.sig2nk v (e ▸ hv)
      · cases e

theorem Inv.shows {o : Obj n k} {t : ℝ} (h : Inv o t) : Shows o t := by
  intro keys
  show (run o (keys.map Op.read)).base = o.base ∧ _
  induction keys generalizing o with
  | nil =>
    obtain ⟨c1, c2, c3⟩ := h.cur
    exact ⟨rfl, (get_spec o .utu).1.trans c1, (get_spec o .sig2n).1.trans c2, (get_spec o .sig2n_k).1.trans c3⟩
  | cons a keys ih =>
    obtain ⟨hi, hb⟩ := h.read a
    have := ih hi
    rw [hb] at this
    exact this

theorem Shows.unique {o : Obj n k} {s t : ℝ} (hs : Shows o s) (ht : Shows o t) : s = t :=
  (hs []).2.1.symm.trans (ht []).2.1

/-- After the constructor the sum of squared residuals is cached. -/
theorem initReg_inv (b : Base n k) (s : Bool) (robust : Option (Matrix k k ℝ)) :
    Inv (initReg b s robust) (∑ i, b.u i ^ 2) ∧ (initReg b s robust).base.u = b.u ∧ (initReg b s robust).base.nobs = b.nobs ∧
      (initReg b s robust).base.nvar = b.nvar ∧
      (initReg b s robust).base.sig2 = (∑ i, b.u i ^ 2) / (if s then b.nobs - b.nvar else b.nobs) ∧
      (get (initReg b s robust) .vm).1 = match robust with
        | some v => v
        | none => ((∑ i, b.u i ^ 2) / (if s then b.nobs - b.nvar else b.nobs)) • b.xtxi := by
  have hne1 : Key.utu ≠ Key.vm := by decide
  have hne2 : Key.sig2n ≠ Key.vm := by decide
  have hne3 : Key.sig2n_k ≠ Key.vm := by decide
  cases s <;> cases robust <;>
    refine ⟨⟨?_, ?_, ?_⟩, ?_, ?_, ?_, ?_, ?_⟩ <;>
    simp [initReg, get, getSig2n, getSig2nk, getUtu, getVm, fresh, Obj.lookup, Obj.ensure, Obj.put, utuOf, Function.update, eq_comm]

/-- C155: plain least squares and two-stage least squares, with or without robust standard errors: `utu`, `sig2n`, `sig2n_k` and `sig2`
are those of the reported residuals, whatever is read before. -/
theorem C155_single (b : Base n k) (s : Bool) (robust : Option (Matrix k k ℝ)) :
    (initReg b s robust).base.u = b.u ∧ Coherent (initReg b s robust) ∧
      (initReg b s robust).base.sig2 = (∑ i, b.u i ^ 2) / (if s then b.nobs - b.nvar else b.nobs) := by
  obtain ⟨h1, h2, -, -, h5, -⟩ := initReg_inv b s robust
  refine ⟨h2, ?_, h5⟩
  unfold Coherent
  rw [h2]
  exact h1.shows

/-- C155: the classes with one equation per regime. -/
theorem C155_assembled (b : Base n k) : Coherent (assembled b) := by
  intro keys
  obtain ⟨h1, h2, h3, h4, -⟩ := C22_reads_only b keys
  exact ⟨h1, h2, h3, h4⟩

/-- A second step leaves the statistics of the first. -/
theorem propsBasic_shows {o : Obj n k} {t : ℝ} (h : Inv o t) (u : n → ℝ) (s2 : Option ℝ) (vm : Matrix k k ℝ) :
    Shows (propsBasic o u s2 vm) t ∧ (propsBasic o u s2 vm).base.u = u := by
  refine ⟨Inv.shows ⟨?_, ?_, ?_⟩, rfl⟩
  · unfold propsBasic
    rw [lookup_put_ne _ _ (by decide)]
    exact h.utu
  · intro v hv
    unfold propsBasic at hv
    rw [lookup_put_ne _ _ (by decide)] at hv
    exact h.sig2n v hv
  · intro v hv
    unfold propsBasic at hv
    rw [lookup_put_ne _ _ (by decide)] at hv
    exact h.sig2nk v hv

/-- C155 is violated by `OLS_Regimes` with groupwise heteroskedasticity: the statistics are those of ordinary least squares, and
smaller than those of the reported residuals as soon as the weighting changes a coefficient. -/
theorem C155_groupwise_violated [Fintype k] [DecidableEq k] (x : Matrix n k ℝ) (y : n → ℝ) (f : OLSFit n k) (hf : ols x y = some f)
    (b : Base n k) (hb : b.u = f.u) (s : Bool) (betas : k → ℝ) (vm : Matrix k k ℝ) (hne : betas ≠ f.betas) :
    let o := groupwise b s (y - x *ᵥ betas) vm
    o.base.u = y - x *ᵥ betas ∧ Shows o (∑ i, f.u i ^ 2) ∧ ∑ i, f.u i ^ 2 < ∑ i, o.base.u i ^ 2 ∧ ¬ Coherent o := by
  intro o
  obtain ⟨h1, h2⟩ := propsBasic_shows (initReg_inv b s none).1 (y - x *ᵥ betas) none vm
  rw [hb] at h1
  have hlt : ∑ i, f.u i ^ 2 < ∑ i, o.base.u i ^ 2 := by
    rw [show o.base.u = _ from h2]
    obtain ⟨hle, heq⟩ := C07_minimises x y f hf betas
    exact lt_of_le_of_ne hle fun e => hne (heq e.symm)
  exact ⟨h2, h1, hlt, fun hc => hlt.ne (h1.unique hc)⟩

/-- C155: `sig2` after the weighted step is, unlike `utu` and `sig2n`, the mean square of the reported residuals; with
optimal-weighted GMM it is False. -/
theorem C155_sig2 (b : Base n k) (s : Bool) (u : n → ℝ) (vm : Matrix k k ℝ) (f : OptGMM.Fit n k) (hf : f.sig2 = none) :
    (groupwise b s u vm).base.sig2 = (∑ i, u i ^ 2) / b.nobs ∧ (optimal b s f).base.sig2 = 0 := by
  have h : ∀ r, (initReg b s r).base.nobs = b.nobs := by
    intro r
    cases s <;> cases r <;>
      simp [initReg, get, getSig2n, getSig2nk, getUtu, fresh, Obj.lookup, Obj.ensure, Obj.put]
  constructor
  · show (∑ i, u i ^ 2) / (initReg b s none).base.nobs = _
    rw [h]
  · show f.sig2.getD 0 = 0
    rw [hf]; rfl

/-- C155 is violated by optimal-weighted GMM: the statistics are those of the first step and `sig2` is False. -/
theorem C155_optimal_violated [Fintype k] [DecidableEq k] {l : Type} [Fintype l] [DecidableEq l] (z : Matrix n k ℝ) (h : Matrix n l ℝ)
    (y : n → ℝ) (s : Bool) (f : TSLSFit n k l) (hf : tslsZH z h y = some f) (g : OptGMM.Fit n k)
    (hg : OptGMM.ogmm z h y s = some g) (b : Base n k) (hb : b.u = f.u) :
    let o := optimal b s g
    o.base.u = g.u ∧ Shows o (∑ i, f.u i ^ 2) ∧ g.sig2 = none ∧
      (∑ i, f.u i ^ 2 ≠ ∑ i, g.u i ^ 2 → ¬ Coherent o) := by
  intro o
  obtain ⟨h1, h2⟩ := propsBasic_shows (initReg_inv b s (some g.vm)).1 g.u (some (g.sig2.getD 0)) g.vm
  rw [hb] at h1
  refine ⟨h2, h1, ?_, fun hne hc => hne ?_⟩
  · unfold OptGMM.ogmm at hg
    rw [hf, Option.bind_some] at hg
    unfold OptGMM.optimalWeight at hg
    rw [Option.bind_eq_some_iff] at hg
    obtain ⟨a, -, hg⟩ := hg
    rw [Option.map_eq_some_iff] at hg
    obtain ⟨v, -, rfl⟩ := hg
    rfl
  · have := h1.unique hc
    rw [this]
    show ∑ i, (optimal b s g).base.u i ^ 2 = _
    rw [show (optimal b s g).base.u = g.u from h2]

/-- The sums of squares do differ: three observations, one regressor, two instruments. -/
theorem C155_optimal_differs (s : Bool) : ∃ f g, tslsZH OptGMM.exZ OptGMM.exH OptGMM.exY = some f ∧
    OptGMM.ogmm OptGMM.exZ OptGMM.exH OptGMM.exY s = some g ∧ ∑ i, f.u i ^ 2 ≠ ∑ i, g.u i ^ 2 := by
  obtain ⟨f, g, hf, hg, h1, h2⟩ := OptGMM.ex_ogmm s
  refine ⟨f, g, hf, hg, ?_⟩
  rw [h1, h2]
  simp only [Fin.sum_univ_three, show (2 : Fin 3) ≠ 0 by decide, show (2 : Fin 3) ≠ 1 by decide]
  norm_num

end Spreg.Cache
