import Verif.Model.SURLag
import Verif.Spec.SURLag
import Verif.Props.Lags
import Verif.Props.SUR3
import Verif.Props.SUROrder
set_option linter.unusedSectionVars false
namespace Spreg.SURLag
open Spreg Spreg.Spec Spreg.Lags Matrix

variable {α : Type} {ne : ℕ}

theorem lagLoop_eq (W : α → α) (x : List α) (m : ℕ) :
    ∀ p acc, lagLoop W m (x.map (lagPow W p)) acc = acc ++ lagBlocks W x (p + 1) m := by
  induction m with
  | zero => intro p acc; simp [lagLoop, lagBlocks]
  | succ m ih =>
    intro p acc
    have e : (x.map (lagPow W p)).map W = x.map (lagPow W (p + 1)) := by simp [lagPow]
    rw [lagLoop, e, ih]
    simp [lagBlocks, List.range'_succ]

theorem lags_eq (W : α → α) (x : List α) (m : ℕ) (hm : 1 ≤ m) : lags W x m = lagBlocks W x 1 m := by
  obtain ⟨d, rfl⟩ : ∃ d, m = d + 1 := ⟨m - 1, by omega⟩
  have e : x.map W = x.map (lagPow W 1) := by simp [lagPow]
  rw [lags, e, Nat.add_sub_cancel, lagLoop_eq]
  simp [lagBlocks, List.range'_succ]

theorem surLabel_succ (p : ℕ) (hp : 1 ≤ p) (s : String) : "W" ++ surLabel p s = surLabel (p + 1) s := by
  have : p ≠ 0 := by omega
  simp only [surLabel, this, if_false, Nat.succ_ne_zero, List.replicate_succ]
  rw [String.ofList_cons, ← String.append_assoc, ← String.append_assoc]
  rfl

theorem nameLoop_eq (nm : List String) (m : ℕ) :
    ∀ p acc, 1 ≤ p → nameLoop m (nm.map (surLabel p)) acc =
      acc ++ (List.range' (p + 1) m).flatMap fun i => nm.map (surLabel i) := by
  induction m with
  | zero => intro p acc _; simp [nameLoop]
  | succ m ih =>
    intro p acc hp
    have e : (nm.map (surLabel p)).map ("W" ++ ·) = nm.map (surLabel (p + 1)) := by
      simp [surLabel_succ p hp]
    rw [nameLoop, e, ih (p + 1) _ (by omega)]
    simp [List.range'_succ]

theorem surLabel_one (s : String) : surLabel 1 s = "W_" ++ s := by
  simp [surLabel]

theorem lagNames_eq (nm : List String) (m : ℕ) (hm : 1 ≤ m) :
    lagNames nm m = (List.range' 1 m).flatMap fun p => nm.map (surLabel p) := by
  obtain ⟨d, rfl⟩ : ∃ d, m = d + 1 := ⟨m - 1, by omega⟩
  have e : nm.map ("W_" ++ ·) = nm.map (surLabel 1) := by
    simp [surLabel_one]
  rw [lagNames, e, Nat.add_sub_cancel, nameLoop_eq _ _ _ _ le_rfl]
  simp [List.range'_succ]

theorem ok_conv (W : α → α) (a : Args ne α) (m : ℕ) (lagQ : Bool) (o : Out ne α) (h : surLag W a m lagQ = .ok o) :
    1 ≤ m ∧ (a.yend.isSome → a.q.isSome) ∧ o = {
      X := a.X, yend := endog W a, q := instr W a m lagQ
      nameY := namesY a, nameX := namesX a, nameYend := namesYend a, nameQ := namesQ a m lagQ
      after := { a with
        yend := a.yend.map fun _ => endog W a
        q := a.q.map fun _ => instr W a m lagQ
        nameYend := a.nameYend.map fun _ => namesYend a
        nameQ := a.nameQ.map fun _ => namesQ a m lagQ } } := by
  unfold surLag at h
  split at h
  · cases h
  · next h1 =>
    split at h
    · cases h
    · next h2 =>
      injection h with h
      refine ⟨by omega, ?_, h.symm⟩
      cases hy : a.yend <;> cases hq : a.q <;> simp_all

/-- C170: the constructor goes through exactly when the order of lags is at least one and instruments come with endogenous variables. -/
theorem C170_succeeds (W : α → α) (a : Args ne α) (m : ℕ) (lagQ : Bool) :
    (∃ o, surLag W a m lagQ = .ok o) ↔ 1 ≤ m ∧ (a.yend.isSome → a.q.isSome) := by
  constructor
  · rintro ⟨o, h⟩
    exact ⟨(ok_conv W a m lagQ o h).1, (ok_conv W a m lagQ o h).2.1⟩
  · rintro ⟨h1, h2⟩
    unfold surLag
    have c1 : (a.yend.isSome && a.q.isNone) = false := by
      cases hy : a.yend <;> cases hq : a.q <;> simp_all
    rw [c1]
    have c2 : m ≠ 0 := by omega
    simp [c2]

/-- C170: the model that is estimated. Endogenous are the variables given and `W y`, instruments the variables given, the lags of orders
`1, ..., m` of the exogenous variables without the constant, and with `lag_q` those of the instruments given. -/
theorem C170_model (W : α → α) (a : Args ne α) (m : ℕ) (lagQ : Bool) (o : Out ne α) (h : surLag W a m lagQ = .ok o) (r : Fin ne) :
    let q := (a.q.map (· r)).getD []
    o.X r = a.X r ∧ o.yend r = (a.yend.map (· r)).getD [] ++ [W (a.y r)] ∧
    o.q r = q ++ lagBlocks W (a.X r).tail 1 m ++ (if lagQ then lagBlocks W q 1 m else []) := by
  obtain ⟨hm, _, rfl⟩ := ok_conv W a m lagQ o h
  refine ⟨rfl, ?_, ?_⟩
  · simp only [endog]
    cases a.yend <;> simp
  · simp only [instr]
    cases a.q with
    | none =>
      have e : lagBlocks W ([] : List α) 1 m = [] := by simp [lagBlocks]
      simp [lags_eq _ _ _ hm, e]
    | some f => cases lagQ <;> simp [lags_eq _ _ _ hm]

theorem describes_lags (W : α → α) (base : List (String × α)) (nm : List String) (x : List α) (hl : nm.length = x.length)
    (hb : ∀ b ∈ nm.zip x, b ∈ base) (s m : ℕ) :
    SurDescribes W base ((List.range' s m).flatMap fun p => nm.map (surLabel p)) (lagBlocks W x s m) := by
  induction m generalizing s with
  | zero => simp [SurDescribes, lagBlocks]
  | succ m ih =>
    simp only [lagBlocks, List.range'_succ, List.flatMap_cons]
    refine List.rel_append ?_ (ih (s + 1))
    rw [List.forall₂_map_left_iff, List.forall₂_map_right_iff, List.forall₂_iff_zip]
    refine ⟨hl, fun {u v} hz => ⟨s, (u, v), hb _ hz, rfl, rfl⟩⟩

theorem describes_base (W : α → α) (base : List (String × α)) (nm : List String) (x : List α) (hl : nm.length = x.length)
    (hb : ∀ b ∈ nm.zip x, b ∈ base) : SurDescribes W base nm x := by
  rw [SurDescribes, List.forall₂_iff_zip]
  exact ⟨hl, fun {u v} hz => ⟨0, (u, v), hb _ hz, rfl, rfl⟩⟩

theorem genNames_length (pre : String) (k r : ℕ) : (genNames pre k r).length = k := by simp [genNames]

theorem namesX_length (a : Args ne α) (r : Fin ne) (hx : ∀ f, a.nameX = some f → (f r).length = (a.X r).length)
    (h0 : a.X r ≠ []) : (namesX a r).length = (a.X r).length := by
  unfold namesX
  cases h : a.nameX with
  | some f => exact hx f h
  | none =>
    have : 0 < (a.X r).length := List.length_pos_iff.2 h0
    simp [genNames_length]; omega

/-- C170: the names reported describe the columns position by position: those of the endogenous variables are names of the variables given
followed by `W_` and the name of the dependent variable, and each name of an instrument is the label of the lag which the column is. -/
theorem C170_names (W : α → α) (a : Args ne α) (m : ℕ) (lagQ : Bool) (o : Out ne α) (h : surLag W a m lagQ = .ok o) (r : Fin ne)
    (hx : ∀ f, a.nameX = some f → (f r).length = (a.X r).length) (h0 : a.X r ≠ []) :
    let ye := (a.yend.map (· r)).getD []
    let q := (a.q.map (· r)).getD []
    (o.nameX r).length = (o.X r).length ∧
    SurDescribes W ((genNames "end_" ye.length r).zip ye ++ [(o.nameY r, a.y r)]) (o.nameYend r) (o.yend r) ∧
    SurDescribes W ((o.nameX r).tail.zip (a.X r).tail ++ (genNames "inst_" q.length r).zip q) (o.nameQ r) (o.q r) := by
  obtain ⟨hm, _, rfl⟩ := ok_conv W a m lagQ o h
  have hX := namesX_length a r hx h0
  have ht : (namesX a r).tail.length = (a.X r).tail.length := by simp [hX]
  refine ⟨hX, ?_, ?_⟩
  · have one : ∀ base, (namesY a r, a.y r) ∈ base → SurDescribes W base ["W_" ++ namesY a r] [W (a.y r)] := fun base hb =>
      List.Forall₂.cons ⟨1, _, hb, (surLabel_one _).symm, rfl⟩ List.Forall₂.nil
    simp only [namesYend, endog]
    cases a.yend with
    | none => exact one _ (by simp)
    | some f =>
      refine List.rel_append (describes_base W _ _ _ (genNames_length _ _ _) ?_) (one _ (by simp))
      intro b hb; simp [hb]
  · simp only [namesQ, instr]
    have lx : ∀ base, (∀ b ∈ (namesX a r).tail.zip (a.X r).tail, b ∈ base) →
        SurDescribes W base (lagNames (namesX a r).tail m) (lags W (a.X r).tail m) := fun base hb => by
      rw [lagNames_eq _ _ hm, lags_eq _ _ _ hm]
      exact describes_lags W base _ _ ht hb 1 m
    cases a.q with
    | none => exact lx _ fun b hb => by simp [hb]
    | some f =>
      have lq : ∀ base, (∀ b ∈ (genNames "inst_" (f r).length r).zip (f r), b ∈ base) →
          SurDescribes W base (lagNames (genNames "inst_" (f r).length r) m) (lags W (f r) m) := fun base hb => by
        rw [lagNames_eq _ _ hm, lags_eq _ _ _ hm]
        exact describes_lags W base _ _ (genNames_length _ _ _) hb 1 m
      have bq : ∀ base, (∀ b ∈ (genNames "inst_" (f r).length r).zip (f r), b ∈ base) →
          SurDescribes W base (genNames "inst_" (f r).length r) (f r) := fun base hb =>
        describes_base W base _ _ (genNames_length _ _ _) hb
      cases lagQ with
      | false =>
        exact List.rel_append (bq _ fun b hb => by simp [hb]) (lx _ fun b hb => by simp [hb])
      | true =>
        exact List.rel_append (List.rel_append (bq _ fun b hb => by simp [hb]) (lx _ fun b hb => by simp [hb]))
          (lq _ fun b hb => by simp [hb])

/-- C170: a call without further endogenous variables and instruments leaves the caller's dictionaries alone, so a second call gives the
same. Partial: see `C170_repeat_violated` for the other calls. -/
theorem C170_pure_partial (W : α → α) (a : Args ne α) (m : ℕ) (lagQ : Bool) (o : Out ne α) (h : surLag W a m lagQ = .ok o)
    (h1 : a.yend = none) (h2 : a.q = none) (h3 : a.nameYend = none) (h4 : a.nameQ = none) :
    o.after = a ∧ surLag W o.after m lagQ = .ok o := by
  obtain ⟨hm, _, ho⟩ := ok_conv W a m lagQ o h
  have e : o.after = a := by
    subst ho
    ext <;> simp_all
  exact ⟨e, e ▸ h⟩

/-- C170 violated: names given for the endogenous variables and the instruments have no effect on the names reported. -/
theorem C170_user_names_violated (W : α → α) (a : Args ne α) (m : ℕ) (lagQ : Bool) (u v : Option (Fin ne → List String)) :
    ((surLag W { a with nameYend := u, nameQ := v } m lagQ).map fun o => (o.nameYend, o.nameQ)) =
      (surLag W a m lagQ).map fun o => (o.nameYend, o.nameQ) := by
  unfold surLag
  simp only
  split
  · rfl
  · split
    · rfl
    · rfl

variable {n : Type} [Fintype n]

theorem dup_none (y : Fin ne → n → ℝ) (o : Out ne (n → ℝ)) (r : Fin ne) (i j : Fin (o.yend r).length) (hij : i ≠ j)
    (he : (o.yend r)[i] = (o.yend r)[j]) : fit y o = none := by
  classical
  by_contra hne
  obtain ⟨f, hf⟩ := Option.ne_none_iff_exists'.1 hne
  unfold fit at hf
  obtain ⟨t, ht, _⟩ := SUR.C72_threesls _ _ _ _ f hf r
  unfold Lin.tsls Lin.tslsZH at ht
  rw [Option.bind_eq_some_iff] at ht
  obtain ⟨hthi, _, ht⟩ := ht
  rw [Option.map_eq_some_iff] at ht
  obtain ⟨varb, hv, _⟩ := ht
  obtain ⟨hu, _⟩ := Lin.inv?_eq_some hv
  set z := fromCols (cols (o.X r)) (cols (o.yend r)) with hz
  set hm := fromCols (cols (o.X r)) (cols (o.q r)) with hh
  let v : Fin (o.X r).length ⊕ Fin (o.yend r).length → ℝ := Pi.single (Sum.inr i) 1 - Pi.single (Sum.inr j) 1
  have hzv : z *ᵥ v = 0 := by
    funext k
    simp only [v, mulVec_sub, mulVec_single, MulOpposite.op_one, one_smul, Pi.sub_apply, Pi.zero_apply]
    simp only [hz, col, transpose_apply, fromCols_apply_inr, cols, of_apply, he, sub_self]
  have : v = 0 := by
    have h2 := congrArg (fun M => M *ᵥ v) (nonsing_inv_mul _ hu)
    simp only [one_mulVec, ← mulVec_mulVec, transpose_mul, transpose_transpose] at h2
    rw [← h2, hzv]; simp
  have h3 := congrFun this (Sum.inr i)
  simp [v, hij] at h3

/-- C170 violated: with further endogenous variables the call stores `W y` and the lags into the caller's dictionaries; the same call with
the same objects has `W y` twice among the endogenous variables and cannot be estimated. -/
theorem C170_repeat_violated (W : (n → ℝ) → n → ℝ) (a : Args ne (n → ℝ)) (m : ℕ) (lagQ : Bool) (hm : 1 ≤ m)
    (ye q : Fin ne → List (n → ℝ)) (h1 : a.yend = some ye) (h2 : a.q = some q) (r : Fin ne) :
    ∃ o o2, surLag W a m lagQ = .ok o ∧ o.yend r = ye r ++ [W (a.y r)] ∧ surLag W o.after m lagQ = .ok o2 ∧
      o2.yend r = ye r ++ [W (a.y r), W (a.y r)] ∧ fit a.y o2 = none := by
  obtain ⟨o, ho⟩ := (C170_succeeds W a m lagQ).2 ⟨hm, fun _ => by simp [h2]⟩
  obtain ⟨_, _, e⟩ := ok_conv W a m lagQ o ho
  have a1 : o.after.yend = some fun r => ye r ++ [W (a.y r)] := by
    subst e; simp only [h1, Option.map_some]; congr 1; funext s; simp [endog, h1]
  have a2 : o.after.q.isSome := by subst e; simp [h2]
  have a3 : o.after.y = a.y := by subst e; rfl
  obtain ⟨o2, ho2⟩ := (C170_succeeds W o.after m lagQ).2 ⟨hm, fun _ => a2⟩
  have e1 := (C170_model W a m lagQ o ho r).2.1
  have e2 := (C170_model W _ m lagQ o2 ho2 r).2.1
  rw [a1, a3] at e2
  rw [h1] at e1
  simp only [Option.map_some, Option.getD_some] at e1 e2
  have e3 : o2.yend r = ye r ++ [W (a.y r), W (a.y r)] := by rw [e2]; simp
  refine ⟨o, o2, ho, e1, ho2, e3, ?_⟩
  have hl : (o2.yend r).length = (ye r).length + 2 := by rw [e3]; simp
  refine dup_none a.y o2 r ⟨(ye r).length, by omega⟩ ⟨(ye r).length + 1, by omega⟩ (by simp) ?_
  simp [e3]

theorem perm_equiv {β : Type} {l l' : List β} (h : l.Perm l') : ∃ e : Fin l.length ≃ Fin l'.length, ∀ i, l.get i = l'.get (e i) := by
  induction h with
  | nil => exact ⟨Equiv.refl _, fun i => i.elim0⟩
  | cons x _ ih =>
    obtain ⟨e, he⟩ := ih
    let e' := (finSuccEquiv _).trans ((Equiv.optionCongr e).trans (finSuccEquiv _).symm)
    refine ⟨e', fun i => ?_⟩
    refine Fin.cases ?_ (fun i => ?_) i
    · simp [e']
    · simpa [e'] using he i
  | swap x y l =>
    refine ⟨Equiv.swap ⟨0, by simp⟩ ⟨1, by simp⟩, fun i => ?_⟩
    match i with
    | ⟨0, _⟩ => simp
    | ⟨1, _⟩ => simp
    | ⟨k + 2, hk⟩ => rw [Equiv.swap_apply_of_ne_of_ne (by simp [Fin.ext_iff]) (by simp [Fin.ext_iff])]; simp
  | trans _ _ ih1 ih2 =>
    obtain ⟨e1, h1⟩ := ih1
    obtain ⟨e2, h2⟩ := ih2
    exact ⟨e1.trans e2, fun i => (h1 i).trans (h2 (e1 i))⟩

/-- Two stage least squares does not depend on the order of the instruments. -/
theorem tslsZH_instr {k l l' : Type} [Fintype k] [Fintype l] [Fintype l'] [DecidableEq k] [DecidableEq l] [DecidableEq l']
    (e : l ≃ l') (z : Matrix n k ℝ) (h : Matrix n l ℝ) (h' : Matrix n l' ℝ) (hh : h = h'.submatrix id e) (y : n → ℝ) :
    ((Lin.tslsZH z h y).map fun t => (t.betas, t.predy, t.u, t.varb)) =
      (Lin.tslsZH z h' y).map fun t => (t.betas, t.predy, t.u, t.varb) := by
  subst hh
  unfold Lin.tslsZH
  have e1 : (h'.submatrix id e)ᵀ * h'.submatrix id e = (h'ᵀ * h').submatrix e e := by
    rw [transpose_submatrix, submatrix_mul _ _ _ _ _ Function.bijective_id]
  rw [e1, SUR.inv?_submatrix]
  cases hi : Lin.inv? (h'ᵀ * h') with
  | none => rfl
  | some B =>
    simp only [Option.map_some, Option.bind_some]
    have e2 : zᵀ * h'.submatrix id e = (zᵀ * h').submatrix id e := by
      ext; simp [mul_apply]
    have e3 : (zᵀ * h').submatrix id e * B.submatrix e e = (zᵀ * h' * B).submatrix id e := by
      rw [submatrix_mul_equiv]
    have e4 : (zᵀ * h' * B).submatrix id e * ((zᵀ * h').submatrix id e)ᵀ = zᵀ * h' * B * (zᵀ * h')ᵀ := by
      rw [transpose_submatrix, submatrix_mul_equiv]; simp
    rw [e2, e3, e4]
    cases Lin.inv? (zᵀ * h' * B * (zᵀ * h')ᵀ) with
    | none => rfl
    | some V =>
      simp only [Option.map_some, Option.some.injEq]
      have e5 : (V * (zᵀ * h' * B).submatrix id e) *ᵥ ((h'.submatrix id e)ᵀ *ᵥ y) = (V * (zᵀ * h' * B)) *ᵥ (h'ᵀ *ᵥ y) := by
        have : V * (zᵀ * h' * B).submatrix id e = (V * (zᵀ * h' * B)).submatrix id e := by ext; simp [mul_apply]
        rw [this]
        simp only [mulVec_mulVec, transpose_submatrix]
        rw [submatrix_mul_equiv]; simp
      rw [e5]

theorem lagBlocks_append (W : α → α) (x q : List α) (m : ℕ) :
    (lagBlocks W x 1 m ++ lagBlocks W q 1 m).Perm (lagBlocks W (x ++ q) 1 m) := by
  simp only [lagBlocks, List.map_append]
  exact List.flatMap_append_perm _ _ _

theorem tsls_perm {k k2 : Type} [Fintype k] [DecidableEq k] [Fintype k2] [DecidableEq k2] (x : Matrix n k ℝ) (ye : Matrix n k2 ℝ)
    (l l' : List (n → ℝ)) (h : l.Perm l') (y : n → ℝ) :
    ((Lin.tsls x ye (cols l) y).map fun t => (t.betas, t.predy, t.u, t.varb)) =
      (Lin.tsls x ye (cols l') y).map fun t => (t.betas, t.predy, t.u, t.varb) := by
  obtain ⟨e, he⟩ := perm_equiv h
  refine tslsZH_instr (Equiv.sumCongr (Equiv.refl k) e) _ _ _ ?_ y
  ext i j
  rcases j with j | j
  · rfl
  · have := congrFun (he j) i
    simpa [cols] using this

/-- C170: first stage. The coefficients and residuals of equation `r` are those of the two stage least squares estimator of the spatial lag
model of this equation alone (`GM_Lag` with the same variables, orders of lags and `lag_q`). -/
theorem C170_gm_lag (W : (n → ℝ) → n → ℝ) (a : Args ne (n → ℝ)) (m : ℕ) (lagQ : Bool) (o : Out ne (n → ℝ))
    (h : surLag W a m lagQ = .ok o) (hb : a.q.isSome → a.yend.isSome)
    (f : SUR.Fit3 n (Fin ne) fun r => Fin (o.X r).length ⊕ Fin (o.yend r).length) (hf : fit a.y o = some f) (r : Fin ne) :
    ∃ e, setEndog W (a.y r) (a.X r).tail (a.yend.map (· r)) (a.q.map (· r)) m lagQ 0 .all = .ok e ∧ e.yend = o.yend r ∧
      ∃ t, Lin.tsls (cols (a.X r)) (cols e.yend) (cols e.q) (a.y r) = some t ∧ (∀ i, t.u i = f.tslsE i r) ∧
        (∀ i, ∀ hi : i < (a.X r).length, ∀ hi', t.betas (.inl ⟨i, hi⟩) = f.b2SLS r (.inl ⟨i, hi'⟩)) ∧
        (∀ i, ∀ hi hi', t.betas (.inr ⟨i, hi⟩) = f.b2SLS r (.inr ⟨i, hi'⟩)) := by
  classical
  obtain ⟨m1, m2, m3⟩ := C170_model W a m lagQ o h r
  obtain ⟨hm, hs, _⟩ := ok_conv W a m lagQ o h
  have mm : max m 1 = m := by omega
  have : ∃ e, setEndog W (a.y r) (a.X r).tail (a.yend.map (· r)) (a.q.map (· r)) m lagQ 0 .all = .ok e ∧ e.yend = o.yend r ∧
      (o.q r).Perm e.q := by
    rw [m2, m3]
    cases hy : a.yend with
    | none =>
      have hq : a.q = none := by
        cases hq : a.q with
        | none => rfl
        | some q => simp [hy, hq] at hb
      rw [hq]
      simp only [Option.map_none, C04_setEndog_none]
      refine ⟨_, rfl, rfl, ?_⟩
      have : lagBlocks W ([] : List (n → ℝ)) 1 m = [] := by simp [lagBlocks]
      simp [mm, this]
    | some ye =>
      obtain ⟨q, hq⟩ := Option.isSome_iff_exists.1 (hs (by simp [hy]))
      rw [hq]
      simp only [Option.map_some, C04_setEndog_some]
      refine ⟨_, rfl, rfl, ?_⟩
      simp only [mm, Option.getD_some]
      cases lagQ with
      | false => simp
      | true =>
        rw [List.append_assoc]
        exact (lagBlocks_append W _ _ m).append_left _
  obtain ⟨e, he, hye, hp⟩ := this
  refine ⟨e, he, hye, ?_⟩
  unfold fit at hf
  obtain ⟨t, ht, hb, hu, _⟩ := SUR.C72_threesls _ _ _ _ f hf r
  have key := tsls_perm (cols (o.X r)) (cols (o.yend r)) _ _ hp (a.y r)
  rw [ht, Option.map_some, eq_comm, Option.map_eq_some_iff] at key
  obtain ⟨t', ht', e'⟩ := key
  simp only [Prod.mk.injEq] at e'
  obtain ⟨eb, -, eu, -⟩ := e'
  clear he
  revert m1 hye
  generalize a.X r = X1
  obtain ⟨y1, q1, l1⟩ := e
  intro h1 h2
  simp only at h2 ht' ⊢
  subst h1 h2
  refine ⟨t', ht', fun i => ?_, fun i hi hi' => ?_, fun i hi hi' => ?_⟩
  · rw [eu]; exact (hu i).symm
  · rw [eb, hb]
  · rw [eb, hb]

/-! ### A concrete case: six regions on a ring, two equations -/

/-- The next region on the ring. -/
def shift6 (v : Fin 6 → ℝ) : Fin 6 → ℝ := fun i => v (i + 1)
def x6 : Fin 6 → ℝ := ![1, 0, 0, -1, 0, 0]
def a6 : Fin 2 → Fin 6 → ℝ := ![![1, -1, 0, 1, -1, 0], ![1, 1, -2, 1, 1, -2]]
/-- Two equations with a constant and one regressor. -/
def args6 : Args 2 (Fin 6 → ℝ) :=
  { y := fun r => x6 + a6 r, X := fun _ => [fun _ => 1, x6], yend := none, q := none
    nameY := none, nameX := none, nameYend := none, nameQ := none }
def out6 : Out 2 (Fin 6 → ℝ) :=
  { X := args6.X, yend := endog shift6 args6, q := instr shift6 args6 1 true
    nameY := namesY args6, nameX := namesX args6, nameYend := namesYend args6, nameQ := namesQ args6 1 true, after := args6 }

theorem surLag6 : surLag shift6 args6 1 true = .ok out6 := rfl

theorem fit6 : ∃ f, fit args6.y out6 = some f := by
  let A : Matrix (Fin 6) (Fin 2) ℝ := cols [fun _ => 1, x6]
  let Z : Fin 2 → Matrix (Fin 6) (Fin 1) ℝ := fun r => cols [shift6 (x6 + a6 r)]
  let Q : Matrix (Fin 6) (Fin 1) ℝ := cols [shift6 x6]
  let hm : Matrix (Fin 6) (Fin 2 ⊕ Fin 1) ℝ := fromCols A Q
  let E : Matrix (Fin 6) (Fin 2) ℝ := Matrix.of fun i r => a6 r i
  let b : Fin 2 → Fin 2 ⊕ Fin 1 → ℝ := fun _ => Sum.elim ![0, 1] 0
  show ∃ f, SUR.baseThreeSLS (R := Fin 2) (A := fun _ => Fin 2) (B := fun _ => Fin 1) (Q := fun _ => Fin 1) (fun _ => A) Z (fun _ => Q)
    args6.y = some f
  have hz : IsUnit (hmᵀ * hm).det := by
    rw [Lin.xtx_isUnit_iff]
    intro w hw
    have h0 := congrFun hw 0
    have h1 := congrFun hw 1
    have h2 := congrFun hw 2
    simp [mulVec, dotProduct, hm, A, Q, cols, x6, shift6, Fin.sum_univ_two] at h0 h1 h2
    have g0 : w (.inl 0) = 0 := by linarith
    have g1 : w (.inl 1) = 0 := by linarith
    have g2 : w (.inr 0) = 0 := by linarith
    funext j
    rcases j with j | j <;> fin_cases j <;> simpa
  have hmz : ∀ r, hmᵀ * fromCols A (Z r) = hmᵀ * hm := by
    intro r
    ext i j
    rcases i with i | i <;> rcases j with j | j <;> fin_cases i <;> fin_cases j <;> fin_cases r <;>
      (simp [mul_apply, hm, A, Q, Z, cols, x6, shift6, a6, Fin.sum_univ_six]; try norm_num)
  have hzh : ∀ r, SUR.zhat A (Z r) Q (hmᵀ * hm)⁻¹ = hm := by
    intro r
    rw [SUR.zhat_proj A (Z r) Q hz]
    show hm * ((hmᵀ * hm)⁻¹ * (hmᵀ * fromCols A (Z r))) = hm
    rw [hmz, Matrix.nonsing_inv_mul _ hz, Matrix.mul_one]
  have hzy : ∀ r, hmᵀ *ᵥ args6.y r = (hmᵀ * hm) *ᵥ b r := by
    intro r
    funext j
    rcases j with j | j <;> fin_cases j <;> fin_cases r <;>
      simp [mulVec, dotProduct, mul_apply, hm, A, Q, cols, x6, a6, shift6, b, args6, Fin.sum_univ_six, Fin.sum_univ_two] <;> norm_num
  have hres : SUR.surResids (K := fun _ => Fin 2 ⊕ Fin 1) args6.y (fun r => fromCols A (Z r)) b = E := by
    ext i r
    simp [SUR.surResids, E, mulVec, dotProduct, A, Z, b, args6, cols, Fin.sum_univ_two]
  have hsig : SUR.sigOf E = !![2 / 3, 0; 0, 2] := by
    ext i j
    fin_cases i <;> fin_cases j <;>
      simp [SUR.sigOf, E, a6, Matrix.mul_apply, Fin.sum_univ_six] <;> norm_num
  have hu : IsUnit (SUR.sigOf E).det := by
    rw [hsig, Matrix.det_fin_two_of]; exact isUnit_iff_ne_zero.2 (by norm_num)
  unfold SUR.baseThreeSLS
  simp only
  rw [if_pos fun _ => hz]
  have hzh' : (fun r => SUR.zhat A (Z r) Q ((fromCols A Q)ᵀ * fromCols A Q)⁻¹) = fun _ : Fin 2 => hm := funext hzh
  rw [hzh']
  have hE : SUR.eqByEq (K := fun _ : Fin 2 => Fin 2 ⊕ Fin 1) (SUR.crossXX fun _ => hm)
      (SUR.crossXy (fun _ => hm) args6.y) = some b := by
    unfold SUR.eqByEq
    rw [if_pos (show ∀ r : Fin 2, IsUnit (SUR.crossXX (K := fun _ : Fin 2 => Fin 2 ⊕ Fin 1)
      (fun _ => hm) r r).det from fun _ => hz)]
    congr 1
    funext r
    show (hmᵀ * hm)⁻¹ *ᵥ (hmᵀ *ᵥ args6.y r) = b r
    rw [hzy, mulVec_mulVec, nonsing_inv_mul _ hz, one_mulVec]
  rw [hE, Option.bind_some, hres]
  obtain ⟨e, he⟩ := (SUR.C41_exists_iff (K := fun _ : Fin 2 => Fin 2 ⊕ Fin 1) (fun _ => hm) args6.y E).2
    ⟨hu, fun _ => hz⟩
  rw [he, Option.map_some]
  exact ⟨_, rfl⟩

/-- The hypotheses of `C170_model`, `C170_names`, `C170_pure_partial` and `C170_gm_lag` hold together for a model that can be estimated. -/
theorem C170_example : ∃ f, surLag shift6 args6 1 true = .ok out6 ∧ fit args6.y out6 = some f ∧ (args6.q.isSome → args6.yend.isSome) ∧
    out6.nameYend 1 = ["W_dep_var_2"] ∧ out6.nameQ 0 = ["W_var_1_1"] := by
  obtain ⟨f, hf⟩ := fit6
  exact ⟨f, surLag6, hf, fun h => by simp [args6] at h, by decide, by decide⟩

end Spreg.SURLag
