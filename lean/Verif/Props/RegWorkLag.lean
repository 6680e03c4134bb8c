import Verif.Model.RegWorkLag
import Verif.Props.RegWork
import Verif.Props.WRegimes
import Verif.Props.LagRegimes
/-
C177: the other models estimated regime by regime: what the results of a regime depend on.
-/
set_option linter.unusedSectionVars false
namespace Spreg.RegWork
open Matrix Spreg Spreg.Lin Spreg.GM Spreg.Regimes Spreg.Multi Spreg.Local

variable {ι ρ : Type} [DecidableEq ι] [DecidableEq ρ]

/-- Two runs of the assembly in which no variable is dropped and the model of regime `r` is the same. -/
theorem multi_same' {C : Type} (cls : Cls) (ky : ℕ) (isConst : List ℕ → C → Bool) (rs rs' regimes regimes' : List ρ)
    (hrs : rs.Nodup) (hrs' : rs'.Nodup) (names names' : List String) (cols cols' : List C) (est est' : ρ → List C → Py (RegRes ℝ))
    (n1 : ∀ c ∈ cols, ∀ r ∈ rs, isConst (regiIds regimes r) c = false) (n2 : ∀ c ∈ cols', ∀ r ∈ rs', isConst (regiIds regimes' r) c = false)
    (hest : ∀ r cs m, est r cs = .ok m → Sized cls ky cs.length m ∧ m.u.length = (regiIds regimes r).length ∧ m.predy.length = (regiIds regimes r).length)
    (hest' : ∀ r cs m, est' r cs = .ok m → Sized cls ky cs.length m ∧ m.u.length = (regiIds regimes' r).length ∧ m.predy.length = (regiIds regimes' r).length)
    (nm nm' : List String) (a a' : Asm ℝ) (hok : multi cls ky isConst rs regimes names cols est = .ok (nm, a))
    (hok' : multi cls ky isConst rs' regimes' names' cols' est' = .ok (nm', a')) (r : ρ) (c c' : ℕ) (hc : rs[c]? = some r) (hc' : rs'[c']? = some r)
    (hids : regiIds regimes r = regiIds regimes' r) (he : ∀ m m', est r cols = .ok m → est' r cols' = .ok m' → m = m') :
    SameBlock (cls.ownB ky cols.length) (cls.ownV ky cols.length) {o | regimes[o]? = some r} a a' c c' := by
  obtain ⟨hcl, rfl⟩ := List.getElem?_eq_some_iff.1 hc
  obtain ⟨hcl', e'⟩ := List.getElem?_eq_some_iff.1 hc'
  have keep : ∀ {rs regimes : List ρ} {cols : List C}, (∀ c ∈ cols, ∀ r ∈ rs, isConst (regiIds regimes r) c = false) → kept isConst rs regimes cols = cols := by
    intro rs regimes cols h
    rw [kept, List.filter_eq_self]
    intro c hcc
    rw [List.all_eq_true]
    intro r hr
    simp [h c hcc r hr]
  have k1 := keep n1
  have k2 := keep n2
  obtain ⟨ms, hl, hms⟩ := C135_assembly cls ky isConst rs regimes hrs names cols est nm a (fun r _ m h => hest r _ m h) hok (Or.inr (Or.inr n1))
  obtain ⟨ms', hl', hms'⟩ := C135_assembly cls ky isConst rs' regimes' hrs' names' cols' est' nm' a' (fun r _ m h => hest' r _ m h) hok' (Or.inr (Or.inr n2))
  obtain ⟨g1, g2, g3, -, g5, g6⟩ := hms c hcl (hl ▸ hcl)
  obtain ⟨f1, f2, f3, -, f5, f6⟩ := hms' c' hcl' (hl' ▸ hcl')
  rw [k1] at g1
  rw [k2, e'] at f1
  have hm := he _ _ g1 f1
  rw [← hm] at f2 f3 f5 f6
  obtain ⟨⟨s1, s2⟩, -⟩ := hest _ _ _ g1
  rw [s1] at g2 f2
  rw [s2] at g3 f3
  refine ⟨fun j hj => (g2 j hj).trans (f2 j hj).symm, fun i hi j hj => (g3 i hi j hj).trans (f3 i hi j hj).symm, fun o ho => ?_, fun o ho => ?_⟩
  · rw [e', ← hids, ← g5] at f5
    exact (List.map_inj_left.1 f5 o ((mem_regiIds ..).2 ho)).symm
  · rw [e', ← hids, ← g6] at f6
    exact (List.map_inj_left.1 f6 o ((mem_regiIds ..).2 ho)).symm

/-! ### Workers -/

theorem opt_same {A : Set ℕ} {ids : List ℕ} (hm : ∀ a ∈ ids, a ∈ A) {o o' : Option (List (ℕ → ℝ))} (h : Option.Rel (List.Forall₂ (SameOn A)) o o') :
    (o.map fun l => l.map (rows ids)) = o'.map fun l => l.map (rows ids) := by
  rcases h with h | _
  · exact congrArg some (map_rows_same hm h)
  · rfl

theorem getD_same {A : Set ℕ} {ids : List ℕ} (hm : ∀ a ∈ ids, a ∈ A) {o o' : Option (List (ℕ → ℝ))} (h : Option.Rel (List.Forall₂ (SameOn A)) o o') :
    (o.getD []).map (rows ids) = (o'.getD []).map (rows ids) := by
  rcases h with h | _
  · exact map_rows_same hm h
  · rfl

theorem workOLS_sized (white s2 : Bool) (y : ℕ → ℝ) (ids : List ℕ) (x : List (ℕ → ℝ)) (m : RegRes ℝ) (h : workOLS white s2 y ids x = .ok m) :
    Sized .ols 0 x.length m ∧ m.u.length = ids.length ∧ m.predy.length = ids.length := by
  obtain ⟨o, -, h2⟩ := bind_ok h
  cases h2
  simp [ofFit, Sized, Cls.ownB, Cls.ownV, Nat.add_comm]

theorem fitTSLS_sized (rob : Rob) (s2 : Bool) {n : ℕ} (y : Fin n → ℝ) (x yend q : List (Fin n → ℝ)) (m : RegRes ℝ)
    (h : fitTSLS rob s2 y x yend q = .ok m) : (m.kb = 1 + x.length + yend.length ∧ m.kv = 1 + x.length + yend.length) ∧ m.u.length = n ∧ m.predy.length = n := by
  cases rob with
  | none' => obtain ⟨f, -, rfl⟩ := map_ok h; simp [ofFit]; omega
  | white => obtain ⟨f, -, rfl⟩ := map_ok h; simp [ofFit]; omega
  | ogmm =>
    simp only [fitTSLS] at h
    split at h <;> cases h
    simp [ofFit]; omega

theorem workTSLS_sized (rob : Rob) (s2 : Bool) (y : ℕ → ℝ) (yend q : List (ℕ → ℝ)) (ids : List ℕ) (x : List (ℕ → ℝ)) (m : RegRes ℝ)
    (h : workTSLS rob s2 y yend q ids x = .ok m) :
    Sized .tsls yend.length x.length m ∧ m.u.length = ids.length ∧ m.predy.length = ids.length := by
  have := fitTSLS_sized _ _ _ _ _ _ _ h
  simpa [Sized, Cls.ownB, Cls.ownV] using this

theorem workMLLag_sized (opt : (ℝ → ℝ) → ℝ) (jac : (m : ℕ) → Matrix (Fin m) (Fin m) ℝ → ℝ → ℝ) (eps : ℝ) (y : ℕ → ℝ) (wr : WReg.W ι)
    (ids : List ℕ) (x : List (ℕ → ℝ)) (m : RegRes ℝ) (h : workMLLag opt jac eps y wr ids x = .ok m) :
    Sized .mlLag 0 x.length m ∧ m.u.length = ids.length ∧ m.predy.length = ids.length := by
  obtain ⟨p, -, h2⟩ := bind_ok h
  obtain ⟨f, -, h3⟩ := bind_ok h2
  cases h3
  simp [ofLag, Sized, Cls.ownB, Cls.ownV, Nat.add_comm]

theorem setEndogSparse_length {α : Type} (W : α → α) (y : α) (x : List α) (yend q : Option (List α)) (L : ℕ) (lq : Bool) (o : Lags.EndogOut α)
    (h : Lags.setEndogSparse W y x yend q L lq = .ok o) : o.yend.length = (yend.getD []).length + 1 := by
  cases yend with
  | none => cases h; simp
  | some l =>
    cases q with
    | none => cases h
    | some l' => cases h; simp

theorem workGMLag_sized (rob : Rob) (s2 : Bool) (s L : ℕ) (lq : Bool) (y : ℕ → ℝ) (yend q : Option (List (ℕ → ℝ))) (wr : WReg.W ι) (ids : List ℕ)
    (x : List (ℕ → ℝ)) (m : RegRes ℝ) (h : workGMLag rob s2 s L lq y yend q wr ids x = .ok m) (ky : ℕ)
    (hy : (yend.getD []).length = if s = 0 then ky else ky + 1) :
    Sized .gmLag ky x.length m ∧ m.u.length = ids.length ∧ m.predy.length = ids.length := by
  rw [workGMLag] at h
  by_cases hs : s = 0
  · rw [if_pos hs] at h hy
    obtain ⟨o, h1, h2⟩ := bind_ok h
    have h3 := setEndogSparse_length _ _ _ _ _ _ _ _ h1
    have := fitTSLS_sized _ _ _ _ _ _ _ h2
    have e : ((yend.map fun l => l.map (rows ids)).getD []).length = ky := by cases yend <;> simpa using hy
    rw [h3, e] at this
    simpa [Sized, Cls.ownB, Cls.ownV, Nat.add_assoc] using this
  · rw [if_neg hs] at h hy
    have := fitTSLS_sized _ _ _ _ _ _ _ h
    have e : ((yend.map fun l => l.map (rows ids)).getD []).length = ky + 1 := by cases yend <;> simpa using hy
    rw [e] at this
    simpa [Sized, Cls.ownB, Cls.ownV, Nat.add_assoc] using this

/-! ### Weights -/

theorem whereEq_regiIds (regimes : List ρ) (r : ρ) : WReg.whereEq r regimes = regiIds regimes r := by
  have s1 : (WReg.whereEq r regimes).Pairwise (· < ·) := List.Pairwise.filter _ List.pairwise_lt_range
  have s2 := Regimes.whereEq_sorted r regimes 0
  refine List.Perm.eq_of_pairwise (le := (· < ·)) (fun a b _ _ h1 h2 => absurd h1 h2.asymm) s1 s2 ?_
  refine (List.perm_ext_iff_of_nodup (s1.imp fun h => h.ne) (s2.imp fun h => h.ne)).2 fun a => ?_
  exact (WReg.mem_whereEq ..).trans (mem_regiIds ..).symm

theorem wRegime_min (w : WReg.W ι) (ids : List ℕ) (minN : Option ℕ) (p : WReg.W ι × Bool) (h : WReg.wRegime w ids true minN = .ok p) :
    WReg.wRegime w ids true none = .ok p := by
  obtain ⟨i, h1, h2⟩ := bind_ok h
  obtain ⟨u, h3, h4⟩ := bind_ok h2
  rw [WReg.wRegime, h1]
  exact h4

theorem loop_mem (w : WReg.W ι) (regimes : List ρ) (minN : Option ℕ) : ∀ (rs : List ρ) (acc : List (ρ × WReg.W ι)) (wn : Option ρ)
    (o : List (ρ × WReg.W ι) × Option ρ), WReg.wRegimesLoop w regimes true minN rs acc wn = .ok o →
    (∀ p ∈ acc, ∃ b, WReg.wRegime w (regiIds regimes p.1) true none = .ok (p.2, b)) →
    ∀ p ∈ o.1, ∃ b, WReg.wRegime w (regiIds regimes p.1) true none = .ok (p.2, b)
  | [], acc, wn, o, h, ha => by cases h; exact ha
  | r :: t, acc, wn, o, h, ha => by
    rw [WReg.wRegimesLoop] at h
    obtain ⟨q, h1, h2⟩ := bind_ok h
    refine loop_mem w regimes minN t _ _ o h2 fun p hp => ?_
    rcases List.mem_append.1 hp with hp | hp
    · exact ha p hp
    · obtain rfl := List.mem_singleton.1 hp
      rw [whereEq_regiIds] at h1
      exact ⟨q.2, wRegime_min _ _ _ _ h1⟩

theorem getW_of (w : WReg.W ι) (regimes rs : List ρ) (minN : Option ℕ) (o : List (ρ × WReg.W ι) × Option ρ)
    (h : WReg.wRegimes w regimes rs true minN = .ok o) (r : ρ) (wr : WReg.W ι) (hg : WReg.getW o.1 r = .ok wr) :
    ∃ b, WReg.wRegime w (regiIds regimes r) true none = .ok (wr, b) := by
  rw [WReg.wRegimes] at h
  split at h
  · cases h
  · refine loop_mem w regimes minN rs [] none o h (by simp) (r, wr) ?_
    rw [WReg.getW] at hg
    split at hg
    · cases hg
    · rename_i w' hw
      cases hg
      have : ∀ l : List (ρ × WReg.W ι), l.lookup r = some wr → (r, wr) ∈ l := by
        intro l
        induction l with
        | nil => intro h; cases h
        | cons p t ih =>
          intro h
          rw [List.lookup_cons] at h
          split at h
          · rename_i he
            cases h
            rw [beq_iff_eq.1 he]
            exact List.mem_cons_self
          · exact List.mem_cons_of_mem _ (ih h)
      exact this _ hw

/-- The weights of the regime in two runs. -/
theorem getW_same {D D' : Data ι ρ} {r : ρ} {s : ℕ} (h : SameAround D D' r s) {rs rs' : List ρ} {mn mn' : Option ℕ}
    {o o' : List (ρ × WReg.W ι) × Option ρ} (ho : WReg.wRegimes D.w D.regimes rs true mn = .ok o) (ho' : WReg.wRegimes D'.w D'.regimes rs' true mn' = .ok o')
    {wr wr' : WReg.W ι} (hg : WReg.getW o.1 r = .ok wr) (hg' : WReg.getW o'.1 r = .ok wr') : wr = wr' := by
  obtain ⟨b, h1⟩ := getW_of _ _ _ _ _ ho _ _ hg
  obtain ⟨b', h2⟩ := getW_of _ _ _ _ _ ho' _ _ hg'
  rw [← wRegime_same h, h1] at h2
  cases h2; rfl

/-! ### The classes -/

theorem constOn_false {D : Data ι ρ} {r : ρ} {c : ℕ → ℝ} (h : ∃ a ∈ members D r, ∃ b ∈ members D r, c a ≠ c b) : constOn (regiIds D.regimes r) c = false := by
  obtain ⟨a, ha, b, hb, hab⟩ := h
  simp only [constOn, decide_eq_false_iff_not]
  intro h
  exact hab (h a ((mem_regiIds ..).2 ha) b ((mem_regiIds ..).2 hb))

/-- **C177 (OLS).** Two runs on data sets that agree around regime `r`, and in which no regressor is constant in a regime, give the same
results for `r`. -/
theorem C177_ols (white sig2nk : Bool) (D D' : Data ι ρ) (r : ρ) (s : ℕ) (h : SameAround D D' r s) (rs rs' : List ρ) (hrs : rs.Nodup) (hrs' : rs'.Nodup)
    (names names' : List String) (slx : Option (List Bool)) (hv : Varies D rs s slx) (hv' : Varies D' rs' s slx) (nm nm' : List String) (a a' : Asm ℝ)
    (hok : olsRegimes white sig2nk D rs names s slx = .ok (nm, a)) (hok' : olsRegimes white sig2nk D' rs' names' s slx = .ok (nm', a'))
    (c c' : ℕ) (hc : rs[c]? = some r) (hc' : rs'[c']? = some r) :
    SameBlock (1 + nx D s slx) (1 + nx D s slx) (members D r) a a' c c' := by
  obtain ⟨p, hp, hok⟩ := bind_ok hok
  obtain ⟨p', hp', hok'⟩ := bind_ok hok'
  obtain ⟨hx, hl⟩ := withWX_same h hp hp'
  have hm : ∀ a ∈ regiIds D.regimes r, a ∈ members D r := fun a ha => (mem_regiIds ..).1 ha
  have := multi_same' .ols 0 constOn rs rs' D.regimes D'.regimes hrs hrs' p.2 p'.2 p.1 p'.1 _ _
    (fun c hc r hr => constOn_false (hv _ _ hp c hc r hr)) (fun c hc r hr => constOn_false (hv' _ _ hp' c hc r hr))
    (fun r cs m hm => workOLS_sized _ _ _ _ _ _ hm) (fun r cs m hm => workOLS_sized _ _ _ _ _ _ hm) nm nm' a a' hok hok' r c c' hc hc'
    (regiIds_same h.members) (fun m m' h1 h2 => by
      rw [workOLS, ← regiIds_same h.members, ← map_rows_same hm hx, ← rows_same hm h.y] at h2
      exact Except.ok.inj (h1.symm.trans h2))
  rw [hl] at this
  exact this

/-- **C177 (2SLS).** -/
theorem C177_tsls (rob : Rob) (sig2nk : Bool) (D D' : Data ι ρ) (r : ρ) (s : ℕ) (h : SameAround D D' r s) (rs rs' : List ρ) (hrs : rs.Nodup) (hrs' : rs'.Nodup)
    (names names' : List String) (slx : Option (List Bool)) (hv : Varies D rs s slx) (hv' : Varies D' rs' s slx) (nm nm' : List String) (a a' : Asm ℝ)
    (hok : tslsRegimes rob sig2nk D rs names s slx = .ok (nm, a)) (hok' : tslsRegimes rob sig2nk D' rs' names' s slx = .ok (nm', a'))
    (c c' : ℕ) (hc : rs[c]? = some r) (hc' : rs'[c']? = some r) :
    let K := 1 + nx D s slx + (D.yend.getD []).length
    SameBlock K K (members D r) a a' c c' := by
  obtain ⟨p, hp, hok⟩ := bind_ok hok
  obtain ⟨p', hp', hok'⟩ := bind_ok hok'
  obtain ⟨hx, hl⟩ := withWX_same h hp hp'
  have hm : ∀ a ∈ regiIds D.regimes r, a ∈ members D r := fun a ha => (mem_regiIds ..).1 ha
  have hky : (D'.yend.getD []).length = (D.yend.getD []).length := by
    have := h.yend
    cases hd : D.yend <;> cases hd' : D'.yend <;> rw [hd, hd'] at this <;> cases this <;> simp
    rename_i h; exact h.length_eq.symm
  rw [hky] at hok'
  have := multi_same' .tsls (D.yend.getD []).length constOn rs rs' D.regimes D'.regimes hrs hrs' p.2 p'.2 p.1 p'.1 _ _
    (fun c hc r hr => constOn_false (hv _ _ hp c hc r hr)) (fun c hc r hr => constOn_false (hv' _ _ hp' c hc r hr))
    (fun r cs m hm => workTSLS_sized _ _ _ _ _ _ _ _ hm) (fun r cs m hm => hky ▸ workTSLS_sized _ _ _ _ _ _ _ _ hm) nm nm' a a' hok hok' r c c' hc hc'
    (regiIds_same h.members) (fun m m' h1 h2 => by
      rw [workTSLS, ← regiIds_same h.members, ← map_rows_same hm hx, ← rows_same hm h.y, ← getD_same hm h.yend, ← getD_same hm h.q] at h2
      exact Except.ok.inj (h1.symm.trans h2))
  rw [hl] at this
  exact this

/-- **C177 (maximum likelihood, spatial lag).** -/
theorem C177_mlLag (opt : (ℝ → ℝ) → ℝ) (jac : (m : ℕ) → Matrix (Fin m) (Fin m) ℝ → ℝ → ℝ) (eps : ℝ) (D D' : Data ι ρ) (r : ρ) (s : ℕ)
    (h : SameAround D D' r s) (rs rs' : List ρ) (hrs : rs.Nodup) (hrs' : rs'.Nodup)
    (names names' : List String) (slx : Option (List Bool)) (nm nm' : List String) (a a' : Asm ℝ)
    (hok : mlLagRegimes opt jac eps D rs names s slx = .ok (nm, a)) (hok' : mlLagRegimes opt jac eps D' rs' names' s slx = .ok (nm', a'))
    (c c' : ℕ) (hc : rs[c]? = some r) (hc' : rs'[c']? = some r) :
    SameBlock (nx D s slx + 2) (nx D s slx + 2) (members D r) a a' c c' := by
  obtain ⟨p, hp, hok⟩ := bind_ok hok
  obtain ⟨p', hp', hok'⟩ := bind_ok hok'
  obtain ⟨wi, hw, hok⟩ := bind_ok hok
  obtain ⟨wi', hw', hok'⟩ := bind_ok hok'
  obtain ⟨hx, hl⟩ := withWX_same h hp hp'
  have hm : ∀ a ∈ regiIds D.regimes r, a ∈ members D r := fun a ha => (mem_regiIds ..).1 ha
  have sz : ∀ (E : Data ι ρ) (wi : List (ρ × WReg.W ι) × Option ρ) r cs m, (do
      let wr ← WReg.getW wi.1 r
      workMLLag opt jac eps E.y wr (regiIds E.regimes r) cs) = .ok m →
      Sized .mlLag 0 cs.length m ∧ m.u.length = (regiIds E.regimes r).length ∧ m.predy.length = (regiIds E.regimes r).length := by
    intro E wi r cs m hm
    obtain ⟨wr, -, h2⟩ := bind_ok hm
    exact workMLLag_sized _ _ _ _ _ _ _ _ h2
  have ne : ∀ {rs : List ρ} {c : ℕ}, rs[c]? = some r → rs ≠ [] := by rintro rs c hc rfl; simp at hc
  have n1 := (no_const .mlLag (by simp) (by simp) 0 constOn rs D.regimes (ne hc) p.2 p.1 _ (fun r cs m h => (sz D wi r cs m h).1) _ hok).1
  have n2 := (no_const .mlLag (by simp) (by simp) 0 constOn rs' D'.regimes (ne hc') p'.2 p'.1 _ (fun r cs m h => (sz D' wi' r cs m h).1) _ hok').1
  have := multi_same' .mlLag 0 constOn rs rs' D.regimes D'.regimes hrs hrs' p.2 p'.2 p.1 p'.1 _ _ n1 n2 (sz D wi) (sz D' wi') nm nm' a a' hok hok' r c c' hc hc'
    (regiIds_same h.members) (fun m m' h1 h2 => by
      obtain ⟨wr, hg, h1⟩ := bind_ok h1
      obtain ⟨wr', hg', h2⟩ := bind_ok h2
      obtain rfl := getW_same h hw hw' hg hg'
      rw [workMLLag, ← regiIds_same h.members, ← map_rows_same hm hx, ← rows_same hm h.y] at h2
      exact Except.ok.inj (h1.symm.trans h2))
  rw [hl] at this
  have e : Cls.mlLag.ownV 0 (nx D s slx) = nx D s slx + 2 := by simp [Cls.ownV]; omega
  rw [show Cls.mlLag.ownB 0 (nx D s slx) = Cls.mlLag.ownV 0 (nx D s slx) from rfl, e] at this
  exact this

/-- **C177 (2SLS, spatial lag).** Without spatially lagged regressors. -/
theorem C177_gmLag (rob : Rob) (sig2nk : Bool) (wLags : ℕ) (lagQ : Bool) (slx : Lags.SlxVars) (D D' : Data ι ρ) (r : ρ)
    (h : SameAround D D' r 0) (rs rs' : List ρ) (hrs : rs.Nodup) (hrs' : rs'.Nodup)
    (names names' : List String) (nm nm' : List String) (a a' : Asm ℝ)
    (hok : gmLagRegimes rob sig2nk wLags lagQ D rs names 0 slx = .ok (nm, a)) (hok' : gmLagRegimes rob sig2nk wLags lagQ D' rs' names' 0 slx = .ok (nm', a'))
    (c c' : ℕ) (hc : rs[c]? = some r) (hc' : rs'[c']? = some r) :
    let K := 1 + D.x.length + (D.yend.getD []).length + 1
    SameBlock K K (members D r) a a' c c' := by
  obtain ⟨p, hp, hok⟩ := bind_ok hok
  obtain ⟨p', hp', hok'⟩ := bind_ok hok'
  rw [gmLagPre, if_neg (lt_irrefl 0)] at hp hp'
  cases hp; cases hp'
  obtain ⟨wi, hw, hok⟩ := bind_ok hok
  obtain ⟨wi', hw', hok'⟩ := bind_ok hok'
  have hm : ∀ a ∈ regiIds D.regimes r, a ∈ members D r := fun a ha => (mem_regiIds ..).1 ha
  have hky : (D'.yend.getD []).length = (D.yend.getD []).length := by
    have := h.yend
    cases hd : D.yend <;> cases hd' : D'.yend <;> rw [hd, hd'] at this <;> cases this <;> simp
    rename_i h; exact h.length_eq.symm
  have sz : ∀ (E : Data ι ρ) (wi : List (ρ × WReg.W ι) × Option ρ) r cs m, (do
      let wr ← WReg.getW wi.1 r
      workGMLag rob sig2nk 0 wLags lagQ E.y E.yend E.q wr (regiIds E.regimes r) cs) = .ok m →
      Sized .gmLag (E.yend.getD []).length cs.length m ∧ m.u.length = (regiIds E.regimes r).length ∧ m.predy.length = (regiIds E.regimes r).length := by
    intro E wi r cs m hm
    obtain ⟨wr, -, h2⟩ := bind_ok hm
    exact workGMLag_sized _ _ _ _ _ _ _ _ _ _ _ _ h2 _ (by simp)
  have sz' := sz D' wi'
  rw [hky] at hok' sz'
  have ne : ∀ {rs : List ρ} {c : ℕ}, rs[c]? = some r → rs ≠ [] := by rintro rs c hc rfl; simp at hc
  have n1 := (no_const .gmLag (by simp) (by simp) _ constOn rs D.regimes (ne hc) names D.x _ (fun r cs m h => (sz D wi r cs m h).1) _ hok).1
  have n2 := (no_const .gmLag (by simp) (by simp) _ constOn rs' D'.regimes (ne hc') names' D'.x _ (fun r cs m h => (sz' r cs m h).1) _ hok').1
  exact multi_same' .gmLag _ constOn rs rs' D.regimes D'.regimes hrs hrs' names names' D.x D'.x _ _ n1 n2 (sz D wi) sz' nm nm' a a' hok hok' r c c' hc hc'
    (regiIds_same h.members) (fun m m' h1 h2 => by
      obtain ⟨wr, hg, h1⟩ := bind_ok h1
      obtain ⟨wr', hg', h2⟩ := bind_ok h2
      obtain rfl := getW_same h hw hw' hg hg'
      rw [workGMLag, ← regiIds_same h.members, ← map_rows_same hm h.x, ← rows_same hm h.y, ← opt_same hm h.yend, ← opt_same hm h.q] at h2
      exact Except.ok.inj (h1.symm.trans h2))

end Spreg.RegWork
