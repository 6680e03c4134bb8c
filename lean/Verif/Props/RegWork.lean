import Verif.Spec.Local
import Verif.Props.RegimesMulti
import Verif.Props.Lags
import Verif.Props.GMIter
/-
C176: spatial error models estimated regime by regime: what the results of a regime depend on.
-/
set_option linter.unusedSectionVars false
namespace Spreg.RegWork
open Matrix Spreg Spreg.Lin Spreg.GM Spreg.Regimes Spreg.Multi Spreg.Local

variable {ι ρ : Type} [DecidableEq ι] [DecidableEq ρ]

/-! ### Spatial lags -/

theorem reach_mono (w : WReg.W ι) (A : Set ℕ) : ∀ s, A ⊆ reach w A s
  | 0 => fun _ h => h
  | s + 1 => fun _ h => Or.inl (reach_mono w A s h)

theorem lag_same {w w' : WReg.W ι} {A : Set ℕ} {s : ℕ} (hl : w.ids.length = w'.ids.length)
    (hw : ∀ a ∈ reach w A s, ∀ b, entry w a b = entry w' a b) {c c' : ℕ → ℝ} (h : SameOn (reach w A (s + 1)) c c') :
    SameOn (reach w A s) (lagC w c) (lagC w' c') := by
  intro a ha
  rw [lagC, lagC, ← hl]
  congr 1
  refine List.map_congr_left fun b _ => ?_
  rw [← hw a ha b]
  by_cases he : entry w a b = 0
  · rw [he, zero_mul, zero_mul]
  · rw [h b (Or.inr ⟨a, ha, he⟩)]

theorem same_mono {A B : Set ℕ} (h : A ⊆ B) {l l' : List (ℕ → ℝ)} (hl : List.Forall₂ (SameOn B) l l') : List.Forall₂ (SameOn A) l l' :=
  hl.imp fun _ _ hc a ha => hc a (h ha)

theorem lagM_same {w w' : WReg.W ι} {A : Set ℕ} {s : ℕ} (hl : w.ids.length = w'.ids.length)
    (hw : ∀ a ∈ reach w A s, ∀ b, entry w a b = entry w' a b) {l l' : List (ℕ → ℝ)} (h : List.Forall₂ (SameOn (reach w A (s + 1))) l l') :
    List.Forall₂ (SameOn (reach w A s)) (Lags.lagM (lagC w) l) (Lags.lagM (lagC w') l') := by
  induction h with
  | nil => exact .nil
  | cons h _ ih => exact .cons (lag_same hl hw h) ih

theorem append_same {A : Set ℕ} {a a' b b' : List (ℕ → ℝ)} (h1 : List.Forall₂ (SameOn A) a a') (h2 : List.Forall₂ (SameOn A) b b') :
    List.Forall₂ (SameOn A) (a ++ b) (a' ++ b') := by
  induction h1 with
  | nil => exact h2
  | cons h _ ih => exact .cons h ih

theorem loop_same {w w' : WReg.W ι} {A : Set ℕ} (hl : w.ids.length = w'.ids.length) : ∀ (s : ℕ)
    (_ : ∀ t < s, ∀ a ∈ reach w A t, ∀ b, entry w a b = entry w' a b) (lag lag' acc acc' : List (ℕ → ℝ)),
    List.Forall₂ (SameOn (reach w A s)) lag lag' → List.Forall₂ (SameOn A) acc acc' →
    List.Forall₂ (SameOn A) (Lags.getLagsLoop (lagC w) s lag acc) (Lags.getLagsLoop (lagC w') s lag' acc')
  | 0, _, _, _, _, _, _, h => h
  | s + 1, hw, lag, lag', acc, acc', h1, h2 => by
    have h := lagM_same hl (hw s (Nat.lt_succ_self s)) h1
    exact loop_same hl s (fun t ht => hw t (Nat.lt_succ_of_lt ht)) _ _ _ _ h (append_same h2 (same_mono (reach_mono w A s) h))

theorem getLags_same {w w' : WReg.W ι} {A : Set ℕ} (hl : w.ids.length = w'.ids.length) {s : ℕ} (hs : 0 < s)
    (hw : ∀ t < s, ∀ a ∈ reach w A t, ∀ b, entry w a b = entry w' a b) {x x' : List (ℕ → ℝ)} (hx : List.Forall₂ (SameOn (reach w A s)) x x') :
    List.Forall₂ (SameOn A) (Lags.getLags (lagC w) x s) (Lags.getLags (lagC w') x' s) := by
  obtain ⟨s, rfl⟩ := Nat.exists_eq_succ_of_ne_zero hs.ne'
  have h := lagM_same hl (hw s (Nat.lt_succ_self s)) hx
  exact loop_same hl s (fun t ht => hw t (Nat.lt_succ_of_lt ht)) _ _ _ _ h (same_mono (reach_mono w A s) h)

theorem mask_same {A : Set ℕ} : ∀ (m : List Bool) {x x' : List (ℕ → ℝ)}, List.Forall₂ (SameOn A) x x' →
    List.Forall₂ (SameOn A) (((m.zip x).filter (·.1)).map (·.2)) (((m.zip x').filter (·.1)).map (·.2))
  | [], _, _, _ => by simp
  | _ :: _, _, _, .nil => by simp
  | true :: m, _, _, .cons h t => by
    simp only [List.zip_cons_cons, List.filter_cons_of_pos, List.map_cons]
    exact .cons h (mask_same m t)
  | false :: m, _, _, .cons _ t => by
    rw [List.zip_cons_cons, List.zip_cons_cons, List.filter_cons_of_neg (by simp), List.filter_cons_of_neg (by simp)]
    exact mask_same m t

theorem mask_length (m : List Bool) : ∀ (x : List (ℕ → ℝ)), m.length = x.length →
    (((m.zip x).filter (·.1)).map (·.2)).length = m.count true := by
  induction m with
  | nil => intro x _; simp
  | cons b m ih =>
    rintro (_ | ⟨c, x⟩) h
    · simp at h
    · have := ih x (by simpa using h)
      cases b <;> simpa using this

/-- The regressors of the two data sets, with the spatial lags. -/
theorem withWX_same {D D' : Data ι ρ} {r : ρ} {s : ℕ} (h : SameAround D D' r s) {names names' : List String} {slx : Option (List Bool)}
    {p p' : List (ℕ → ℝ) × List String} (hp : withWX D.w D.x names s slx = .ok p) (hp' : withWX D'.w D'.x names' s slx = .ok p') :
    List.Forall₂ (SameOn (members D r)) p.1 p'.1 ∧ p.1.length = nx D s slx := by
  rcases Nat.eq_zero_or_pos s with rfl | hs
  · rw [withWX, if_neg (lt_irrefl 0)] at hp hp'
    cases hp; cases hp'
    exact ⟨h.x, by simp [nx]⟩
  · have hx := same_mono (reach_mono D.w (members D r) s) h.x
    have hlen := h.x.length_eq
    rw [withWX, if_pos hs] at hp hp'
    cases slx with
    | none =>
      simp [Lags.flexWx] at hp hp'
      cases hp; cases hp'
      exact ⟨append_same hx (getLags_same h.size hs h.weights h.x), by simp [nx, Lags.C01_getLags_length, Nat.max_eq_left hs]⟩
    | some m =>
      obtain ⟨o, ho, hp⟩ := bind_ok hp
      obtain ⟨o', ho', hp'⟩ := bind_ok hp'
      cases hp; cases hp'
      simp only [Lags.flexWx, Bool.false_eq_true, if_false, lt_irrefl] at ho ho'
      split at ho <;> [skip; cases ho]
      split at ho' <;> [skip; cases ho']
      obtain ⟨xw, hxw, ho⟩ := bind_ok ho
      obtain ⟨xw', hxw', ho'⟩ := bind_ok ho'
      cases ho; cases ho'
      rw [Lags.maskCols] at hxw hxw'
      split at hxw <;> [skip; cases hxw]
      split at hxw' <;> [skip; cases hxw']
      rename_i hm _
      cases hxw; cases hxw'
      refine ⟨append_same hx (getLags_same h.size hs h.weights (mask_same m h.x)), ?_⟩
      show (D.x ++ _).length = _
      rw [List.length_append, Lags.C01_getLags_length, Nat.max_eq_left hs, mask_length m _ hm, nx]

/-! ### The weights of the regime -/

theorem idsAt_same {w w' : WReg.W ι} : ∀ (l : List ℕ), (∀ a ∈ l, w.ids[a]? = w'.ids[a]?) → WReg.idsAt w l = WReg.idsAt w' l
  | [], _ => rfl
  | a :: t, h => by
    rw [WReg.idsAt, WReg.idsAt, h a (by simp), idsAt_same t fun b hb => h b (by simp [hb])]

theorem mem_idsAt {w : WReg.W ι} : ∀ (l : List ℕ) (ids : List ι), WReg.idsAt w l = .ok ids → ∀ i, i ∈ ids ↔ ∃ a ∈ l, w.ids[a]? = some i
  | [], ids, h, i => by cases h; simp
  | a :: t, ids, h, i => by
    rw [WReg.idsAt] at h
    split at h
    · cases h
    · rename_i j hj
      cases ht : WReg.idsAt w t with
      | error e => rw [ht] at h; cases h
      | ok ids' =>
        rw [ht] at h; cases h
        simp only [List.mem_cons, mem_idsAt t ids' ht i, exists_eq_or_imp, hj, Option.some.injEq]
        tauto

theorem mem_regiIds (regimes : List ρ) (r : ρ) (a : ℕ) : a ∈ regiIds regimes r ↔ regimes[a]? = some r := by
  rw [regiIds, Regimes.mem_whereEq]
  simp

theorem regiIds_same {D D' : Data ι ρ} {r : ρ} (h : members D r = members D' r) : regiIds D.regimes r = regiIds D'.regimes r := by
  have s1 := Regimes.whereEq_sorted r D.regimes 0
  have s2 := Regimes.whereEq_sorted r D'.regimes 0
  refine List.Perm.eq_of_pairwise (le := (· < ·)) (fun a b _ _ h1 h2 => absurd h1 h2.asymm) s1 s2 ?_
  refine (List.perm_ext_iff_of_nodup (s1.imp fun h => h.ne) (s2.imp fun h => h.ne)).2 fun a => ?_
  have := Set.ext_iff.1 h a
  exact (mem_regiIds ..).trans (this.trans (mem_regiIds ..).symm)

theorem wRegime_same {D D' : Data ι ρ} {r : ρ} {s : ℕ} (h : SameAround D D' r s) :
    WReg.wRegime D.w (regiIds D.regimes r) true none = WReg.wRegime D'.w (regiIds D'.regimes r) true none := by
  have hm : ∀ a ∈ regiIds D.regimes r, a ∈ members D r := fun a ha => (mem_regiIds ..).1 ha
  rw [← regiIds_same h.members]
  rw [WReg.wRegime, WReg.wRegime, ← idsAt_same (w := D.w) (w' := D'.w) _ fun a ha => h.ids a (hm a ha)]
  cases hi : WReg.idsAt D.w (regiIds D.regimes r) with
  | error e => rfl
  | ok ids =>
    have hid : ∀ i, i ∈ ids ↔ IdIn D.w (members D r) i := fun i => (mem_idsAt _ _ hi i).trans
      ⟨fun ⟨a, ha, e⟩ => ⟨a, hm a ha, e⟩, fun ⟨a, ha, e⟩ => ⟨a, (mem_regiIds ..).2 ha, e⟩⟩
    have hs : WReg.wSubset D.w ids = WReg.wSubset D'.w ids := by
      have : ∀ i ∈ ids, (D.w.nb i).filter (· ∈ ids) = (D'.w.nb i).filter (· ∈ ids) := by
        intro i hi
        have := h.links i ((hid i).1 hi)
        have e : ∀ j, decide (j ∈ ids) = @decide (IdIn D.w (members D r) j) (Classical.propDecidable _) := fun j => by
          by_cases hj : j ∈ ids
          · simp [hj, (hid j).1 hj]
          · have k : ¬ IdIn D.w (members D r) j := fun k => hj ((hid j).2 k)
            simp [hj, k]
        simp only [e]
        exact this
      simp only [WReg.wSubset]
      congr 1
      funext i
      by_cases hi : i ∈ ids
      · rw [if_pos hi, if_pos hi, this i hi]
      · rw [if_neg hi, if_neg hi]
    simp only [bind, Except.bind, if_true, hs, h.transform]

/-! ### Workers -/

theorem rows_same {A : Set ℕ} {ids : List ℕ} (h : ∀ a ∈ ids, a ∈ A) {c c' : ℕ → ℝ} (hc : SameOn A c c') : rows ids c = rows ids c' :=
  funext fun _ => hc _ (h _ (List.getElem_mem _))

theorem map_rows_same {A : Set ℕ} {ids : List ℕ} (h : ∀ a ∈ ids, a ∈ A) {l l' : List (ℕ → ℝ)} (hl : List.Forall₂ (SameOn A) l l') :
    l.map (rows ids) = l'.map (rows ids) := by
  induction hl with
  | nil => rfl
  | cons hc _ ih => rw [List.map_cons, List.map_cons, ih, rows_same h hc]

/-- The results of the regime's own model, all attributes. -/
theorem workError_same {D D' : Data ι ρ} {r : ρ} {s : ℕ} (h : SameAround D D' r s) (e : Est) {x x' : List (ℕ → ℝ)}
    (hx : List.Forall₂ (SameOn (members D r)) x x') :
    workError e D.w D.y (regiIds D.regimes r) x = workError e D'.w D'.y (regiIds D'.regimes r) x' := by
  have hm : ∀ a ∈ regiIds D.regimes r, a ∈ members D r := fun a ha => (mem_regiIds ..).1 ha
  rw [workError, workError, ← wRegime_same h, ← regiIds_same h.members, map_rows_same hm hx, rows_same hm h.y]

theorem workEndog_same {D D' : Data ι ρ} {r : ρ} {s : ℕ} (h : SameAround D D' r s) (e : EstEnd) (addLag : Option (ℕ × Bool)) {x x' : List (ℕ → ℝ)}
    (hx : List.Forall₂ (SameOn (members D r)) x x') :
    workEndog e addLag D.w D.y D.yend D.q (regiIds D.regimes r) x =
      workEndog e addLag D'.w D'.y D'.yend D'.q (regiIds D'.regimes r) x' := by
  have hm : ∀ a ∈ regiIds D.regimes r, a ∈ members D r := fun a ha => (mem_regiIds ..).1 ha
  have ho : ∀ {o o' : Option (List (ℕ → ℝ))}, Option.Rel (List.Forall₂ (SameOn (members D r))) o o' →
      (o.map fun l => l.map (rows (regiIds D.regimes r))) = o'.map fun l => l.map (rows (regiIds D.regimes r)) := by
    rintro _ _ (h | _)
    · exact congrArg some (map_rows_same hm h)
    · rfl
  rw [workEndog, workEndog, ← wRegime_same h, ← regiIds_same h.members, map_rows_same hm hx, rows_same hm h.y, ho h.yend, ho h.q]

/-! ### Sizes -/

theorem map_ok {α β : Type} {x : Py α} {f : α → β} {b : β} (h : x.map f = .ok b) : ∃ a, x = .ok a ∧ f a = b := by
  cases x with
  | error e => cases h
  | ok a => exact ⟨a, rfl, Except.ok.inj h⟩

theorem fitExog_sized (e : Est) {m : ℕ} (y : Fin m → ℝ) (x : List (Fin m → ℝ)) (W : Matrix (Fin m) (Fin m) ℝ) (r : Res)
    (h : fitExog e y x W = .ok r) : Sized e.cls 0 x.length r.reg ∧ r.reg.u.length = m ∧ r.reg.predy.length = m := by
  cases e with
  | gm opt =>
    simp only [fitExog] at h
    split at h <;> cases h
    simp [ofGM, Sized, Est.cls, Cls.ownB, Cls.ownV, Nat.add_comm]
  | het opt mi eps s1 hb =>
    obtain ⟨f, -, rfl⟩ := map_ok h
    simp [ofIter, Sized, Est.cls, Cls.ownB, Cls.ownV, Nat.add_comm]
  | hom opt mi eps a1 =>
    obtain ⟨f, -, rfl⟩ := map_ok h
    simp [ofIter, Sized, Est.cls, Cls.ownB, Cls.ownV, Nat.add_comm]
  | ml opt jac =>
    simp only [fitExog] at h
    split at h
    · cases h
    · split at h <;> cases h
      simp [ofML, Sized, Est.cls, Cls.ownB, Cls.ownV, Nat.add_comm]

theorem workError_sized (e : Est) (w : WReg.W ι) (y : ℕ → ℝ) (ids : List ℕ) (x : List (ℕ → ℝ)) (m : RegRes ℝ)
    (h : (workError e w y ids x).map (·.reg) = .ok m) : Sized e.cls 0 x.length m ∧ m.u.length = ids.length ∧ m.predy.length = ids.length := by
  obtain ⟨r, h1, rfl⟩ := map_ok h
  obtain ⟨wr, -, h2⟩ := bind_ok h1
  simpa using fitExog_sized _ _ _ _ _ h2

theorem fitEndog_sized (e : EstEnd) (addLag : Option (ℕ × Bool)) {m : ℕ} (y : Fin m → ℝ) (x yend q : List (Fin m → ℝ)) (W : Matrix (Fin m) (Fin m) ℝ)
    (r : Res) (h : fitEndog e y x yend q W = .ok r) (ky : ℕ) (hy : yend.length = ky + addLag.isSome.toNat) :
    Sized (e.cls addLag) ky x.length r.reg ∧ r.reg.u.length = m ∧ r.reg.predy.length = m := by
  cases e with
  | gm opt =>
    obtain ⟨f, -, rfl⟩ := map_ok h
    simp [ofGM, Sized, EstEnd.cls, Cls.ownB, Cls.ownV, hy]
    omega
  | het opt mi eps hb =>
    simp only [fitEndog] at h
    split at h
    · cases h
    · rename_i c hc
      obtain ⟨f, -, rfl⟩ := map_ok h
      have : yend ≠ [] := by rintro rfl; simp at hc
      have := List.length_pos_iff.2 this
      simp [ofLast, Sized, EstEnd.cls, Cls.ownB, Cls.ownV]
      omega
  | hom opt mi eps a1 =>
    obtain ⟨f, -, rfl⟩ := map_ok h
    simp [ofIter, Sized, EstEnd.cls, Cls.ownB, Cls.ownV, hy]
    omega

theorem workEndog_sized (e : EstEnd) (addLag : Option (ℕ × Bool)) (w : WReg.W ι) (y : ℕ → ℝ) (yend q : Option (List (ℕ → ℝ))) (ids : List ℕ)
    (x : List (ℕ → ℝ)) (m : RegRes ℝ) (h : (workEndog e addLag w y yend q ids x).map (·.reg) = .ok m) :
    Sized (e.cls addLag) (yend.getD []).length x.length m ∧ m.u.length = ids.length ∧ m.predy.length = ids.length := by
  obtain ⟨r, h1, rfl⟩ := map_ok h
  obtain ⟨wr, -, h2⟩ := bind_ok h1
  cases addLag with
  | none =>
    have := fitEndog_sized e none _ _ _ _ _ _ h2 (yend.getD []).length (by cases yend <;> simp)
    simpa using this
  | some p =>
    obtain ⟨o, h3, h4⟩ := bind_ok h2
    obtain ⟨r', h5, h6⟩ := bind_ok h4
    have hy : o.yend.length = (yend.getD []).length + 1 := by
      cases yend with
      | none =>
        simp [Lags.setEndog, bind, Except.bind, pure, Except.pure] at h3
        rw [← h3]; simp
      | some l =>
        cases q with
        | none => simp [Lags.setEndog, bind, Except.bind, pure, Except.pure] at h3
        | some l' =>
          simp [Lags.setEndog, bind, Except.bind, pure, Except.pure] at h3
          rw [← h3]; simp
    have := fitEndog_sized e (some p) _ _ _ _ _ _ h5 (yend.getD []).length (by simpa using hy)
    obtain ⟨pr, -, h7⟩ := bind_ok h6
    cases h7
    simpa using this

/-! ### The classes -/

theorem mapM_all {L M : Type} {f : L → Py M} : ∀ {rs : List L} {ms : List M}, rs.mapM f = .ok ms → ∀ r ∈ rs, ∃ m, f r = .ok m
  | [], _, _, r, hr => by cases hr
  | a :: t, ms, h, r, hr => by
    rw [List.mapM_cons] at h
    obtain ⟨m, h1, h2⟩ := bind_ok h
    obtain ⟨ms', h3, -⟩ := bind_ok h2
    rcases List.mem_cons.1 hr with rfl | hr
    · exact ⟨m, h1⟩
    · exact mapM_all h3 r hr

/-- In a run that succeeds no variable was dropped. -/
theorem no_const {C : Type} (cls : Cls) (h1 : cls ≠ .ols) (h2 : cls ≠ .tsls) (ky : ℕ) (isConst : List ℕ → C → Bool) (rs regimes : List ρ) (hne : rs ≠ [])
    (names : List String) (cols : List C) (est : ρ → List C → Py (RegRes ℝ))
    (hest : ∀ r cs m, est r cs = .ok m → Sized cls ky cs.length m) (q : List String × Asm ℝ)
    (hok : multi cls ky isConst rs regimes names cols est = .ok q) :
    (∀ c ∈ cols, ∀ r ∈ rs, isConst (regiIds regimes r) c = false) ∧ kept isConst rs regimes cols = cols := by
  have hall : ∀ r ∈ rs, ∃ m, est r (kept isConst rs regimes cols) = .ok m ∧ Sized cls ky (kept isConst rs regimes cols).length m := by
    have h := hok
    rw [multi] at h
    obtain ⟨ms, h3, -⟩ := bind_ok h
    rw [kept_eq] at h3
    intro r hr
    obtain ⟨m, hm⟩ := mapM_all h3 r hr
    exact ⟨m, hm, hest _ _ _ hm⟩
  have hc : ∀ c ∈ cols, ∀ r ∈ rs, isConst (regiIds regimes r) c = false := by
    by_contra hcon
    push Not at hcon
    obtain ⟨c, hc, r, hr, h⟩ := hcon
    have := (C136_violated cls h1 h2 ky isConst rs regimes hne names cols est hall).2 ⟨c, hc, r, hr, by simpa using h⟩
    rw [this] at hok
    cases hok
  refine ⟨hc, ?_⟩
  rw [kept, List.filter_eq_self]
  intro c hcc
  rw [List.all_eq_true]
  intro r hr
  simp [hc c hcc r hr]

/-- Two runs of the assembly in which the model of regime `r` is the same. -/
theorem multi_same {C : Type} (cls : Cls) (h1 : cls ≠ .ols) (h2 : cls ≠ .tsls) (ky : ℕ) (isConst : List ℕ → C → Bool) (rs rs' regimes regimes' : List ρ)
    (hrs : rs.Nodup) (hrs' : rs'.Nodup) (names names' : List String) (cols cols' : List C) (est est' : ρ → List C → Py (RegRes ℝ))
    (hest : ∀ r cs m, est r cs = .ok m → Sized cls ky cs.length m ∧ m.u.length = (regiIds regimes r).length ∧ m.predy.length = (regiIds regimes r).length)
    (hest' : ∀ r cs m, est' r cs = .ok m → Sized cls ky cs.length m ∧ m.u.length = (regiIds regimes' r).length ∧ m.predy.length = (regiIds regimes' r).length)
    (nm nm' : List String) (a a' : Asm ℝ) (hok : multi cls ky isConst rs regimes names cols est = .ok (nm, a))
    (hok' : multi cls ky isConst rs' regimes' names' cols' est' = .ok (nm', a')) (r : ρ) (c c' : ℕ) (hc : rs[c]? = some r) (hc' : rs'[c']? = some r)
    (hids : regiIds regimes r = regiIds regimes' r) (he : est r cols = est' r cols') :
    SameBlock (cls.ownB ky cols.length) (cls.ownV ky cols.length) {o | regimes[o]? = some r} a a' c c' := by
  obtain ⟨hcl, rfl⟩ := List.getElem?_eq_some_iff.1 hc
  obtain ⟨hcl', e'⟩ := List.getElem?_eq_some_iff.1 hc'
  have hne : rs ≠ [] := by rintro rfl; simp at hcl
  have hne' : rs' ≠ [] := by rintro rfl; simp at hcl'
  obtain ⟨n1, k1⟩ := no_const cls h1 h2 ky isConst rs regimes hne names cols est (fun r cs m h => (hest r cs m h).1) _ hok
  obtain ⟨n2, k2⟩ := no_const cls h1 h2 ky isConst rs' regimes' hne' names' cols' est' (fun r cs m h => (hest' r cs m h).1) _ hok'
  obtain ⟨ms, hl, hms⟩ := C135_assembly cls ky isConst rs regimes hrs names cols est nm a (fun r _ m h => hest r _ m h) hok (Or.inr (Or.inr n1))
  obtain ⟨ms', hl', hms'⟩ := C135_assembly cls ky isConst rs' regimes' hrs' names' cols' est' nm' a' (fun r _ m h => hest' r _ m h) hok' (Or.inr (Or.inr n2))
  obtain ⟨g1, g2, g3, -, g5, g6⟩ := hms c hcl (hl ▸ hcl)
  obtain ⟨f1, f2, f3, -, f5, f6⟩ := hms' c' hcl' (hl' ▸ hcl')
  rw [k1] at g1
  rw [k2, e', ← he, g1] at f1
  have hm := Except.ok.inj f1
  rw [← hm] at f2 f3 f5 f6
  obtain ⟨⟨s1, s2⟩, -⟩ := hest _ _ _ g1
  rw [s1, ] at g2 f2
  rw [s2] at g3 f3
  refine ⟨fun j hj => (g2 j hj).trans (f2 j hj).symm, fun i hi j hj => (g3 i hi j hj).trans (f3 i hi j hj).symm, fun o ho => ?_, fun o ho => ?_⟩
  · rw [e', ← hids, ← g5] at f5
    exact (List.map_inj_left.1 f5 o ((mem_regiIds ..).2 ho)).symm
  · rw [e', ← hids, ← g6] at f6
    exact (List.map_inj_left.1 f6 o ((mem_regiIds ..).2 ho)).symm

/-- **C176 (exogenous variables).** Two runs on data sets that agree around regime `r` give the same coefficients, variances, residuals and
fitted values for it, whatever the other regimes are and wherever `r` stands among them. -/
theorem C176_error (e : Est) (D D' : Data ι ρ) (r : ρ) (s : ℕ) (h : SameAround D D' r s) (rs rs' : List ρ) (hrs : rs.Nodup) (hrs' : rs'.Nodup)
    (names names' : List String) (slx : Option (List Bool)) (nm nm' : List String) (a a' : Asm ℝ)
    (hok : errorRegimes e D rs names s slx = .ok (nm, a)) (hok' : errorRegimes e D' rs' names' s slx = .ok (nm', a'))
    (c c' : ℕ) (hc : rs[c]? = some r) (hc' : rs'[c']? = some r) :
    SameBlock (nx D s slx + 2) (nx D s slx + 1 + lamRow e) (members D r) a a' c c' := by
  obtain ⟨p, hp, hok⟩ := bind_ok hok
  obtain ⟨p', hp', hok'⟩ := bind_ok hok'
  obtain ⟨hx, hl⟩ := withWX_same h hp hp'
  have := multi_same e.cls (by cases e <;> simp [Est.cls]) (by cases e <;> simp [Est.cls]) 0 constOn rs rs' D.regimes D'.regimes hrs hrs' p.2 p'.2
    p.1 p'.1 _ _ (fun r cs m hm => workError_sized _ _ _ _ _ _ hm) (fun r cs m hm => workError_sized _ _ _ _ _ _ hm) nm nm' a a' hok hok' r c c' hc hc'
    (regiIds_same h.members) (by rw [workError_same h e hx])
  rw [hl] at this
  have e1 : e.cls.ownB 0 (nx D s slx) = nx D s slx + 2 := by cases e <;> simp [Est.cls, Cls.ownB, Cls.ownV] <;> omega
  have e2 : e.cls.ownV 0 (nx D s slx) = (nx D s slx + 1 + lamRow e) := by
    cases e <;> simp [Est.cls, Cls.ownV, lamRow] <;> omega
  rw [e1, e2] at this
  exact this

/-- **C176 (endogenous variables).** The same with endogenous variables and, with `addLag`, a spatial lag within the regime. -/
theorem C176_endog (e : EstEnd) (addLag : Option (ℕ × Bool)) (D D' : Data ι ρ) (r : ρ) (s : ℕ) (h : SameAround D D' r s) (rs rs' : List ρ)
    (hrs : rs.Nodup) (hrs' : rs'.Nodup) (names names' : List String) (slx : Option (List Bool)) (nm nm' : List String) (a a' : Asm ℝ)
    (hok : endogRegimes e addLag D rs names s slx = .ok (nm, a)) (hok' : endogRegimes e addLag D' rs' names' s slx = .ok (nm', a'))
    (c c' : ℕ) (hc : rs[c]? = some r) (hc' : rs'[c']? = some r) :
    let K := 1 + nx D s slx + (D.yend.getD []).length + addLag.isSome.toNat
    SameBlock (K + 1) (K + lamRowE e) (members D r) a a' c c' := by
  obtain ⟨p, hp, hok⟩ := bind_ok hok
  obtain ⟨p', hp', hok'⟩ := bind_ok hok'
  obtain ⟨hx, hl⟩ := withWX_same h hp hp'
  have hky : (D'.yend.getD []).length = (D.yend.getD []).length := by
    have := h.yend
    cases hd : D.yend <;> cases hd' : D'.yend <;> rw [hd, hd'] at this <;> cases this <;> simp
    rename_i h; exact h.length_eq.symm
  rw [hky] at hok'
  have hs' : ∀ r cs m, (workEndog e addLag D'.w D'.y D'.yend D'.q (regiIds D'.regimes r) cs).map (·.reg) = .ok m →
      Sized (e.cls addLag) (D.yend.getD []).length cs.length m ∧ m.u.length = (regiIds D'.regimes r).length ∧
        m.predy.length = (regiIds D'.regimes r).length := fun r cs m hm => hky ▸ workEndog_sized _ _ _ _ _ _ _ _ _ hm
  have := multi_same (e.cls addLag) (by cases e <;> simp [EstEnd.cls]) (by cases e <;> simp [EstEnd.cls]) _ constOn rs rs' D.regimes D'.regimes
    hrs hrs' p.2 p'.2 p.1 p'.1 _ _ (fun r cs m hm => workEndog_sized _ _ _ _ _ _ _ _ _ hm) hs' nm nm' a a' hok hok' r c c' hc hc'
    (regiIds_same h.members) (by rw [workEndog_same h e addLag hx])
  rw [hl] at this
  intro K
  have e1 : (e.cls addLag).ownB (D.yend.getD []).length (nx D s slx) = K + 1 := by cases e <;> simp [EstEnd.cls, Cls.ownB, Cls.ownV, K]
  have e2 : (e.cls addLag).ownV (D.yend.getD []).length (nx D s slx) = (K + lamRowE e) := by
    cases e <;> simp [EstEnd.cls, Cls.ownV, K, lamRowE]
  rw [e1, e2] at this
  exact this

/-! ### A run -/

theorem gm0_ok {m : ℕ} (y : Fin m → ℝ) (x : List (Fin m → ℝ)) (W : Matrix (Fin m) (Fin m) ℝ)
    (h : IsUnit ((matOf ((fun _ => 1) :: x))ᵀ * matOf ((fun _ => 1) :: x)).det) : ∃ r, fitExog (.gm fun _ => 0) y x W = .ok r := by
  have h2 : spFilterM W 0 (matOf ((fun _ => 1) :: x)) = matOf ((fun _ => 1) :: x) := by simp [spFilterM]
  simp only [fitExog, gmError, h2, ols_of_isUnit _ _ h, Option.bind_some, Option.map_some]
  exact ⟨_, rfl⟩

/-- Four observations on a line, two regimes; `y` and the weights of the second regime's observations are free. -/
noncomputable def lineD (y : ℕ → ℝ) (v : ℕ → ℕ → ℝ) : Data ℕ ℕ :=
  { y := y, x := [fun a => a], yend := none, q := none, regimes := [7, 7, 3, 3]
    w := { ids := [0, 1, 2, 3], nb := fun i => if i = 0 then [1] else if i = 1 then [0, 2] else if i = 2 then [1, 3] else [2], wt := v, tr := .R } }

/-- **C176 (a case).** Whatever `y` is the estimation succeeds, and two data sets with the same `y` in regime 7 agree around it,
although the weights and `y` in regime 3 differ. -/
theorem C176_example (y : ℕ → ℝ) (v : ℕ → ℕ → ℝ) :
    (∃ p, errorRegimes (.gm fun _ => 0) (lineD y v) [3, 7] ["x"] 0 none = .ok p) ∧
    ∀ y' v', y' 0 = y 0 → y' 1 = y 1 → SameAround (lineD y v) (lineD y' v') 7 0 := by
  constructor
  · have hc : ∀ ids : List ℕ, (∃ a ∈ ids, ∃ b ∈ ids, a ≠ b) → constOn ids (fun a => (a : ℝ)) = false := by
      rintro ids ⟨a, ha, b, hb, hab⟩
      simp only [constOn, decide_eq_false_iff_not]
      intro h
      exact hab (by exact_mod_cast h a ha b hb)
    have i3 : regiIds [7, 7, 3, 3] 3 = [2, 3] := by decide
    have i7 : regiIds [7, 7, 3, 3] 7 = [0, 1] := by decide
    have hk : ∀ c ∈ [fun a : ℕ => (a : ℝ)], ∀ r ∈ [3, 7], constOn (regiIds [7, 7, 3, 3] r) c = false := by
      intro c hc' r hr
      rw [List.mem_singleton.1 hc']
      rcases List.mem_cons.1 hr with rfl | hr
      · rw [i3]; exact hc _ ⟨2, by simp, 3, by simp, by simp⟩
      · rw [List.mem_singleton.1 hr, i7]; exact hc _ ⟨0, by simp, 1, by simp, by simp⟩
    have hkept : kept constOn [3, 7] [7, 7, 3, 3] [fun a : ℕ => (a : ℝ)] = [fun a : ℕ => (a : ℝ)] := by
      rw [kept, List.filter_eq_self]
      intro c hcc
      rw [List.all_eq_true]
      intro r hr
      simp [hk c hcc r hr]
    have two : ∀ a b : ℕ, a ≠ b → ∀ W, ∃ r, fitExog (.gm fun _ => 0) (rows [a, b] y) ([fun a : ℕ => (a : ℝ)].map (rows [a, b])) W = .ok r := by
      intro a b hab W
      refine gm0_ok _ _ _ ((xtx_isUnit_iff _).2 fun u hu => ?_)
      have h0 := congrFun hu (0 : Fin 2)
      have h1 := congrFun hu (1 : Fin 2)
      simp only [mulVec, dotProduct, Pi.zero_apply] at h0 h1
      erw [Fin.sum_univ_two] at h0 h1
      simp only [matOf, of_apply] at h0 h1
      replace h0 : u (0 : Fin 2) + (a : ℝ) * u (1 : Fin 2) = 0 := by simp at h0; exact h0
      replace h1 : u (0 : Fin 2) + (b : ℝ) * u (1 : Fin 2) = 0 := by simp at h1; exact h1
      have e : ((a : ℝ) - b) * u (1 : Fin 2) = 0 := by linarith
      have hab' : (a : ℝ) - b ≠ 0 := sub_ne_zero.2 (by exact_mod_cast hab)
      have u1 : u (1 : Fin 2) = 0 := (mul_eq_zero.1 e).resolve_left hab'
      have u0 : u (0 : Fin 2) = 0 := by rw [u1] at h0; linarith
      funext i
      revert i
      show ∀ i : Fin 2, u i = 0
      intro i
      fin_cases i
      · exact u0
      · exact u1
    have hest : ∀ r ∈ [3, 7], ∃ m, (workError (.gm fun _ => 0) (lineD y v).w y (regiIds [7, 7, 3, 3] r) [fun a => (a : ℝ)]).map (·.reg) = .ok m ∧
        Sized (Est.gm fun _ => 0).cls 0 [fun a : ℕ => (a : ℝ)].length m := by
      intro r hr
      have key : ∃ q, workError (.gm fun _ => 0) (lineD y v).w y (regiIds [7, 7, 3, 3] r) [fun a => (a : ℝ)] = .ok q := by
        rcases List.mem_cons.1 hr with rfl | hr
        · rw [i3]; exact two 2 3 (by simp) _
        · rw [List.mem_singleton.1 hr, i7]; exact two 0 1 (by simp) _
      obtain ⟨q, hq⟩ := key
      have hq' : (workError (.gm fun _ => 0) (lineD y v).w y (regiIds [7, 7, 3, 3] r) [fun a => (a : ℝ)]).map (·.reg) = .ok q.reg := by rw [hq]; rfl
      exact ⟨_, hq', (workError_sized _ _ _ _ _ _ hq').1⟩
    exact (C136_violated (Est.gm fun _ => 0).cls (by simp [Est.cls]) (by simp [Est.cls]) 0 constOn [3, 7] [7, 7, 3, 3] (by simp) ["x"]
      [fun a : ℕ => (a : ℝ)] (fun r cols => (workError (.gm fun _ => 0) (lineD y v).w y (regiIds [7, 7, 3, 3] r) cols).map (·.reg))
      (by rw [hkept]; exact hest)).1 hk
  · intro y' v' h0 h1
    have hm : members (lineD y v) 7 = {0, 1} := by
      ext a
      simp only [members, lineD, Set.mem_insert_iff, Set.mem_singleton_iff]
      show [7, 7, 3, 3][a]? = some 7 ↔ _
      rcases a with _ | _ | _ | _ | a <;> simp
    refine ⟨rfl, ?_, .none, .none, ?_, fun _ _ => rfl, fun _ _ => rfl, rfl, rfl, fun t ht => absurd ht (Nat.not_lt_zero t)⟩
    · rw [hm]
      rintro a (rfl | rfl)
      · exact h0.symm
      · exact h1.symm
    · exact .cons (fun _ _ => rfl) .nil

end Spreg.RegWork
