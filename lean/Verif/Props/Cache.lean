import Verif.Model.Cache
/-
Properties C21, C22: cached quantities.
-/
namespace Spreg.Cache
open Matrix Spreg.Lin Spreg.LM

variable {n k : Type} [Fintype n]

/-! ### C22 -/

theorem lookup_put_self (o : Obj n k) (key : Key) (v : Val k key) :
    (o.put key v).lookup key = some v := by
  simp [Obj.put, Obj.lookup]

theorem lookup_put_ne (o : Obj n k) {key key' : Key} (v : Val k key) (h : key' ≠ key) :
    (o.put key v).lookup key' = o.lookup key' := by
  unfold Obj.put Obj.lookup
  simp only [Option.bind_some, Function.update_of_ne h]
  cases o.cache <;> rfl

@[simp] theorem lookup_ensure (o : Obj n k) (key : Key) : o.ensure.lookup key = o.lookup key := by
  unfold Obj.ensure Obj.lookup
  cases o.cache <;> rfl

@[simp] theorem base_put (o : Obj n k) (key : Key) (v : Val k key) : (o.put key v).base = o.base := rfl
@[simp] theorem base_ensure (o : Obj n k) : o.ensure.base = o.base := rfl

/-- Reading `utu`. -/
theorem getUtu_spec (o : Obj n k) :
    (getUtu o).1 = (o.lookup .utu).getD (utuOf o.base) ∧
    (getUtu o).2.base = o.base ∧
    (getUtu o).2.lookup .utu = some (getUtu o).1 ∧
    ∀ key, key ≠ Key.utu → (getUtu o).2.lookup key = o.lookup key := by
  unfold getUtu
  cases h : o.lookup .utu with
  | some v => exact ⟨rfl, rfl, h, fun _ _ => rfl⟩
  | none =>
    refine ⟨rfl, rfl, lookup_put_self _ _ _, fun key hk => ?_⟩
    simp only [lookup_put_ne _ _ hk, lookup_ensure]

/-- The current value of an attribute: the cached one, otherwise the one computed from the ordinary
attributes (through the current value of `utu` for the two variance estimates). -/
noncomputable def cur (o : Obj n k) : (key : Key) → Val k key
  | .mean_y => (o.lookup .mean_y).getD (meanY o.base)
  | .std_y => (o.lookup .std_y).getD (stdY o.base)
  | .utu => (o.lookup .utu).getD (utuOf o.base)
  | .sig2n => (o.lookup .sig2n).getD ((o.lookup .utu).getD (utuOf o.base) / o.base.nobs)
  | .sig2n_k => (o.lookup .sig2n_k).getD
      ((o.lookup .utu).getD (utuOf o.base) / (o.base.nobs - o.base.nvar))
  | .vm => (o.lookup .vm).getD (o.base.sig2 • o.base.xtxi)

/-- Effect of a read: value, frame. -/
theorem get_spec (o : Obj n k) (key : Key) :
    (get o key).1 = cur o key ∧ (get o key).2.base = o.base ∧
    (get o key).2.lookup key = some (cur o key) ∧
    ∀ key', key' ≠ key →
      ((get o key).2.lookup key' = o.lookup key' ∨
        (key' = .utu ∧ (key = .sig2n ∨ key = .sig2n_k) ∧ o.lookup key = none ∧
          (get o key).2.lookup key' = some (cur o key'))) := by
  cases key with
  | mean_y =>
    simp only [get, getMeanY, cur]
    cases h : o.lookup .mean_y with
    | some v => exact ⟨rfl, rfl, h, fun _ _ => Or.inl rfl⟩
    | none => exact ⟨rfl, rfl, lookup_put_self _ _ _, fun key' hk => Or.inl (by
        simp only [lookup_put_ne _ _ hk, lookup_ensure])⟩
  | std_y =>
    simp only [get, getStdY, cur]
    cases h : o.lookup .std_y with
    | some v => exact ⟨rfl, rfl, h, fun _ _ => Or.inl rfl⟩
    | none => exact ⟨rfl, rfl, lookup_put_self _ _ _, fun key' hk => Or.inl (by
        simp only [lookup_put_ne _ _ hk, lookup_ensure])⟩
  | utu =>
    obtain ⟨h1, h2, h3, h4⟩ := getUtu_spec o
    simp only [get, cur]
    exact ⟨h1, h2, h1 ▸ h3, fun key' hk => Or.inl (h4 key' hk)⟩
  | sig2n =>
    simp only [get, getSig2n, cur]
    cases h : o.lookup .sig2n with
    | some v => exact ⟨rfl, rfl, h, fun _ _ => Or.inl rfl⟩
    | none =>
      obtain ⟨h1, h2, h3, h4⟩ := getUtu_spec o.ensure
      simp only [lookup_ensure, base_ensure] at h1 h2 h4
      simp only [Option.getD_none]
      refine ⟨by rw [h2, h1], h2, ?_, fun key' hk => ?_⟩
      · rw [lookup_put_self, h2, h1]
      · rw [lookup_put_ne _ _ hk]
        by_cases hu : key' = .utu
        · subst hu
          exact Or.inr ⟨rfl, by simp, by simp, by rw [h3, h1]⟩
        · exact Or.inl (h4 key' hu)
  | sig2n_k =>
    simp only [get, getSig2nk, cur]
    cases h : o.lookup .sig2n_k with
    | some v => exact ⟨rfl, rfl, h, fun _ _ => Or.inl rfl⟩
    | none =>
      obtain ⟨h1, h2, h3, h4⟩ := getUtu_spec o.ensure
      simp only [lookup_ensure, base_ensure] at h1 h2 h4
      simp only [Option.getD_none]
      refine ⟨by rw [h2, h1], h2, ?_, fun key' hk => ?_⟩
      · rw [lookup_put_self, h2, h1]
      · rw [lookup_put_ne _ _ hk]
        by_cases hu : key' = .utu
        · subst hu
          exact Or.inr ⟨rfl, by simp, by simp, by rw [h3, h1]⟩
        · exact Or.inl (h4 key' hu)
  | vm =>
    simp only [get, getVm, cur]
    cases h : o.lookup .vm with
    | some v => exact ⟨rfl, rfl, h, fun _ _ => Or.inl rfl⟩
    | none => exact ⟨rfl, rfl, lookup_put_self _ _ _, fun key' hk => Or.inl (by
        simp only [lookup_put_ne _ _ hk, lookup_ensure])⟩

/-- the operation assigns attribute `key` -/
def Op.assigns (op : Op n k) (key : Key) : Prop := ∃ v, op = .assign key v

/-- A cached value survives every operation that does not assign the attribute. -/
theorem step_keeps (o : Obj n k) (op : Op n k) (key : Key) (v : Val k key)
    (h : o.lookup key = some v) (hop : ¬ op.assigns key) : (step o op).lookup key = some v := by
  cases op with
  | read key' =>
    by_cases hk : key = key'
    · subst hk
      have := (get_spec o key).2.2.1
      simp only [step]
      rw [this]
      cases key <;> simp [cur, h]
    · rcases (get_spec o key').2.2.2 key hk with h1 | ⟨h1, _, _, h2⟩
      · simp only [step]; rw [h1, h]
      · simp only [step]; rw [h2]; subst h1; simp [cur, h]
  | assign key' w =>
    have hk : key ≠ key' := by
      rintro rfl; exact hop ⟨w, rfl⟩
    simp only [step]
    rw [lookup_put_ne _ _ hk, h]
  | setBase b => exact h

theorem run_keeps (t : List (Op n k)) : ∀ (o : Obj n k) (key : Key) (v : Val k key),
    o.lookup key = some v → (∀ op ∈ t, ¬ op.assigns key) → (run o t).lookup key = some v := by
  induction t with
  | nil => intro o key v h _; exact h
  | cons op t ih =>
    intro o key v h ht
    exact ih (step o op) key v (step_keeps o op key v h (ht op (by simp)))
      (fun op' h' => ht op' (by simp [h']))

theorem get_of_lookup (o : Obj n k) (key : Key) (v : Val k key) (h : o.lookup key = some v) :
    (get o key).1 = v := by
  rw [(get_spec o key).1]; cases key <;> simp [cur, h]

theorem run_append (o : Obj n k) (h t : List (Op n k)) : run o (h ++ t) = run (run o h) t := by
  unfold run; exact List.foldl_append ..

/-- C22: after any history, an assigned value is what every later read returns, whatever else happens in
between (reads of anything, assignments of other attributes, replacement of ordinary attributes), until
that attribute is assigned again. -/
theorem C22_last_assigned (b : Base n k) (h t : List (Op n k)) (key : Key) (v : Val k key)
    (ht : ∀ op ∈ t, ¬ op.assigns key) :
    (get (run (fresh b) (h ++ [.assign key v] ++ t)) key).1 = v := by
  apply get_of_lookup
  rw [run_append, run_append]
  apply run_keeps _ _ _ _ _ ht
  exact lookup_put_self _ _ _

/-- C22: the value returned by a read is what every later read returns, whatever happens in between, as
long as that attribute itself is not assigned. -/
theorem C22_reads_stable (b : Base n k) (h t : List (Op n k)) (key : Key)
    (ht : ∀ op ∈ t, ¬ op.assigns key) :
    (get (run (fresh b) (h ++ [.read key] ++ t)) key).1 = (get (run (fresh b) h) key).1 := by
  apply get_of_lookup
  rw [run_append, run_append]
  apply run_keeps _ _ _ _ _ ht
  have := (get_spec (run (fresh b) h) key)
  rw [this.1]
  exact this.2.2.1

/-- the operation may store attribute `key`: it assigns or reads it, or reads one computed from it -/
def Op.touches (op : Op n k) (key : Key) : Prop :=
  op = .read key ∨ op.assigns key ∨ (key = .utu ∧ (op = .read .sig2n ∨ op = .read .sig2n_k))

theorem run_untouched (h : List (Op n k)) : ∀ (o : Obj n k) (key : Key), o.lookup key = none →
    (∀ op ∈ h, ¬ op.touches key) → (run o h).lookup key = none := by
  induction h with
  | nil => intro o key h _; exact h
  | cons op t ih =>
    intro o key h ht
    refine ih (step o op) key ?_ (fun op' h' => ht op' (by simp [h']))
    have hop := ht op (by simp)
    cases op with
    | read key' =>
      have hk : key ≠ key' := by rintro rfl; exact hop (Or.inl rfl)
      rcases (get_spec o key').2.2.2 key hk with h1 | ⟨h1, h2, _, _⟩
      · simp only [step]; rw [h1, h]
      · exfalso; apply hop; subst h1
        rcases h2 with rfl | rfl
        · exact Or.inr (Or.inr ⟨rfl, Or.inl rfl⟩)
        · exact Or.inr (Or.inr ⟨rfl, Or.inr rfl⟩)
    | assign key' w =>
      have hk : key ≠ key' := by rintro rfl; exact hop (Or.inr (Or.inl ⟨w, rfl⟩))
      simp only [step]
      rw [lookup_put_ne _ _ hk, h]
    | setBase b => exact h

/-- C22: the first read computes from the ordinary attributes as they are at that moment: `mean_y` is the
mean, `std_y` the sample standard deviation, `utu` the sum of squared residuals, `vm` is
`sig2 * xtxi`; `sig2n` and `sig2n_k` divide the value a read of `utu` would return by `n` and `n - k`. -/
theorem C22_first_read (b : Base n k) (h : List (Op n k)) (key : Key)
    (hh : ∀ op ∈ h, ¬ op.touches key) :
    let o := run (fresh b) h
    (get o key).1 = match (motive := (key : Key) → Val k key) key with
      | .mean_y => (∑ i, o.base.y i) / Fintype.card n
      | .std_y => Real.sqrt ((∑ i, (o.base.y i - (∑ j, o.base.y j) / Fintype.card n) ^ 2)
          / ((Fintype.card n : ℝ) - 1))
      | .utu => ∑ i, o.base.u i ^ 2
      | .sig2n => (get o .utu).1 / o.base.nobs
      | .sig2n_k => (get o .utu).1 / (o.base.nobs - o.base.nvar)
      | .vm => o.base.sig2 • o.base.xtxi := by
  intro o
  have hl : o.lookup key = none := run_untouched h (fresh b) key rfl hh
  rw [(get_spec o key).1]
  cases key with
  | mean_y => simp [cur, hl, meanY]
  | std_y => simp [cur, hl, stdY, meanY]
  | utu => simp [cur, hl, utuOf]
  | sig2n => simp [cur, hl, (get_spec o .utu).1]
  | sig2n_k => simp [cur, hl, (get_spec o .utu).1]
  | vm => simp [cur, hl]

/-- C22: reading or assigning lazy attributes never changes the ordinary attributes, so with reads only,
on an object whose ordinary attributes do not change, every read returns the value of the defining
formula. -/
theorem C22_reads_only (b : Base n k) (keys : List Key) :
    let o := run (fresh b) (keys.map Op.read)
    o.base = b ∧ (get o .utu).1 = ∑ i, b.u i ^ 2 ∧ (get o .sig2n).1 = (∑ i, b.u i ^ 2) / b.nobs ∧
    (get o .sig2n_k).1 = (∑ i, b.u i ^ 2) / (b.nobs - b.nvar) ∧
    (get o .vm).1 = b.sig2 • b.xtxi ∧ (get o .mean_y).1 = (∑ i, b.y i) / Fintype.card n := by
  intro o
  have inv : ∀ (keys : List Key) (o : Obj n k), o.base = b → (∀ key, cur o key = cur (fresh b) key) →
      (run o (keys.map Op.read)).base = b ∧
        ∀ key, cur (run o (keys.map Op.read)) key = cur (fresh b) key := by
    intro keys
    induction keys with
    | nil => intro o h1 h2; exact ⟨h1, h2⟩
    | cons a t ih =>
      intro o h1 h2
      have hs := get_spec o a
      have hb : (get o a).2.base = b := by rw [hs.2.1, h1]
      refine ih (get o a).2 hb ?_
      have hl : ∀ key, (get o a).2.lookup key = o.lookup key ∨
          (get o a).2.lookup key = some (cur o key) := by
        intro key
        by_cases hk : key = a
        · subst hk; exact Or.inr hs.2.2.1
        · rcases hs.2.2.2 key hk with h | ⟨_, _, _, h⟩
          · exact Or.inl h
          · exact Or.inr h
      have hcu : cur (get o a).2 .utu = cur o .utu := by
        have h0 := hl .utu
        simp only [cur] at h0 ⊢
        rw [hb, h1] at *
        rcases h0 with h | h <;> rw [h]
        rfl
      intro key
      rw [← h2 key]
      have h0 := hl key
      cases key with
      | utu => exact hcu
      | sig2n =>
        have hcu' := hcu
        simp only [cur] at h0 hcu' ⊢
        rw [hcu', hb, h1] at *
        rcases h0 with h | h <;> rw [h]
        rfl
      | sig2n_k =>
        have hcu' := hcu
        simp only [cur] at h0 hcu' ⊢
        rw [hcu', hb, h1] at *
        rcases h0 with h | h <;> rw [h]
        rfl
      | _ =>
        simp only [cur] at h0 ⊢
        rw [hb, h1] at *
        rcases h0 with h | h <;> rw [h]
        rfl
  obtain ⟨h1, h2⟩ := inv keys (fresh b) rfl (fun _ => rfl)
  refine ⟨h1, ?_, ?_, ?_, ?_, ?_⟩
  all_goals
    rw [(get_spec o _).1]
    exact h2 _

/-- C22, the price of memoisation: replacing the residuals after a read of `sig2n` leaves the old value in
place (this is how `BaseWLS` objects end up with a `utu` that is not that of their `u`). -/
theorem C22_stale_after_setattr : ∃ (b b' : Base (Fin 1) (Fin 1)),
    (get (run (fresh b) [.read .sig2n, .setBase b']) .sig2n).1 ≠
      (get (run (fresh b') []) .sig2n).1 := by
  refine ⟨⟨![0], ![1], 1, 0, 0, 0⟩, ⟨![0], ![2], 1, 0, 0, 0⟩, ?_⟩
  have h1 := C22_reads_stable (n := Fin 1) (k := Fin 1) ⟨![0], ![1], 1, 0, 0, 0⟩ []
    [.setBase ⟨![0], ![2], 1, 0, 0, 0⟩] .sig2n (by
      intro op hop; simp at hop; subst hop; rintro ⟨v, hv⟩; cases hv)
  have h2 := (C22_reads_only (n := Fin 1) (k := Fin 1) ⟨![0], ![1], 1, 0, 0, 0⟩ []).2.2.1
  have h3 := (C22_reads_only (n := Fin 1) (k := Fin 1) ⟨![0], ![2], 1, 0, 0, 0⟩ []).2.2.1
  simp only [List.nil_append, List.map_nil] at h1 h2 h3
  simp at h2 h3
  intro h
  rw [show [Op.read Key.sig2n, Op.setBase ⟨![0], ![2], 1, 0, 0, 0⟩] = [Op.read Key.sig2n] ++
    [(Op.setBase ⟨![0], ![2], 1, 0, 0, 0⟩ : Op (Fin 1) (Fin 1))] from rfl, h1, h2, h3] at h
  norm_num at h

/-! ### C21 -/

variable [Fintype k]

/-- The value a computation without cache gives. -/
noncomputable def dval (r : Reg n k) (W : Matrix n n ℝ) : (key : DKey) → DVal n k key
  | .j => LM.jj r W
  | .wu => LM.wu r W
  | .utwuDs => LM.utwuDs r W
  | .utwyDs => LM.utwyDs r W
  | .t => LM.tr_t W
  | .trA => LM.trA r W
  | .AB => LM.AB r W

/-- invariant: what is stored is right, and what is computed is exactly what is stored, each once -/
def DInv (r : Reg n k) (W : Matrix n n ℝ) (c : DCache n k) : Prop :=
  (∀ key v, c.dict key = some v → v = dval r W key) ∧ c.log.Nodup ∧
    (∀ key, key ∈ c.log ↔ (c.dict key).isSome)

theorem memo_inv (r : Reg n k) (W : Matrix n n ℝ) (c : DCache n k) (hc : DInv r W c) (key : DKey)
    (f : DCache n k → DVal n k key × DCache n k)
    (hv : (f c).1 = dval r W key) (hi : DInv r W (f c).2)
    (hk : c.dict key = none → (f c).2.dict key = none) :
    (c.memo key f).1 = dval r W key ∧ DInv r W (c.memo key f).2 ∧
      ∀ key', key' ≠ key → ((c.memo key f).2.dict key' = c.dict key' ∨
        (c.memo key f).2.dict key' = (f c).2.dict key') := by
  unfold DCache.memo
  cases h : c.dict key with
  | some v => exact ⟨hc.1 key v h, hc, fun _ _ => Or.inl rfl⟩
  | none =>
    refine ⟨hv, ⟨?_, ?_, ?_⟩, fun key' hk' => Or.inr (Function.update_of_ne hk' _ _)⟩
    · intro key' v hv'
      by_cases he : key' = key
      · subst he
        simp only [Function.update_self] at hv'
        rw [← hv]; exact (Option.some.inj hv').symm
      · simp only [Function.update_of_ne he] at hv'
        exact hi.1 key' v hv'
    · have hn : key ∉ (f c).2.log := by
        rw [hi.2.2, hk h]; simp
      simp only
      rw [List.nodup_append]
      refine ⟨hi.2.1, by simp, ?_⟩
      intro a ha b hb
      simp at hb; subst hb
      rintro rfl; exact hn ha
    · intro key'
      simp only [List.mem_append, List.mem_singleton]
      by_cases he : key' = key
      · subst he; simp
      · simp [he, Function.update_of_ne he, hi.2.2]

theorem dget_inv (r : Reg n k) (W : Matrix n n ℝ) (c : DCache n k) (hc : DInv r W c) (key : DKey) :
    (dget r W c key).1 = dval r W key ∧ DInv r W (dget r W c key).2 := by
  have hT := memo_inv r W c hc .t (fun c => (∑ i, ((Wᵀ + W) * W) i i, c)) rfl hc (fun h => h)
  have hU := memo_inv r W c hc .wu (fun c => (W *ᵥ r.fit.u, c)) rfl hc (fun h => h)
  cases key with
  | t => exact ⟨hT.1, hT.2.1⟩
  | wu => exact ⟨hU.1, hU.2.1⟩
  | utwyDs =>
    have := memo_inv r W c hc .utwyDs (fun c => ((r.fit.u ⬝ᵥ (W *ᵥ r.y)) / r.s2, c)) rfl hc (fun h => h)
    exact ⟨this.1, this.2.1⟩
  | trA =>
    have := memo_inv r W c hc .trA (fun c => (∑ i, (r.fit.xtxi * (r.xᵀ * (W * r.x))) i i, c)) rfl hc
      (fun h => h)
    exact ⟨this.1, this.2.1⟩
  | AB =>
    have := memo_inv r W c hc .AB (fun c => (LM.AB r W, c)) rfl hc (fun h => h)
    exact ⟨this.1, this.2.1⟩
  | utwuDs =>
    have := memo_inv r W c hc .utwuDs
      (fun c => ((r.fit.u ⬝ᵥ (dWu r W c).1) / r.s2, (dWu r W c).2))
      (by
        show (r.fit.u ⬝ᵥ (dWu r W c).1) / r.s2 = _
        rw [show (dWu r W c).1 = dval r W .wu from hU.1]; rfl) hU.2.1
      (by
        intro h
        rcases hU.2.2 .utwuDs (by decide) with h' | h'
        · exact h'.trans h
        · exact h'.trans h)
    exact ⟨this.1, this.2.1⟩
  | j =>
    have := memo_inv r W c hc .j
      (fun c => (((W *ᵥ r.fit.predy) ⬝ᵥ (W *ᵥ r.fit.predy)
          - (r.xᵀ *ᵥ (W *ᵥ r.fit.predy)) ⬝ᵥ (r.fit.xtxi *ᵥ (r.xᵀ *ᵥ (W *ᵥ r.fit.predy)))
          + (dT W c).1 * r.s2) / (r.nn * r.s2), (dT W c).2))
      (by
        simp only
        rw [show (dT W c).1 = dval r W .t from hT.1]; rfl) hT.2.1
      (by
        intro h
        rcases hT.2.2 .j (by decide) with h' | h'
        · exact h'.trans h
        · exact h'.trans h)
    exact ⟨this.1, this.2.1⟩

/-- C21: after any sequence of reads, reading any quantity returns the value of the formula computed
without a cache, and no quantity has been computed more than once. -/
theorem C21_reads (r : Reg n k) (W : Matrix n n ℝ) (h : List DKey) (key : DKey) :
    let c := drun r W (DCache.empty n k) h
    (dget r W c key).1 = (match (motive := (key : DKey) → DVal n k key) key with
      | .j => LM.jj r W
      | .wu => W *ᵥ r.fit.u
      | .utwuDs => (r.fit.u ⬝ᵥ (W *ᵥ r.fit.u)) / r.s2
      | .utwyDs => (r.fit.u ⬝ᵥ (W *ᵥ r.y)) / r.s2
      | .t => ∑ i, ((Wᵀ + W) * W) i i
      | .trA => ∑ i, (r.fit.xtxi * (r.xᵀ * (W * r.x))) i i
      | .AB => LM.AB r W) ∧
    (dget r W c key).2.log.Nodup ∧ ∀ key', key' ∈ h → key' ∈ c.log := by
  intro c
  have hinv : ∀ (h : List DKey) (c : DCache n k), DInv r W c → DInv r W (drun r W c h) := by
    intro h
    induction h with
    | nil => intro c hc; exact hc
    | cons a t ih => intro c hc; exact ih _ (dget_inv r W c hc a).2
  have h0 : DInv r W (DCache.empty n k) :=
    ⟨fun key v hv => by simp [DCache.empty] at hv, List.nodup_nil, fun key => by simp [DCache.empty]⟩
  have hc := hinv h _ h0
  obtain ⟨h1, h2⟩ := dget_inv r W c hc key
  refine ⟨?_, h2.2.1, ?_⟩
  · rw [h1]; cases key <;> rfl
  · -- monotonicity of the log
    have hmemo : ∀ (c : DCache n k) (key : DKey) (f : DCache n k → DVal n k key × DCache n k),
        (∀ a, a ∈ c.log → a ∈ (f c).2.log) →
        (∀ a, a ∈ c.log → a ∈ (c.memo key f).2.log) := by
      intro c key f hf a ha
      unfold DCache.memo
      cases c.dict key with
      | some v => exact ha
      | none => simp [hf a ha]
    have hmono : ∀ (c : DCache n k) (key : DKey), ∀ a, a ∈ c.log → a ∈ (dget r W c key).2.log := by
      intro c key
      cases key with
      | t => exact hmemo c .t _ fun _ h => h
      | wu => exact hmemo c .wu _ fun _ h => h
      | utwyDs => exact hmemo c .utwyDs _ fun _ h => h
      | trA => exact hmemo c .trA _ fun _ h => h
      | AB => exact hmemo c .AB _ fun _ h => h
      | utwuDs => exact hmemo c .utwuDs _ (hmemo c .wu _ fun _ h => h)
      | j => exact hmemo c .j _ (hmemo c .t _ fun _ h => h)
    have hself : ∀ (c : DCache n k) (key : DKey), DInv r W c → key ∈ (dget r W c key).2.log := by
      intro c key hc
      have hm : ∀ (f : DCache n k → DVal n k key × DCache n k), key ∈ (c.memo key f).2.log := by
        intro f
        unfold DCache.memo
        cases hk : c.dict key with
        | some v => rw [hc.2.2, hk]; rfl
        | none => simp
      cases key <;> exact hm _
    have : ∀ (h : List DKey) (c : DCache n k), DInv r W c →
        (∀ a, a ∈ c.log → a ∈ (drun r W c h).log) ∧ ∀ a, a ∈ h → a ∈ (drun r W c h).log := by
      intro h
      induction h with
      | nil => intro c hc; exact ⟨fun a h => h, by simp⟩
      | cons b t ih =>
        intro c hc
        obtain ⟨i1, i2⟩ := ih (dget r W c b).2 (dget_inv r W c hc b).2
        refine ⟨fun a ha => i1 a (hmono c b a ha), fun a ha => ?_⟩
        rcases List.mem_cons.1 ha with rfl | ha
        · exact i1 _ (hself c _ hc)
        · exact i2 a ha
    exact (this h _ h0).2

end Spreg.Cache
