import Verif.Model.RegimesMulti
import Verif.Props.Regimes2
import Verif.Props.Chow
/-
C135: the object assembled from one model per regime holds each regime's own estimates, in its own block.
C136: variables that are constant within a regime.
-/
namespace Spreg.Multi
open Spreg Spreg.Regimes Spreg.Chow Spreg.Lin Matrix
open Spreg.Chk (mapM_ok_iff)

section fill
variable {V : Type}

theorem block_lt {k q q' j j' : ℕ} (h : q < q') (hj : j < k) : q * k + j < q' * k + j' := by
  have : (q + 1) * k ≤ q' * k := Nat.mul_le_mul_right _ h
  rw [Nat.add_mul] at this
  omega

theorem block_inj {k q q' j j' : ℕ} (hj : j < k) (hj' : j' < k) (h : q * k + j = q' * k + j') : q = q' ∧ j = j' := by
  rcases lt_trichotomy q q' with e | e | e
  · have := block_lt (j' := j') e hj; omega
  · subst e; omega
  · have := block_lt (j' := j) e hj'; omega

theorem fill_ok (kr kb : ℕ) : ∀ (c : ℕ) (res : List (RegRes V)) (a : (ℕ → V) × (ℕ → ℕ → V)),
    (∀ m ∈ res, m.kb = kb ∧ m.kv = kr) →
    ∃ a', fill kr kb c res a = .ok a' ∧
      (∀ q (hq : q < res.length), ∀ j < kb, a'.1 ((c + q) * kb + j) = res[q].betas j) ∧
      (∀ i < c * kb, a'.1 i = a.1 i) ∧
      (∀ q (hq : q < res.length), ∀ i < kr, ∀ j < kr, a'.2 ((c + q) * kr + i) ((c + q) * kr + j) = res[q].vm i j) ∧
      (∀ p q i j, i < kr → j < kr → (p ≠ q ∨ p < c) → a'.2 (p * kr + i) (q * kr + j) = a.2 (p * kr + i) (q * kr + j)) := by
  intro c res
  induction res generalizing c with
  | nil => intro a _; exact ⟨a, rfl, by simp, by simp, by simp, by simp⟩
  | cons m t ih =>
    intro a h
    obtain ⟨h1, h2⟩ := h m (by simp)
    obtain ⟨a', e, p1, p2, p3, p4⟩ := ih (c + 1)
      (fun i => if c * kb ≤ i ∧ i < c * kb + kb then m.betas (i - c * kb) else a.1 i,
       fun i j => if (c * kr ≤ i ∧ i < c * kr + kr) ∧ c * kr ≤ j ∧ j < c * kr + kr then m.vm (i - c * kr) (j - c * kr) else a.2 i j)
      fun x hx => h x (by simp [hx])
    refine ⟨a', ?_, ?_, ?_, ?_, ?_⟩
    · simp only [fill, setBlock, setRows, if_pos h1, if_pos h2]
      exact e
    · intro q hq j hj
      cases q with
      | zero =>
        have := p2 (c * kb + j) (by rw [Nat.add_mul]; omega)
        simp only [Nat.add_zero, List.getElem_cons_zero]
        rw [this]
        simp only
        rw [if_pos ⟨by omega, by omega⟩]
        congr 1; omega
      | succ q =>
        have := p1 q (by simpa using hq) j hj
        simpa [Nat.add_comm, Nat.add_left_comm] using this
    · intro i hi
      rw [p2 i (by rw [Nat.add_mul]; omega)]
      simp only
      rw [if_neg (by omega)]
    · intro q hq i hi j hj
      cases q with
      | zero =>
        have := p4 c c i j hi hj (Or.inr (by omega))
        simp only [Nat.add_zero, List.getElem_cons_zero]
        rw [this]
        simp only
        rw [if_pos ⟨⟨by omega, by omega⟩, by omega, by omega⟩]
        congr 1 <;> omega
      | succ q =>
        have := p3 q (by simpa using hq) i hi j hj
        simpa [Nat.add_comm, Nat.add_left_comm] using this
    · intro p q i j hi hj hpq
      rw [p4 p q i j hi hj (by omega)]
      simp only
      rw [if_neg]
      rintro ⟨⟨b1, b2⟩, b3, b4⟩
      have e1 := (block_inj (q := p) (q' := c) (j' := p * kr + i - c * kr) hi (by omega) (by omega)).1
      have e2 := (block_inj (q := q) (q' := c) (j' := q * kr + j - c * kr) hj (by omega) (by omega)).1
      omega

/-- Blocks of the wrong size raise ValueError. -/
theorem fill_err (kr kb : ℕ) (c : ℕ) (res : List (RegRes V)) (a : (ℕ → V) × (ℕ → ℕ → V)) (hne : res ≠ [])
    (h : ∀ m ∈ res, m.kb ≠ kb ∧ m.kb ≠ 1) : fill kr kb c res a = .error .valueError := by
  cases res with
  | nil => exact absurd rfl hne
  | cons m t =>
    obtain ⟨h1, h2⟩ := h m (by simp)
    have e : ∀ x, setRows (c * kb) kb m.kb m.betas x = Except.error PyErr.valueError := fun x => by
      rw [setRows, if_neg h1, if_neg h2]
    simp only [fill, e]
    unfold setBlock
    split_ifs <;> rfl

end fill

/-- The variables that vary in every regime, in their order: what a user expects to be kept. -/
def kept {L C : Type} [DecidableEq L] (isConst : List ℕ → C → Bool) (rs regimes : List L) (cols : List C) : List C :=
  cols.filter fun c => rs.all fun r => !isConst (regiIds regimes r) c

theorem kept_eq {L C : Type} [DecidableEq L] (isConst : List ℕ → C → Bool) (rs regimes : List L) (names : List String) (cols : List C) :
    (checkConstRegi isConst (rs.map (regiIds regimes)) names cols).2 = kept isConst rs regimes cols := by
  rw [C63_columns, kept]
  congr 1
  funext c
  rw [List.all_map]
  rfl

theorem kept_length_le {L C : Type} [DecidableEq L] (isConst : List ℕ → C → Bool) (rs regimes : List L) (cols : List C) :
    (kept isConst rs regimes cols).length ≤ cols.length := List.length_filter_le _ _

theorem kept_length_iff {L C : Type} [DecidableEq L] (isConst : List ℕ → C → Bool) (rs regimes : List L) (cols : List C) :
    (kept isConst rs regimes cols).length = cols.length ↔ ∀ c ∈ cols, ∀ r ∈ rs, isConst (regiIds regimes r) c = false := by
  rw [kept, List.length_filter_eq_length_iff]
  simp

/-- The sizes used by the assembling loop fit the regimes' own models exactly when no variable was dropped, except for `OLS_Regimes`
and `TSLS_Regimes`, where they always fit. -/
theorem sizes (cls : Cls) (kx ky k : ℕ) :
    (cls.kr kx ky k = cls.ownV ky k ↔ cls = .ols ∨ cls = .tsls ∨ k = kx) ∧
    (cls.kb kx ky k = cls.ownB ky k ↔ cls = .ols ∨ cls = .tsls ∨ k = kx) := by
  cases cls <;>
    simp [Cls.kr, Cls.kb, Cls.ownB, Cls.ownV, Cls.flags] <;> omega

theorem mapM_sized {L M : Type} {f : L → Py M} {P : M → Prop} : ∀ {rs : List L}, (∀ r ∈ rs, ∃ m, f r = .ok m ∧ P m) →
    ∃ ms, rs.mapM f = .ok ms ∧ ms.length = rs.length ∧ ∀ m ∈ ms, P m := by
  intro rs
  induction rs with
  | nil => intro _; exact ⟨[], rfl, rfl, by simp⟩
  | cons r t ih =>
    intro h
    obtain ⟨m, h1, h2⟩ := h r (by simp)
    obtain ⟨ms, h3, h4, h5⟩ := ih fun x hx => h x (by simp [hx])
    refine ⟨m :: ms, ?_, by simp [h4], ?_⟩
    · simp only [List.mapM_cons, h1, h3]; rfl
    · intro x hx
      rcases List.mem_cons.1 hx with rfl | hx
      · exact h2
      · exact h5 _ hx

section main
variable {L C V : Type} [DecidableEq L] [Zero V]

theorem multi_eq {cls : Cls} {ky : ℕ} {isConst : List ℕ → C → Bool} {rs regimes : List L} {names : List String} {cols : List C}
    {est : L → List C → Py (RegRes V)} {ms : List (RegRes V)} (hms : rs.mapM (fun r => est r (kept isConst rs regimes cols)) = .ok ms) :
    multi cls ky isConst rs regimes names cols est =
      (fill (cls.kr cols.length ky (kept isConst rs regimes cols).length) (cls.kb cols.length ky (kept isConst rs regimes cols).length) 0 ms
        (fun _ => 0, fun _ _ => 0)).map fun a =>
        ("CONSTANT" :: (checkConstRegi isConst (rs.map (regiIds regimes)) names cols).1,
          { betas := a.1, vm := a.2,
            u := scatter regimes (rs.zip (ms.map (·.u))) (List.replicate regimes.length 0),
            predy := scatter regimes (rs.zip (ms.map (·.predy))) (List.replicate regimes.length 0) }) := by
  simp only [multi, kept_eq, hms]
  show (fill _ _ _ _ _).bind _ = _
  rcases fill _ _ _ _ _ with e | a <;> rfl

/-- C135: the object assembled from one model per regime. Coefficients and variances of the `c`-th regime are those of that regime's
own model, at the positions of block `c`; coefficients of different regimes have covariance zero; the residual and the fitted value
of an observation are those of the model of its regime. -/
theorem C135_assembly (cls : Cls) (ky : ℕ) (isConst : List ℕ → C → Bool) (rs regimes : List L) (hrs : rs.Nodup) (names : List String)
    (cols : List C) (est : L → List C → Py (RegRes V)) (nm : List String) (a : Asm V)
    (hsz : ∀ r ∈ rs, ∀ m, est r (kept isConst rs regimes cols) = .ok m → Sized cls ky (kept isConst rs regimes cols).length m ∧
      m.u.length = (regiIds regimes r).length ∧ m.predy.length = (regiIds regimes r).length)
    (hok : multi cls ky isConst rs regimes names cols est = .ok (nm, a))
    (hfit : cls = .ols ∨ cls = .tsls ∨ ∀ c ∈ cols, ∀ r ∈ rs, isConst (regiIds regimes r) c = false) :
    ∃ ms : List (RegRes V), ms.length = rs.length ∧ ∀ c (hc : c < rs.length) (hm : c < ms.length),
      est rs[c] (kept isConst rs regimes cols) = .ok ms[c] ∧
      (∀ j < ms[c].kb, a.betas (c * ms[c].kb + j) = ms[c].betas j) ∧
      (∀ i < ms[c].kv, ∀ j < ms[c].kv, a.vm (c * ms[c].kv + i) (c * ms[c].kv + j) = ms[c].vm i j) ∧
      (∀ c' ≠ c, ∀ i < ms[c].kv, ∀ j < ms[c].kv, a.vm (c * ms[c].kv + i) (c' * ms[c].kv + j) = 0) ∧
      (regiIds regimes rs[c]).map (fun i => a.u[i]?) = ms[c].u.map some ∧
      (regiIds regimes rs[c]).map (fun i => a.predy[i]?) = ms[c].predy.map some := by
  obtain ⟨ms, hms⟩ : ∃ ms, rs.mapM (fun r => est r (kept isConst rs regimes cols)) = .ok ms := by
    rcases h : rs.mapM (fun r => est r (kept isConst rs regimes cols)) with e | ms
    · simp only [multi, kept_eq, h] at hok; cases hok
    · exact ⟨ms, rfl⟩
  rw [multi_eq hms] at hok
  have hf := (mapM_ok_iff _ _ _).1 hms
  have hlen := hf.length_eq
  have hget := (List.forall₂_iff_get.1 hf).2
  set k := (kept isConst rs regimes cols).length with hkd
  have hfit' : cls = .ols ∨ cls = .tsls ∨ k = cols.length := by
    rwa [hkd, kept_length_iff]
  have hs := sizes cls cols.length ky k
  have hmem : ∀ m ∈ ms, m.kb = cls.kb cols.length ky k ∧ m.kv = cls.kr cols.length ky k := by
    intro m hm
    obtain ⟨c, hc, rfl⟩ := List.getElem_of_mem hm
    have := (hsz rs[c] (List.getElem_mem _) ms[c] (hget c (by omega) hc)).1
    exact ⟨this.1.trans (hs.2.2 hfit').symm, this.2.trans (hs.1.2 hfit').symm⟩
  obtain ⟨a', e, p1, -, p3, p4⟩ := fill_ok (cls.kr cols.length ky k) (cls.kb cols.length ky k) 0 ms (fun _ => (0 : V), fun _ _ => 0) hmem
  rw [e] at hok
  obtain ⟨rfl, rfl⟩ := Prod.mk.inj (Except.ok.inj hok)
  refine ⟨ms, hlen.symm, fun c hc hm => ?_⟩
  obtain ⟨q1, q2⟩ := hmem ms[c] (List.getElem_mem _)
  have hz : ∀ (f : RegRes V → List V), (∀ r ∈ rs, ∀ m, est r (kept isConst rs regimes cols) = .ok m →
        (f m).length = (regiIds regimes r).length) →
      (regiIds regimes rs[c]).map (fun i => (scatter regimes (rs.zip (ms.map f)) (List.replicate regimes.length 0))[i]?) =
        (f ms[c]).map some := by
    intro f hfl
    have := (C29_scatter regimes (rs.zip (ms.map f)) (List.replicate regimes.length 0)
      (by rw [List.map_fst_zip (by simp [hlen])]; exact hrs) (by simp) ?_).2.1 (rs[c], f ms[c]) ?_
    · exact this
    · intro p hp
      obtain ⟨i, hi, rfl⟩ := List.getElem_of_mem hp
      have hi' : i < rs.length ∧ i < ms.length := by simpa using hi
      simp only [List.getElem_zip, List.getElem_map]
      exact hfl _ (List.getElem_mem _) _ (hget i hi'.1 hi'.2)
    · refine List.mem_iff_getElem.2 ⟨c, by simp; omega, ?_⟩
      simp
  refine ⟨hget c hc hm, fun j hj => ?_, fun i hi j hj => ?_, fun c' hc' i hi j hj => ?_,
    hz (·.u) fun r hr m h => (hsz r hr m h).2.1, hz (·.predy) fun r hr m h => (hsz r hr m h).2.2⟩
  · rw [q1] at hj ⊢
    simpa using p1 c hm j hj
  · rw [q2] at hi hj ⊢
    simpa using p3 c hm i hi j hj
  · rw [q2] at hi hj ⊢
    simpa using p4 c c' i j hi hj (Or.inl (Ne.symm hc'))

/-- C136: `OLS_Regimes` and `TSLS_Regimes` estimated by regime always assemble the regimes' models, on the variables that vary in
every regime, whose names (after the constant) are the names of those variables. -/
theorem C136_ols_tsls (cls : Cls) (hcls : cls = .ols ∨ cls = .tsls) (ky : ℕ) (isConst : List ℕ → C → Bool) (rs regimes : List L)
    (names : List String) (cols : List C) (hnd : names.Nodup) (hnl : names.length = cols.length) (est : L → List C → Py (RegRes V))
    (hest : ∀ r ∈ rs, ∃ m, est r (kept isConst rs regimes cols) = .ok m ∧ Sized cls ky (kept isConst rs regimes cols).length m) :
    ∃ nm a, multi cls ky isConst rs regimes names cols est = .ok ("CONSTANT" :: nm, a) ∧
      nm.zip (kept isConst rs regimes cols) = (names.zip cols).filter fun q => rs.all fun r => !isConst (regiIds regimes r) q.2 := by
  obtain ⟨ms, hms, hl, hval⟩ : ∃ ms, rs.mapM (fun r => est r (kept isConst rs regimes cols)) = .ok ms ∧ ms.length = rs.length ∧
      ∀ m ∈ ms, Sized cls ky (kept isConst rs regimes cols).length m := by
    exact mapM_sized hest
  have hs := sizes cls cols.length ky (kept isConst rs regimes cols).length
  have hc : cls = .ols ∨ cls = .tsls ∨ (kept isConst rs regimes cols).length = cols.length := by tauto
  obtain ⟨a', e, -⟩ := fill_ok (cls.kr cols.length ky (kept isConst rs regimes cols).length)
    (cls.kb cols.length ky (kept isConst rs regimes cols).length) 0 ms (fun _ => (0 : V), fun _ _ => 0)
    fun m hm => ⟨(hval m hm).1.trans (hs.2.2 hc).symm, (hval m hm).2.trans (hs.1.2 hc).symm⟩
  rw [multi_eq hms, e]
  refine ⟨_, _, rfl, ?_⟩
  have := (C63_names isConst (rs.map (regiIds regimes)) names cols hnd hnl).1
  rw [kept_eq] at this
  rw [this]
  congr 1
  funext q
  rw [List.all_map]
  rfl

/-- C136 fails for the other classes (full claim: a variable that is constant in a regime is dropped, with a warning, and the
model is estimated on the others). When every regime's own model can be estimated on the variables kept, the assembled model exists
exactly when no variable was dropped; otherwise `ValueError` is raised, because the blocks are sized by `len(cols2regi)`. -/
theorem C136_violated (cls : Cls) (h1 : cls ≠ .ols) (h2 : cls ≠ .tsls) (ky : ℕ) (isConst : List ℕ → C → Bool) (rs regimes : List L)
    (hne : rs ≠ []) (names : List String) (cols : List C) (est : L → List C → Py (RegRes V))
    (hest : ∀ r ∈ rs, ∃ m, est r (kept isConst rs regimes cols) = .ok m ∧ Sized cls ky (kept isConst rs regimes cols).length m) :
    ((∀ c ∈ cols, ∀ r ∈ rs, isConst (regiIds regimes r) c = false) → ∃ q, multi cls ky isConst rs regimes names cols est = .ok q) ∧
    ((∃ c ∈ cols, ∃ r ∈ rs, isConst (regiIds regimes r) c = true) →
      multi cls ky isConst rs regimes names cols est = .error .valueError) := by
  obtain ⟨ms, hms, hl, hval⟩ : ∃ ms, rs.mapM (fun r => est r (kept isConst rs regimes cols)) = .ok ms ∧ ms.length = rs.length ∧
      ∀ m ∈ ms, Sized cls ky (kept isConst rs regimes cols).length m := by
    exact mapM_sized hest
  have hs := sizes cls cols.length ky (kept isConst rs regimes cols).length
  constructor
  · intro h
    have hc : cls = .ols ∨ cls = .tsls ∨ (kept isConst rs regimes cols).length = cols.length := Or.inr (Or.inr ((kept_length_iff ..).2 h))
    obtain ⟨a', e, -⟩ := fill_ok (cls.kr cols.length ky (kept isConst rs regimes cols).length)
      (cls.kb cols.length ky (kept isConst rs regimes cols).length) 0 ms (fun _ => (0 : V), fun _ _ => 0)
      fun m hm => ⟨(hval m hm).1.trans (hs.2.2 hc).symm, (hval m hm).2.trans (hs.1.2 hc).symm⟩
    rw [multi_eq hms, e]
    exact ⟨_, rfl⟩
  · rintro ⟨c, hc, r, hr, hb⟩
    have hlt : (kept isConst rs regimes cols).length ≠ cols.length := by
      intro e
      rw [(kept_length_iff ..).1 e c hc r hr] at hb
      cases hb
    rw [multi_eq hms, fill_err]
    · rfl
    · intro e; subst e; exact hne (List.length_eq_zero_iff.1 (by simpa using hl.symm))
    · intro m hm
      rw [(hval m hm).1]
      constructor
      · intro e
        rcases hs.2.1 e.symm with e | e | e
        · exact h1 e
        · exact h2 e
        · exact hlt e
      · cases cls <;> simp_all [Cls.ownB, Cls.ownV]

end main

/-! ### Chow tests of the assembled model -/

/-- A block-diagonal matrix of variance matrices is one. -/
theorem blockDiag_psd {kr nr : ℕ} (vm : ℕ → ℕ → ℝ) (f : ℕ → ℕ → ℕ → ℝ) (h0 : ∀ c < nr, ∀ i < kr, ∀ j < kr, vm (c * kr + i) (c * kr + j) = f c i j)
    (h1 : ∀ c < nr, ∀ c' < nr, c ≠ c' → ∀ i < kr, ∀ j < kr, vm (c * kr + i) (c' * kr + j) = 0)
    (hp : ∀ c < nr, SymPSD (Matrix.of fun i j : Fin kr => f c i j)) :
    SymPSD (Matrix.of fun i j : Fin (nr * kr) => vm i j) := by
  have key : ∀ p q : Fin nr × Fin kr, vm (finProdFinEquiv p) (finProdFinEquiv q) = if p.1 = q.1 then f p.1 p.2 q.2 else 0 := by
    intro p q
    have e : ∀ p : Fin nr × Fin kr, (finProdFinEquiv p).1 = p.1.1 * kr + p.2.1 := fun p => by
      simp [finProdFinEquiv]; ring
    rw [e, e]
    split_ifs with h
    · rw [← h]; exact h0 _ p.1.2 _ p.2.2 _ q.2.2
    · exact h1 _ p.1.2 _ q.1.2 (fun e => h (Fin.ext e)) _ p.2.2 _ q.2.2
  constructor
  · ext i j
    obtain ⟨p, rfl⟩ := finProdFinEquiv.surjective i
    obtain ⟨q, rfl⟩ := finProdFinEquiv.surjective j
    simp only [transpose_apply, of_apply, key]
    by_cases h : p.1 = q.1
    · rw [if_pos h, if_pos h.symm, ← h]
      exact congrFun (congrFun (hp p.1 p.1.2).1 p.2) q.2
    · rw [if_neg h, if_neg (Ne.symm h)]
  · intro v
    rw [← finProdFinEquiv.sum_comp]
    simp_rw [← finProdFinEquiv.sum_comp (fun j => v _ * (Matrix.of fun i j : Fin (nr * kr) => vm i j) _ j * v j)]
    simp only [of_apply, key, Fintype.sum_prod_type, mul_ite, mul_zero, ite_mul, zero_mul]
    refine Finset.sum_nonneg fun c _ => ?_
    refine ((hp c c.2).2 fun i => v (finProdFinEquiv (c, i))).trans (le_of_eq ?_)
    refine Finset.sum_congr rfl fun i _ => ?_
    rw [Finset.sum_comm]
    refine Finset.sum_congr rfl fun j _ => ?_
    simp

theorem flatten_blocks {V : Type} (k : ℕ) (g : ℕ → ℕ → V) : ∀ n, ((List.range n).map fun c => (List.range k).map (g c)).flatten =
    (List.range (n * k)).map fun p => g (p / k) (p % k)
  | 0 => by simp
  | n + 1 => by
    rw [List.range_succ, List.map_append, List.flatten_append, flatten_blocks k g n, Nat.add_mul, Nat.one_mul, List.range_add, List.map_append]
    congr 1
    simp only [List.map_cons, List.map_nil, List.flatten_cons, List.flatten_nil, List.append_nil, List.map_map]
    refine List.map_congr_left fun j hj => ?_
    have hj := List.mem_range.1 hj
    have hk : 0 < k := by omega
    simp only [Function.comp]
    rw [Nat.mul_comm n k, Nat.mul_add_div hk, Nat.div_eq_of_lt hj, Nat.mul_add_mod, Nat.mod_eq_of_lt hj, Nat.add_zero]

/-- The coefficients that Chow's test sees. -/
theorem multiChow_eq (cls : Cls) (kx ky kp nr : ℕ) (hr : 0 < nr) (a : Asm ℝ) :
    multiChow cls kx ky kp nr a = chowRun (cls.kr kx ky kp) 0 0 nr
      ((List.range (nr * cls.kr kx ky kp)).map fun p => a.betas (p / cls.kr kx ky kp * cls.kb kx ky kp + p % cls.kr kx ky kp))
      (Matrix.of fun (i j : Fin (nr * cls.kr kx ky kp)) => a.vm i j) := by
  have hkb : cls.kb kx ky kp = cls.kr kx ky kp ∨ cls.kb kx ky kp = cls.kr kx ky kp + 1 := by
    cases cls <;> simp [Cls.kb]
  unfold multiChow
  generalize cls.kb kx ky kp = kb at *
  generalize cls.kr kx ky kp = kr at *
  have hall : (List.range (nr * kb)).map a.betas = ((List.range nr).map fun c => (List.range kb).map fun j => a.betas (c * kb + j)).flatten := by
    rw [flatten_blocks kb (fun c j => a.betas (c * kb + j))]
    refine List.map_congr_left fun p _ => ?_
    rw [Nat.mul_comm, Nat.div_add_mod]
  rcases hkb with rfl | rfl
  · congr 1
    refine List.map_congr_left fun p _ => ?_
    rw [Nat.mul_comm, Nat.div_add_mod]
  · rw [hall, C124_blocks kr 0 nr _ (by simp) hr (by simp) rfl, List.map_map]
    congr 1
    rw [← flatten_blocks kr (fun c j => a.betas (c * (kr + 1) + j))]
    congr 1
    refine List.map_congr_left fun c _ => ?_
    simp only [Function.comp]
    rw [← List.map_take, List.take_range, Nat.min_eq_left (by omega)]

/-- C135: the Chow statistics of the assembled model. There is one for each coefficient that has a variance (lambda included in the
heteroskedastic, homoskedastic and maximum likelihood classes); it is zero exactly when the regimes' own models have the same value
for that coefficient, and the joint statistic is zero exactly when they agree on all of them. -/
theorem C135_chow {L C : Type} [DecidableEq L] (cls : Cls) (ky : ℕ) (isConst : List ℕ → C → Bool) (rs regimes : List L) (hrs : rs.Nodup)
    (hne : rs ≠ []) (names : List String)
    (cols : List C) (est : L → List C → Py (RegRes ℝ)) (nm : List String) (a : Asm ℝ)
    (hsz : ∀ r ∈ rs, ∀ m, est r (kept isConst rs regimes cols) = .ok m → Sized cls ky (kept isConst rs regimes cols).length m ∧
      m.u.length = (regiIds regimes r).length ∧ m.predy.length = (regiIds regimes r).length)
    (hpsd : ∀ r ∈ rs, ∀ m, est r (kept isConst rs regimes cols) = .ok m → SymPSD (Matrix.of fun i j : Fin m.kv => m.vm i j))
    (hok : multi cls ky isConst rs regimes names cols est = .ok (nm, a))
    (hfit : cls = .ols ∨ cls = .tsls ∨ ∀ c ∈ cols, ∀ r ∈ rs, isConst (regiIds regimes r) c = false)
    (res : ChowRes) (hres : multiChow cls cols.length ky (kept isConst rs regimes cols).length rs.length a = .ok res) :
    res.regi.length = cls.ownV ky (kept isConst rs regimes cols).length ∧
    (∀ v (hv : v < res.regi.length), 0 ≤ res.regi[v] ∧
      (res.regi[v] = 0 ↔ ∀ r ∈ rs, ∀ r' ∈ rs, ∀ m m', est r (kept isConst rs regimes cols) = .ok m →
        est r' (kept isConst rs regimes cols) = .ok m' → m.betas v = m'.betas v)) ∧
    0 ≤ res.joint ∧
    (res.joint = 0 ↔ ∀ v < res.regi.length, ∀ r ∈ rs, ∀ r' ∈ rs, ∀ m m', est r (kept isConst rs regimes cols) = .ok m →
        est r' (kept isConst rs regimes cols) = .ok m' → m.betas v = m'.betas v) := by
  obtain ⟨ms, hl, H⟩ := C135_assembly cls ky isConst rs regimes hrs names cols est nm a hsz hok hfit
  have hs := sizes cls cols.length ky (kept isConst rs regimes cols).length
  have hfit' : cls = .ols ∨ cls = .tsls ∨ (kept isConst rs regimes cols).length = cols.length := by
    rwa [kept_length_iff]
  rw [multiChow_eq _ _ _ _ _ (List.length_pos_iff.2 hne), hs.1.2 hfit', hs.2.2 hfit'] at hres
  generalize hkr : cls.ownV ky (kept isConst rs regimes cols).length = kr at *
  have hkb : kr ≤ cls.ownB ky (kept isConst rs regimes cols).length := by
    rw [← hkr]; cases cls <;> simp [Cls.ownB]
  generalize hkbd : cls.ownB ky (kept isConst rs regimes cols).length = kb at *
  have hsize : ∀ c (hc : c < rs.length) (hm : c < ms.length), ms[c].kb = kb ∧ ms[c].kv = kr := by
    intro c hc hm
    have := (hsz rs[c] (List.getElem_mem _) ms[c] (H c hc hm).1).1
    exact ⟨this.1.trans hkbd, this.2.trans hkr⟩
  have hv0 : SymPSD (Matrix.of fun i j : Fin (rs.length * kr) => a.vm i j) := by
    refine blockDiag_psd a.vm (fun c => if h : c < ms.length then ms[c].vm else fun _ _ => 0) ?_ ?_ ?_
    · intro c hc i hi j hj
      have hm : c < ms.length := by omega
      have := (H c hc hm).2.2.1
      rw [(hsize c hc hm).2] at this
      rw [this i hi j hj, dif_pos hm]
    · intro c hc c' hc' hcc i hi j hj
      have hm : c < ms.length := by omega
      have := (H c hc hm).2.2.2.1 c' (Ne.symm hcc)
      rw [(hsize c hc hm).2] at this
      exact this i hi j hj
    · intro c hc
      have hm : c < ms.length := by omega
      have := hpsd rs[c] (List.getElem_mem _) ms[c] (H c hc hm).1
      rw [dif_pos hm]
      obtain ⟨-, e⟩ := hsize c hc hm
      generalize ms[c] = M at *
      subst e
      exact this
  obtain ⟨c1, c2, c3, c4⟩ := C124_chow kr 0 0 rs.length (Nat.zero_le _) _ _ hv0 (by simp) res hres
  have hAll : ∀ v < kr, (AllEq (fun p => ((List.range (rs.length * kr)).map fun p => a.betas (p / kr * kb + p % kr)).getD p 0) rs.length
        (coefPos kr 0 rs.length v) ↔ ∀ r ∈ rs, ∀ r' ∈ rs, ∀ m m', est r (kept isConst rs regimes cols) = .ok m →
        est r' (kept isConst rs regimes cols) = .ok m' → m.betas v = m'.betas v) := by
    intro v hv
    have hb : ∀ g (hg : g < rs.length) (hm : g < ms.length),
        ((List.range (rs.length * kr)).map fun p => a.betas (p / kr * kb + p % kr)).getD (coefPos kr 0 rs.length v g) 0 = ms[g].betas v := by
      intro g hg hm
      have e1 : coefPos kr 0 rs.length v g = g * kr + v := by simp [coefPos, hv]
      have e2 : g * kr + v < rs.length * kr := by have := block_lt (j' := 0) hg hv; omega
      have hk : 0 < kr := by omega
      rw [e1, List.getD_eq_getElem?_getD, List.getElem?_map, List.getElem?_range e2]
      simp only [Option.map_some, Option.getD_some]
      rw [Nat.mul_comm g kr, Nat.mul_add_div hk, Nat.div_eq_of_lt hv, Nat.mul_add_mod, Nat.mod_eq_of_lt hv, Nat.add_zero]
      have := (H g hg hm).2.1
      rw [(hsize g hg hm).1] at this
      exact this v (by omega)
    constructor
    · intro h r hr r' hr' m m' hm hm'
      obtain ⟨g, hg, rfl⟩ := List.getElem_of_mem hr
      obtain ⟨g', hg', rfl⟩ := List.getElem_of_mem hr'
      have := h g hg g' hg'
      simp only at this
      rw [hb g hg (by omega), hb g' hg' (by omega)] at this
      rw [(H g hg (by omega)).1] at hm
      rw [(H g' hg' (by omega)).1] at hm'
      rw [← Except.ok.inj hm, ← Except.ok.inj hm']
      exact this
    · intro h g hg g' hg'
      simp only
      rw [hb g hg (by omega), hb g' hg' (by omega)]
      exact h _ (List.getElem_mem hg) _ (List.getElem_mem hg') _ _ (H g hg (by omega)).1 (H g' hg' (by omega)).1
  refine ⟨c1, fun v hv => ⟨(c2 v hv).1, (c2 v hv).2.trans (hAll v (by omega))⟩, c3, c4.trans ?_⟩
  rw [c1]
  exact forall₂_congr fun v hv => hAll v hv

/-! ### Examples -/

/-- Estimates of a made-up regime model: coefficients `r, r + 1, ..`, variance the identity, residuals `r`. -/
def exEst (cls : Cls) (ky : ℕ) (n : ℕ) (r : ℕ) (cols : List (List ℤ)) : Py (RegRes ℤ) :=
  .ok { kb := cls.ownB ky cols.length, kv := cls.ownV ky cols.length, betas := fun j => r + j,
        vm := fun i j => if i = j then 1 else 0, u := List.replicate n r, predy := List.replicate n (-r) }

/-- `np.ptp == 0` on the rows of a regime. -/
def exConst (ids : List ℕ) (c : List ℤ) : Bool := (ids.map fun i => c.getD i 0).dedup.length ≤ 1

/-- Two variables, the second constant in regime 20: `OLS_Regimes` drops it and assembles the rest. -/
example : ∃ a, multi .ols 0 exConst [10, 20] [20, 10, 10, 20] ["x", "z"] [[1, 2, 3, 4], [5, 6, 7, 5]] (exEst .ols 0 2) =
      .ok (["CONSTANT", "x"], a) ∧ (List.range 4).map a.betas = [10, 11, 20, 21] ∧ a.u = [20, 10, 10, 20] ∧ a.vm 1 1 = 1 ∧ a.vm 1 2 = 0 :=
  ⟨_, rfl, by decide⟩

/-- The hypotheses of `C135_assembly` for the same data. -/
example : ∀ r ∈ [10, 20], ∀ m, exEst .ols 0 2 r (kept exConst [10, 20] [20, 10, 10, 20] [[1, 2, 3, 4], [5, 6, 7, 5]]) = .ok m →
    Sized .ols 0 (kept exConst [10, 20] [20, 10, 10, 20] [[1, 2, 3, 4], [5, 6, 7, 5]]).length m ∧
      m.u.length = (regiIds [20, 10, 10, 20] r).length ∧ m.predy.length = (regiIds [20, 10, 10, 20] r).length := by
  intro r hr m h
  have hm := Except.ok.inj h
  rw [← hm]
  rcases List.mem_cons.1 hr with rfl | hr
  · exact ⟨⟨rfl, rfl⟩, by decide⟩
  · obtain rfl := List.mem_singleton.1 hr
    exact ⟨⟨rfl, rfl⟩, by decide⟩

/-- The same data with `GM_Error_Regimes`: ValueError. Without the second variable the model is assembled, with lambda in the
coefficients only. -/
example : multi .gmError 0 exConst [10, 20] [20, 10, 10, 20] ["x", "z"] [[1, 2, 3, 4], [5, 6, 7, 5]] (exEst .gmError 0 2) =
    .error .valueError := rfl

example : ∃ a, multi .gmError 0 exConst [10, 20] [20, 10, 10, 20] ["x"] [[1, 2, 3, 4]] (exEst .gmError 0 2) = .ok (["CONSTANT", "x"], a) ∧
      (List.range 6).map a.betas = [10, 11, 12, 20, 21, 22] ∧ (List.range 4).map (fun i => a.vm i i) = [1, 1, 1, 1] :=
  ⟨_, rfl, by decide⟩

/-- Estimates of a made-up regime model with a constant and a slope. -/
def exEst2 (r : ℕ) (_ : List (List ℤ)) : Py (RegRes ℝ) :=
  .ok { kb := 2, kv := 2, betas := fun j => if j = 0 then (r : ℝ) else 5,
        vm := fun i j => if i = j then 1 else 0, u := [0, 0], predy := [0, 0] }

/-- A case of `C135_chow`: two regimes with the same slope and different constants. -/
theorem C135_chow_example : ∃ (nm : List String) (a : Asm ℝ) (res : ChowRes),
    multi .ols 0 exConst [10, 20] [20, 10, 10, 20] ["x"] [[1, 2, 3, 4]] exEst2 = .ok (nm, a) ∧
    multiChow .ols 1 0 1 2 a = .ok res ∧ ∃ h : res.regi.length = 2, (0 : ℝ) < res.regi[0] ∧ res.regi[1] = (0 : ℝ) := by
  have hk : (kept exConst [10, 20] [20, 10, 10, 20] [[1, 2, 3, 4]]).length = 1 := by decide
  have hsz : ∀ r ∈ [10, 20], ∀ m, exEst2 r (kept exConst [10, 20] [20, 10, 10, 20] [[1, 2, 3, 4]]) = .ok m →
      Sized .ols 0 (kept exConst [10, 20] [20, 10, 10, 20] [[1, 2, 3, 4]]).length m ∧
      m.u.length = (regiIds [20, 10, 10, 20] r).length ∧ m.predy.length = (regiIds [20, 10, 10, 20] r).length := by
    intro r hr m h
    rw [← Except.ok.inj h, hk]
    rcases List.mem_cons.1 hr with rfl | hr
    · exact ⟨⟨rfl, rfl⟩, rfl, rfl⟩
    · obtain rfl := List.mem_singleton.1 hr
      exact ⟨⟨rfl, rfl⟩, rfl, rfl⟩
  obtain ⟨nm, a, hok, -⟩ := C136_ols_tsls .ols (Or.inl rfl) 0 exConst [10, 20] [20, 10, 10, 20] ["x"] [[1, 2, 3, 4]] (by simp) rfl exEst2
    fun r hr => ⟨_, rfl, (hsz r hr _ rfl).1⟩
  have hone : ∀ v : Fin 2 → ℝ, ∑ i, ∑ j, v i * (Matrix.of fun i j : Fin 2 => if (i : ℕ) = j then (1 : ℝ) else 0) i j * v j =
      v 0 * v 0 + v 1 * v 1 := by
    intro v; simp [Fin.sum_univ_two]
  have hpsd : ∀ r ∈ [10, 20], ∀ m, exEst2 r (kept exConst [10, 20] [20, 10, 10, 20] [[1, 2, 3, 4]]) = .ok m →
      SymPSD (Matrix.of fun i j : Fin m.kv => m.vm i j) := by
    intro r hr m h
    rw [← Except.ok.inj h]
    refine ⟨by ext i j; simp only [transpose_apply, of_apply, eq_comm], fun v => ?_⟩
    rw [hone]
    exact add_nonneg (mul_self_nonneg _) (mul_self_nonneg _)
  obtain ⟨ms, hl, H⟩ := C135_assembly .ols 0 exConst [10, 20] [20, 10, 10, 20] (by simp) ["x"] [[1, 2, 3, 4]] exEst2 _ a hsz hok (Or.inl rfl)
  have hvm : (Matrix.of fun i j : Fin (2 * Cls.kr .ols 1 0 1) => a.vm i j) = 1 := by
    have hm0 : 0 < ms.length := by rw [hl]; simp
    have hm1 : 1 < ms.length := by rw [hl]; simp
    obtain ⟨e0, -, A0, B0, -⟩ := H 0 (by simp) hm0
    obtain ⟨e1, -, A1, B1, -⟩ := H 1 (by simp) hm1
    rw [← Except.ok.inj e0] at A0 B0
    rw [← Except.ok.inj e1] at A1 B1
    simp only at A0 A1 B0 B1
    ext i j
    rw [of_apply, Matrix.one_apply]
    show a.vm i j = _
    have hi : (i : ℕ) < 4 := i.2
    have hj : (j : ℕ) < 4 := j.2
    have key : a.vm i j = if (i : ℕ) = j then 1 else 0 := by
      generalize (i : ℕ) = p at *
      generalize (j : ℕ) = q at *
      by_cases hp : p < 2 <;> by_cases hq : q < 2
      · have := A0 p hp q hq; simpa using this
      · have := B0 1 (by omega) p hp (q - 2) (by omega)
        rw [if_neg (by omega)]
        have e : 1 * 2 + (q - 2) = q := by omega
        simpa [e] using this
      · have := B1 0 (by omega) (p - 2) (by omega) q hq
        rw [if_neg (by omega)]
        have e : 1 * 2 + (p - 2) = p := by omega
        simpa [e] using this
      · have := A1 (p - 2) (by omega) (q - 2) (by omega)
        have e : 1 * 2 + (p - 2) = p := by omega
        have e' : 1 * 2 + (q - 2) = q := by omega
        rw [e, e'] at this
        rw [this]
        refine if_congr (by omega) rfl rfl
    rw [key]
    exact if_congr Fin.ext_iff.symm rfl rfl
  obtain ⟨res, hres⟩ : ∃ res, multiChow .ols 1 0 1 2 a = .ok res := by
    unfold multiChow
    rw [hvm]
    refine C124_exists _ 0 0 2 (Nat.zero_le _) (by decide) _ _ ?_ (by simp [Cls.kr, Cls.kb]) (by decide)
    intro v hv
    rw [one_mulVec]
    exact lt_of_le_of_ne (Finset.sum_nonneg fun i _ => mul_self_nonneg _) (Ne.symm (by rwa [ne_eq, dotProduct_self_eq_zero]))
  obtain ⟨c1, c2, -⟩ := C135_chow .ols 0 exConst [10, 20] [20, 10, 10, 20] (by simp) (by simp) ["x"] [[1, 2, 3, 4]] exEst2 _ a hsz hpsd hok
    (Or.inl rfl) res hres
  have c1 : res.regi.length = 2 := c1
  refine ⟨_, a, res, hok, hres, c1, ?_, ?_⟩
  · have := c2 0 (by omega)
    refine lt_of_le_of_ne this.1 (Ne.symm fun h => ?_)
    have := this.2.1 h 10 (by simp) 20 (by simp) _ _ rfl rfl
    norm_num at this
  · refine (c2 1 (by omega)).2.2 fun r _ r' _ m m' hm hm' => ?_
    rw [← Except.ok.inj hm, ← Except.ok.inj hm']
    rfl

end Spreg.Multi
