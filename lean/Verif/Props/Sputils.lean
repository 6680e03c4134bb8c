import Verif.Model.Sputils
import Verif.Props.ML
/-
C181: sparse and dense arrays give the same results.
-/
set_option linter.unusedSectionVars false
set_option linter.unusedSimpArgs false
namespace Spreg.Sputils
open Spreg Spreg.Lin Spreg.ML Matrix

variable {m n k l : Type} [Fintype m] [Fintype n] [Fintype k] [Fintype l]

/-- Two arrays with the same entries. -/
def Same (a b : Arr m n) : Prop := ∀ i j, a.val i j = b.val i j

theorem Same.val {a b : Arr m n} (h : Same a b) : a.val = b.val := by ext i j; exact h i j

theorem toArray_val (a : Arr m n) : (toArray a).val = a.val := by unfold toArray; split <;> rfl

theorem spdot_ok {a : Arr m n} {b : Arr n k} {o : Bool} {c : Arr m k} (h : spdot a b o = .ok c) : c.val = a.val * b.val := by
  unfold spdot at h
  split_ifs at h
  · rw [← Except.ok.inj h]
  · rw [← Except.ok.inj h, toArray_val]
  · rw [← Except.ok.inj h]

theorem spmultiply_ok {a b : Arr m n} {o : Bool} {c : Arr m n} (h : spmultiply a b o = .ok c) : ∀ i j, c.val i j = a.val i j * b.val i j := by
  unfold spmultiply at h
  split_ifs at h <;> rw [← Except.ok.inj h] <;> intro i j
  · rfl
  · rw [toArray_val]; rfl
  · rfl

theorem sphstack_ok {a : Arr m n} {b : Arr m k} {o : Bool} {c : Arr m (n ⊕ k)} (h : sphstack a b o = .ok c) : c.val = fromCols a.val b.val := by
  unfold sphstack at h
  split_ifs at h <;> rw [← Except.ok.inj h]
  rw [toArray_val]

theorem spbroadcast_ok [DecidableEq m] {a : Arr m n} {b : Arr m Unit} {o : Bool} {c : Arr m n} (h : spbroadcast a b o = .ok c) :
    ∀ i j, c.val i j = a.val i j * b.val i () := by
  unfold spbroadcast at h
  have hd : ∀ i j, (a.valᵀ * Matrix.diagonal fun i => b.val i ())ᵀ i j = a.val i j * b.val i () := by
    intro i j; rw [transpose_apply, mul_diagonal, transpose_apply]
  split_ifs at h <;> rw [← Except.ok.inj h] <;> intro i j
  · rfl
  · rw [toArray_val]; exact hd i j
  · exact hd i j

/-- C181, products: `spdot` gives the matrix product, whatever the storage; with `array_out=True` (the default) the result is a NumPy array. It raises
only if neither argument is CSR or CSC and one is not a NumPy array. -/
theorem C181_spdot (a : Arr m n) (b : Arr n k) (o : Bool) :
    (∀ c, spdot a b o = .ok c → (∀ i j, c.val i j = ∑ t, a.val i t * b.val t j) ∧ (o = true → c.fmt = .dense)) ∧
    ((∃ c, spdot a b o = .ok c) ↔ (a.fmt = .dense ∧ b.fmt = .dense) ∨ ∃ f, (f = a.fmt ∨ f = b.fmt) ∧ (f = .csr ∨ f = .csc)) := by
  refine ⟨fun c h => ⟨fun i j => by rw [spdot_ok h]; rfl, fun ho => ?_⟩, ?_⟩
  · subst ho
    unfold spdot at h
    rcases a with ⟨fa, va⟩; rcases b with ⟨fb, vb⟩
    cases fa <;> cases fb <;> simp [matFmt, toArray] at h <;> rw [← h]
  · unfold spdot
    rcases a with ⟨fa, va⟩; rcases b with ⟨fb, vb⟩
    cases fa <;> cases fb <;> simp

/-- C181, entrywise products. Mixed arguments raise. -/
theorem C181_spmultiply (a b : Arr m n) (o : Bool) :
    (∀ c, spmultiply a b o = .ok c → (∀ i j, c.val i j = a.val i j * b.val i j) ∧ (o = true → c.fmt = .dense)) ∧
    ((∃ c, spmultiply a b o = .ok c) ↔ (a.fmt = .dense ∧ b.fmt = .dense) ∨ ((a.fmt = .csr ∨ a.fmt = .csc) ∧ (b.fmt = .csr ∨ b.fmt = .csc))) := by
  refine ⟨fun c h => ⟨spmultiply_ok h, fun ho => ?_⟩, ?_⟩
  · subst ho
    unfold spmultiply at h
    rcases a with ⟨fa, va⟩; rcases b with ⟨fb, vb⟩
    cases fa <;> cases fb <;> simp [toArray] at h <;> rw [← h]
  · unfold spmultiply
    rcases a with ⟨fa, va⟩; rcases b with ⟨fb, vb⟩
    cases fa <;> cases fb <;> simp

/-- C181, columns side by side. -/
theorem C181_sphstack (a : Arr m n) (b : Arr m k) (o : Bool) :
    (∀ c, sphstack a b o = .ok c → (∀ i j, c.val i (.inl j) = a.val i j) ∧ (∀ i j, c.val i (.inr j) = b.val i j) ∧ (o = true → c.fmt = .dense)) ∧
    ((∃ c, sphstack a b o = .ok c) ↔ (a.fmt = .dense ∧ b.fmt = .dense) ∨ a.fmt = .csr ∨ b.fmt = .csr) := by
  refine ⟨fun c h => ⟨fun i j => by rw [sphstack_ok h]; rfl, fun i j => by rw [sphstack_ok h]; rfl, fun ho => ?_⟩, ?_⟩
  · subst ho
    unfold sphstack at h
    rcases a with ⟨fa, va⟩; rcases b with ⟨fb, vb⟩
    cases fa <;> cases fb <;> simp [toArray] at h <;> rw [← h]
  · unfold sphstack
    rcases a with ⟨fa, va⟩; rcases b with ⟨fb, vb⟩
    cases fa <;> cases fb <;> simp

/-- C181, rows multiplied by a column. -/
theorem C181_spbroadcast [DecidableEq m] (a : Arr m n) (b : Arr m Unit) (o : Bool) :
    (∀ c, spbroadcast a b o = .ok c → (∀ i j, c.val i j = a.val i j * b.val i ()) ∧ (o = true → c.fmt = .dense)) ∧
    ((∃ c, spbroadcast a b o = .ok c) ↔ (a.fmt = .dense ∨ a.fmt = .csr) ∧ b.fmt = .dense) := by
  refine ⟨fun c h => ⟨spbroadcast_ok h, fun ho => ?_⟩, ?_⟩
  · subst ho
    unfold spbroadcast at h
    rcases a with ⟨fa, va⟩; rcases b with ⟨fb, vb⟩
    cases fa <;> cases fb <;> simp [toArray] at h <;> rw [← h]
  · unfold spbroadcast
    rcases a with ⟨fa, va⟩; rcases b with ⟨fb, vb⟩
    cases fa <;> cases fb <;> simp

/-- C181, inverses and filled diagonals keep the storage and do not depend on it. `spfill_diagonal` changes its argument. -/
theorem C181_inv_fill [DecidableEq m] (a b : Arr m m) (h : Same a b) (v : ℝ) :
    (∀ c, spinv a = .ok c → a.val * c.val = 1 ∧ c.val * a.val = 1 ∧ ∃ d, spinv b = .ok d ∧ Same c d ∧ d.fmt = b.fmt) ∧
    ((∃ c, spinv a = .ok c) ↔ a.val.det ≠ 0) ∧
    Same (spfillDiagonal a v).1 (spfillDiagonal b v).1 ∧ (∀ i j, (spfillDiagonal a v).1.val i j = if i = j then v else a.val i j) ∧
    (spfillDiagonal a v).2 = (spfillDiagonal a v).1 := by
  refine ⟨fun c hc => ?_, ?_, fun i j => ?_, fun i j => rfl, rfl⟩
  · unfold spinv at hc ⊢
    cases e : inv? a.val with
    | none => rw [e] at hc; simp only at hc; split_ifs at hc
    | some z =>
      rw [e] at hc
      rw [← h.val, e]
      obtain ⟨hu, rfl, -⟩ := inv?_eq_some e
      rw [← Except.ok.inj hc]
      exact ⟨mul_nonsing_inv _ hu, nonsing_inv_mul _ hu, _, rfl, fun i j => rfl, rfl⟩
  · unfold spinv
    constructor
    · rintro ⟨c, hc⟩ h0
      cases e : inv? a.val with
      | none => rw [e] at hc; simp only at hc; split_ifs at hc
      | some z => exact (inv?_eq_some e).1.ne_zero h0
    · intro h0
      rw [inv?_of_isUnit (isUnit_iff_ne_zero.2 h0)]
      exact ⟨_, rfl⟩
  · show (if i = j then v else a.val i j) = if i = j then v else b.val i j
    rw [h i j]

/-- A result, or the exception raised instead. -/
def orRaise {α : Type} (e : PyErr) : Option α → Py α
  | some a => .ok a
  | none => .error e

/-- CSR, CSC or dense. -/
def Known (f : Fmt) : Prop := f = .dense ∨ f = .csr ∨ f = .csc

theorem spdot_true (a : Arr m n) (b : Arr n k) (h : (Known a.fmt ∧ Known b.fmt)) : spdot a b true = .ok { fmt := .dense, val := a.val * b.val } := by
  rcases a with ⟨fa, va⟩; rcases b with ⟨fb, vb⟩
  rcases h with ⟨h1, h2⟩
  simp only [Known] at h1 h2
  rcases h1 with rfl | rfl | rfl <;> rcases h2 with rfl | rfl | rfl <;> simp [spdot, matFmt, toArray]

theorem known_T (a : Arr m n) (h : Known a.fmt) : Known a.T.fmt := by
  rcases a with ⟨fa, va⟩
  simp only [Known] at h
  rcases h with rfl | rfl | rfl <;> simp [Known, Arr.T]

theorem laInv_eq [DecidableEq m] (a : Arr m m) (h : a.fmt = .dense) :
    laInv a = orRaise .linAlgError ((inv? a.val).map fun b => { a with val := b }) := by
  unfold laInv
  rw [if_pos h]
  cases inv? a.val <;> rfl

/-- C181 for OLS: the same estimates, or the same exception, for `x` stored as NumPy array, CSR or CSC matrix. Any other storage raises. -/
theorem C181_ols [DecidableEq k] (x : Arr n k) (y : n → ℝ) :
    (Known x.fmt → baseOLS x y = orRaise .linAlgError (ols x.val y)) ∧ (¬ Known x.fmt → baseOLS x y = .error .exception) := by
  constructor
  · intro hf
    have hT := known_T x hf
    unfold baseOLS
    rw [spdot_true _ _ ⟨hT, hf⟩, spdot_true _ _ ⟨hT, .inl rfl⟩]
    simp only [bind, Except.bind]
    rw [laInv_eq _ rfl]
    unfold ols
    show _ = orRaise _ ((inv? (x.valᵀ * x.val)).map _)
    have e : inv? (x.T.val * x.val) = inv? (x.valᵀ * x.val) := rfl
    rw [e]
    cases inv? (x.valᵀ * x.val) with
    | none => rfl
    | some z =>
      simp only [Option.map_some, orRaise, npDot, and_self, if_true]
      rw [spdot_true _ _ ⟨hf, .inl rfl⟩]
      rfl
  · intro hf
    rcases x with ⟨f, v⟩
    cases f <;> simp [Known] at hf
    simp [baseOLS, spdot, Arr.T, bind, Except.bind]

variable {kx ke kq : Type} [Fintype kx] [Fintype ke] [Fintype kq] [DecidableEq kx] [DecidableEq ke] [DecidableEq kq]

theorem sphstack_known (a : Arr m n) (b : Arr m k) (ha : a.fmt = .dense ∨ a.fmt = .csr) (hb : b.fmt = .dense ∨ b.fmt = .csr) :
    ∃ f, Known f ∧ sphstack a b false = .ok { fmt := f, val := fromCols a.val b.val } := by
  rcases a with ⟨fa, va⟩; rcases b with ⟨fb, vb⟩
  simp only at ha hb
  rcases ha with rfl | rfl <;> rcases hb with rfl | rfl
  · exact ⟨.dense, .inl rfl, by simp [sphstack]⟩
  all_goals exact ⟨.csr, .inr (.inl rfl), by simp [sphstack]⟩

/-- C181 for two-stage least squares: every mixture of NumPy arrays and CSR matrices (what the classes accept) gives the same estimates or the same
exception. -/
theorem C181_tsls (x : Arr n kx) (yend : Arr n ke) (q : Arr n kq) (y : n → ℝ) (hx : x.fmt = .dense ∨ x.fmt = .csr)
    (he : yend.fmt = .dense ∨ yend.fmt = .csr) (hq : q.fmt = .dense ∨ q.fmt = .csr) :
    baseTSLS x yend q y = orRaise .exception (tsls x.val yend.val q.val y) := by
  obtain ⟨fz, hz, ez⟩ := sphstack_known x yend hx he
  obtain ⟨fh, hh, eh⟩ := sphstack_known x q hx hq
  unfold baseTSLS
  rw [ez, eh]
  simp only [bind, Except.bind]
  have kz : Known ({ fmt := fz, val := fromCols x.val yend.val } : Arr n (kx ⊕ ke)).fmt := hz
  have kh : Known ({ fmt := fh, val := fromCols x.val q.val } : Arr n (kx ⊕ kq)).fmt := hh
  rw [spdot_true _ _ ⟨known_T _ kh, kh⟩, spdot_true _ _ ⟨known_T _ kz, kh⟩, spdot_true _ _ ⟨known_T _ kh, .inl rfl⟩]
  simp only
  rw [laInv_eq _ rfl]
  unfold tsls tslsZH
  have e : inv? (((⟨fh, fromCols x.val q.val⟩ : Arr n (kx ⊕ kq)).T).val * fromCols x.val q.val) = inv? ((fromCols x.val q.val)ᵀ * fromCols x.val q.val) := rfl
  simp only [e]
  cases inv? ((fromCols x.val q.val)ᵀ * fromCols x.val q.val) with
  | none => rfl
  | some hthi =>
    simp only [Option.map_some, orRaise, Option.bind_some, npDot, and_self, if_true, Arr.T]
    rw [laInv_eq _ rfl]
    simp only
    cases inv? ((fromCols x.val yend.val)ᵀ * fromCols x.val q.val * hthi * ((fromCols x.val yend.val)ᵀ * fromCols x.val q.val)ᵀ) with
    | none => rfl
    | some varb =>
      simp only [Option.map_some, orRaise, and_self, if_true]
      rw [spdot_true _ _ ⟨kz, .inl rfl⟩]
      rfl

theorem spbroadcast_known [DecidableEq n] (x : Arr n k) (u : n → ℝ) (hx : x.fmt = .dense ∨ x.fmt = .csr) :
    spbroadcast x (col u) false = .ok { x with val := broadcast x.val u } := by
  rcases x with ⟨f, v⟩
  simp only at hx
  rcases hx with rfl | rfl
  · simp [spbroadcast, col, broadcast]
  · simp only [spbroadcast, col, reduceCtorEq, false_and, if_false, if_true, Bool.false_eq_true]
    refine congrArg Except.ok (congrArg (Arr.mk _) ?_)
    ext i j
    rw [transpose_apply, mul_diagonal, transpose_apply]
    rfl

/-- C181 for the White and HAC variances of OLS, `x` a NumPy array or CSR matrix. -/
theorem C181_robust [DecidableEq n] [DecidableEq k] (x : Arr n k) (hx : x.fmt = .dense ∨ x.fmt = .csr) (f : OLSFit n k) (dof : Option ℕ) (gwk : Matrix n n ℝ) :
    robustOLS x f dof = .ok (sandwichOLS f.xtxi (psi0White x.val f.u dof)) ∧ hacOLS x f gwk = .ok (sandwichOLS f.xtxi (psi0HAC x.val f.u gwk)) := by
  have hk : Known ({ x with val := broadcast x.val f.u } : Arr n k).fmt := by
    rcases hx with h | h
    · exact .inl h
    · exact .inr (.inl h)
  constructor
  · unfold robustOLS
    rw [spbroadcast_known x f.u hx]
    simp only [bind, Except.bind]
    rw [spdot_true _ _ ⟨known_T _ hk, hk⟩]
    cases dof with
    | none =>
      simp only [npDot, and_self, if_true]
      rw [spdot_true _ _ ⟨.inl rfl, .inl rfl⟩]
      rfl
    | some kk =>
      simp only [npDot, and_self, if_true]
      rw [spdot_true _ _ ⟨.inl rfl, .inl rfl⟩]
      rfl
  · unfold hacOLS
    rw [spbroadcast_known x f.u hx]
    simp only [bind, Except.bind]
    have hg : Known ({ fmt := matFmt .csr x.fmt, val := gwk * broadcast x.val f.u } : Arr n k).fmt := by
      rcases hx with h | h <;> rw [h] <;> simp [Known, matFmt]
    rw [spdot_true _ _ ⟨known_T _ hk, hg⟩]
    simp only [npDot, and_self, if_true]
    rw [spdot_true _ _ ⟨.inl rfl, .inl rfl⟩]
    rfl

/-- C181 is violated by `splogdet`: for a regular matrix the sparse branch gives `log |det|`, the dense branch multiplies this by the sign of the
determinant. They agree only if the determinant is positive (or `-1`). -/
theorem C181_splogdet_violated {d : ℕ} (lu : Matrix (Fin d) (Fin d) ℝ → Matrix (Fin d) (Fin d) ℝ × Matrix (Fin d) (Fin d) ℝ)
    (a b : Arr (Fin d) (Fin d)) (hlu : IsLU b.val (lu b.val).1 (lu b.val).2) (h : Same a b) (ha : a.fmt = .dense)
    (hb : b.fmt ≠ .dense) (hd : a.val.det ≠ 0) :
    splogdet lu b = .ok (some (Real.log |a.val.det|)) ∧ (splogdet lu a = splogdet lu b ↔ 0 < a.val.det ∨ a.val.det = -1) := by
  have h2 : splogdet lu b = .ok (some (Real.log |a.val.det|)) := by
    unfold splogdet
    rw [if_neg hb, ← h.val, if_neg hd]
    have := C35_lu a.val _ _ (h.val ▸ hlu) hd
    unfold jacLU at this
    rw [this]
  refine ⟨h2, ?_⟩
  rw [h2]
  unfold splogdet
  rw [if_pos ha, if_neg hd]
  rw [Except.ok.injEq, Option.some.injEq]
  rcases lt_or_gt_of_ne hd with hn | hp
  · rw [sign_neg hn, SignType.coe_neg_one, abs_of_neg hn]
    constructor
    · intro e
      right
      have h0 : Real.log (-a.val.det) = 0 := by linarith
      rcases Real.log_eq_zero.1 h0 with e | e | e <;> linarith
    · rintro (e | e)
      · linarith
      · rw [e]; simp
  · rw [sign_pos hp]
    simp [hp]

/-- Two units that are each other's neighbours and `rho = 2`: `I - rho W` has determinant `-3`. -/
def exA (f : Fmt) : Arr (Fin 2) (Fin 2) := { fmt := f, val := !![1, -2; -2, 1] }

/-- An LU factorisation of that matrix. -/
theorem exLU : IsLU (exA .csc).val !![1, 0; -2, 1] !![1, -2; 0, -3] where
  perm := ⟨1, 1, by
    ext i j
    fin_cases i <;> fin_cases j <;> simp [exA, Matrix.mul_apply, Fin.sum_univ_two] <;> norm_num⟩
  lower := by intro i j hij; fin_cases i <;> fin_cases j <;> simp_all
  unit := by intro i; fin_cases i <;> rfl
  upper := by intro i j hij; fin_cases i <;> fin_cases j <;> simp_all

/-- A case of `C181_splogdet_violated`: `-log 3` against `log 3`. -/
theorem C181_splogdet_example : ∃ lu, splogdet lu (exA .csc) = .ok (some (Real.log 3)) ∧ splogdet lu (exA .dense) = .ok (some (-Real.log 3)) := by
  have hd : (exA .dense).val.det = -3 := by rw [exA, det_fin_two]; norm_num
  refine ⟨fun _ => (!![1, 0; -2, 1], !![1, -2; 0, -3]), ?_⟩
  obtain ⟨h1, -⟩ := C181_splogdet_violated (fun _ => (!![1, 0; -2, 1], !![1, -2; 0, -3])) (exA .dense) (exA .csc) exLU (fun _ _ => rfl) rfl
    (by decide) (by rw [hd]; norm_num)
  rw [hd] at h1
  refine ⟨by rw [h1]; norm_num, ?_⟩
  unfold splogdet
  rw [if_pos (by rfl), if_neg (by rw [hd]; norm_num), hd, sign_neg (by norm_num)]
  norm_num

/-- A regression with a CSR design. -/
example : baseOLS { fmt := .csr, val := !![1, 0; 1, 1; (1 : ℝ), 2] } ![1, 2, 4] ≠ .error .linAlgError := by
  rw [(C181_ols _ _).1 (.inr (.inl rfl)), ols_of_isUnit]
  · simp [orRaise]
  · rw [isUnit_iff_ne_zero, det_fin_two]
    simp [Matrix.mul_apply, Fin.sum_univ_succ]
    norm_num

end Spreg.Sputils
