import Verif.Model.Calls
import Mathlib.Logic.Basic
import Mathlib.Tactic.ByContra
import Mathlib.Tactic.SplitIfs
import Mathlib.Data.List.Basic
import Mathlib.Tactic.Common
/-
C137: the argument `regimes`; C138: unknown keyword arguments; C139: the model chosen by `GMM_Error`.
-/
namespace Spreg.Calls
open Spreg

variable {V : Type}

theorem bind_ok {s : Sig} {args : List (String × Val V)} {b : Bound V} (h : bind s args = .ok b) :
    (args.map (·.1)).Nodup ∧ (s.kwargs = true ∨ ∀ a ∈ args, a.1 ∈ s.names) ∧
    (∀ p ∈ s.params, p.2 = none → p.1 ∈ args.map (·.1)) ∧
    b = { val := fun p => if p ∈ s.names then (args.lookup p).or (s.dflt? p) else none
          extra := args.filter fun a => decide (a.1 ∉ s.names) } := by
  unfold bind at h
  split at h
  · cases h
  next h1 =>
    split at h
    · cases h
    next h2 =>
      split at h
      · cases h
      next h3 =>
        refine ⟨not_not.1 h1, ?_, ?_, (Except.ok.inj h).symm⟩
        · cases hk : s.kwargs
          · right
            intro a ha
            by_contra hc
            exact h2 ⟨hk, a, ha, hc⟩
          · exact Or.inl rfl
        · intro p hp hn
          by_contra hc
          exact h3 ⟨p, hp, hn, hc⟩

/-- The local variables after a successful call. -/
def bound (s : Sig) (args : List (String × Val V)) : Bound V where
  val := fun p => if p ∈ s.names then (args.lookup p).or (s.dflt? p) else none
  extra := args.filter fun a => decide (a.1 ∉ s.names)

theorem bind_intro {s : Sig} {args : List (String × Val V)} (h1 : (args.map (·.1)).Nodup)
    (h2 : s.kwargs = true ∨ ∀ a ∈ args, a.1 ∈ s.names) (h3 : ∀ p ∈ s.params, p.2 = none → p.1 ∈ args.map (·.1)) :
    bind s args = .ok (bound s args) := by
  unfold bind
  rw [if_neg (not_not.2 h1), if_neg, if_neg]
  · rfl
  · rintro ⟨q, hq, hn, hm⟩
    exact hm (h3 q hq hn)
  · rintro ⟨hk, a, ham, han⟩
    rcases h2 with h2 | h2
    · rw [h2] at hk; cases hk
    · exact han (h2 a ham)

theorem bind_err {s : Sig} {args : List (String × Val V)} {e : PyErr} (he : bind s args = .error e) : e = .typeError := by
  unfold bind at he
  split_ifs at he <;> exact (Except.error.inj he).symm

theorem lookup_none_iff (p : String) : ∀ (l : List (String × Val V)), l.lookup p = none ↔ p ∉ l.map (·.1)
  | [] => by simp
  | (a, v) :: t => by
    rw [List.lookup_cons]
    by_cases h : p = a
    · subst h; simp
    · have h' : (p == a) = false := beq_false_of_ne h
      simp only [h', List.map_cons, List.mem_cons, not_or]
      rw [lookup_none_iff p t]
      exact ⟨fun e => ⟨h, e⟩, fun e => e.2⟩

theorem lookup_fwd (g : String → Option (Val V)) (p : String) : ∀ (fwd : List String) (rest : List (String × Val V)),
    (∀ q ∈ fwd, (g q).isSome) →
    (fwd.filterMap (fun q => (g q).map fun v => (q, v)) ++ rest).lookup p = if p ∈ fwd then g p else rest.lookup p
  | [], rest, _ => by simp
  | q :: t, rest, h => by
    obtain ⟨v, hv⟩ := Option.isSome_iff_exists.1 (h q (by simp))
    rw [List.filterMap_cons, hv]
    simp only [Option.map_some, List.cons_append, List.lookup_cons]
    by_cases e : p = q
    · subst e; simp [hv]
    · have e' : (p == q) = false := beq_false_of_ne e
      rw [e', lookup_fwd g p t rest fun x hx => h x (by simp [hx])]
      simp [e]

theorem lookup_extra (s : Sig) (p : String) : ∀ (args : List (String × Val V)),
    (args.filter fun a => decide (a.1 ∉ s.names)).lookup p = if p ∈ s.names then none else args.lookup p
  | [] => by simp
  | (a, v) :: t => by
    rw [List.filter_cons, List.lookup_cons]
    by_cases h : a ∈ s.names
    · rw [if_neg (by simpa using h), lookup_extra s p t]
      by_cases e : p = a
      · subst e; simp [h]
      · have e' : (p == a) = false := beq_false_of_ne e
        rw [e']
    · rw [if_pos (by simpa using h), List.lookup_cons, lookup_extra s p t]
      by_cases e : p = a
      · subst e; simp [h]
      · have e' : (p == a) = false := beq_false_of_ne e
        rw [e']

theorem dflt_some {s : Sig} {p : String} (hp : p ∈ s.names) (hreq : ∀ q ∈ s.params, q.2 = none → p ≠ q.1) :
    ((s.dflt? p : Option (Val V))).isSome := by
  unfold Sig.dflt?
  obtain ⟨⟨a, o⟩, ha, rfl⟩ := List.mem_map.1 hp
  have hl : ∀ (l : List (String × Option String)), (a, o) ∈ l → ∃ o', l.lookup a = some o' ∧ (a, o') ∈ l := by
    intro l
    induction l with
    | nil => simp
    | cons x t ih =>
      intro hx
      rw [List.lookup_cons]
      by_cases e : a = x.1
      · rw [e]; exact ⟨x.2, by simp, by simp⟩
      · have e' : (a == x.1) = false := beq_false_of_ne e
        rw [e']
        rcases List.mem_cons.1 hx with hx | hx
        · exact absurd (by rw [← hx]) e
        · obtain ⟨o', h1, h2⟩ := ih hx
          exact ⟨o', h1, by simp [h2]⟩
  obtain ⟨o', h1, h2⟩ := hl s.params ha
  rw [h1]
  cases ho : o' with
  | none => rw [ho] at h2; exact absurd rfl (hreq (a, none) h2 rfl)
  | some c => rfl

/-- Every parameter of a called function has a value. -/
theorem val_some {s : Sig} {args : List (String × Val V)} {b : Bound V} (h : bind s args = .ok b) {p : String} (hp : p ∈ s.names) :
    (b.val p).isSome := by
  obtain ⟨-, -, h3, rfl⟩ := bind_ok h
  simp only [if_pos hp]
  cases hl : args.lookup p with
  | some v => rfl
  | none =>
    refine dflt_some hp fun q hq hn e => ?_
    exact (lookup_none_iff p args).1 hl (e ▸ h3 q hq hn)

/-- The value a parameter of the target gets in a call passed on. -/
theorem passOn_val {own target : Sig} {fwd : List String} {kw : Bool} {args : List (String × Val V)} {b c : Bound V}
    (hf : ∀ p ∈ fwd, p ∈ own.names) (hb : bind own args = .ok b) (h : passOn b fwd kw target = .ok c) (p : String) (hp : p ∈ target.names) :
    c.val p = if p ∈ fwd then (args.lookup p).or (own.dflt? p)
      else if kw = true ∧ p ∉ own.names then (args.lookup p).or (target.dflt? p) else target.dflt? p := by
  obtain ⟨-, -, -, e⟩ := bind_ok h
  have hs : ∀ q ∈ fwd, (b.val q).isSome := fun q hq => val_some hb (hf q hq)
  obtain ⟨-, -, -, hbe⟩ := bind_ok hb
  rw [e]
  simp only [if_pos hp]
  rw [lookup_fwd b.val p fwd _ hs]
  by_cases h1 : p ∈ fwd
  · rw [if_pos h1, if_pos h1, hbe]
    simp only [if_pos (hf p h1)]
    have : ((args.lookup p).or (own.dflt? p)).isSome := by
      have := hs p h1
      rw [hbe] at this
      simpa only [if_pos (hf p h1)] using this
    obtain ⟨v, hv⟩ := Option.isSome_iff_exists.1 this
    rw [hv]; rfl
  · rw [if_neg h1, if_neg h1]
    cases kw
    · simp
    · simp only [if_true, hbe, lookup_extra]
      by_cases h2 : p ∈ own.names
      · rw [if_pos h2, if_neg (by simp [h2])]; simp
      · rw [if_neg h2, if_pos (by simp [h2])]

theorem withRegimes_val {own target : Sig} {fwd : List String} {args : List (String × Val V)} {c : Bound V}
    (hf : ∀ p ∈ fwd, p ∈ own.names) (h : withRegimes own fwd target args = .ok c) (p : String) (hp : p ∈ target.names) :
    c.val p = if p ∈ fwd then (args.lookup p).or (own.dflt? p)
      else if p ∉ own.names then (args.lookup p).or (target.dflt? p) else target.dflt? p := by
  rcases hb : bind own args with e | b
  · simp only [withRegimes, hb] at h; cases h
  · simp only [withRegimes, hb] at h
    have := passOn_val hf hb (show passOn b fwd true target = .ok c from h) p hp
    simpa using this

/-- The six classes with an argument `regimes`: their parameters, what they pass on, and the class they become. -/
def regimesTable : List (String × Sig × List String × Sig) := [
  ("OLS", sigOLS, fwdOLS, sigOLSRegimes), ("TSLS", sigTSLS, fwdTSLS, sigTSLSRegimes), ("GM_Lag", sigGMLag, fwdGMLag, sigGMLagRegimes),
  ("ML_Lag", sigMLLag, fwdMLLag, sigMLLagRegimes), ("ML_Error", sigMLError, fwdMLError, sigMLErrorRegimes),
  ("GMM_Error", sigGMMError, fwdGMMError, sigGMMErrorRegimes)]

/-- C137 (the part that holds): in a call `C(..., regimes=r, ...)` every argument given by the caller, other than `slx_vars`, reaches
the parameter of that name of the class with regimes, if there is one. An argument that was not given has the default of `C` if `C`
has it, otherwise the default of the class with regimes. -/
theorem C137_regimes_partial : ∀ row ∈ regimesTable, ∀ (args : List (String × Val V)) (c : Bound V),
    withRegimes row.2.1 row.2.2.1 row.2.2.2 args = .ok c → ∀ p ∈ row.2.2.2.names, p ≠ "slx_vars" →
      c.val p = (args.lookup p).or (if p ∈ row.2.1.names then row.2.1.dflt? p else row.2.2.2.dflt? p) := by
  intro row hrow args c h p hp hne
  have hf : ∀ row ∈ regimesTable, (∀ q ∈ row.2.2.1, q ∈ row.2.1.names) ∧
      ∀ q ∈ row.2.2.2.names, q ≠ "slx_vars" → q ∈ row.2.1.names → q ∈ row.2.2.1 := by decide +kernel
  have h1 := withRegimes_val (hf row hrow).1 h p hp
  rw [h1]
  by_cases e : p ∈ row.2.2.1
  · rw [if_pos e, if_pos ((hf row hrow).1 p e)]
  · have e' : p ∉ row.2.1.names := fun hc => e ((hf row hrow).2 p hp hne hc)
    rw [if_neg e, if_pos e', if_neg e']

/-- C137 is false for `slx_vars`: whatever the caller gives, the class with regimes gets its own default, `'all'`; for `GMM_Error`
it gets nothing at all. -/
theorem C137_slx_vars_violated : ∀ row ∈ regimesTable, row.1 ≠ "GMM_Error" → ∀ (args : List (String × Val V)) (c : Bound V),
    withRegimes row.2.1 row.2.2.1 row.2.2.2 args = .ok c → c.val "slx_vars" = some (.dflt "'all'") := by
  intro row hrow hne args c h
  have hf : ∀ row ∈ regimesTable, row.1 ≠ "GMM_Error" → (∀ q ∈ row.2.2.1, q ∈ row.2.1.names) ∧ "slx_vars" ∈ row.2.2.2.names ∧
      "slx_vars" ∉ row.2.2.1 ∧ "slx_vars" ∈ row.2.1.names ∧ row.2.2.2.params.lookup "slx_vars" = some (some "'all'") := by decide +kernel
  obtain ⟨h1, h2, h3, h4, h5⟩ := hf row hrow hne
  rw [withRegimes_val h1 h _ h2, if_neg h3, if_neg (not_not.2 h4), Sig.dflt?, h5]
  rfl

/-- An argument that a class knows and does not pass on has no effect with regimes. -/
theorem dropped {own target : Sig} {fwd : List String} {p : String} (hp : p ∈ own.names) (hreq : own.params.lookup p ≠ some none)
    (hn : p ∉ fwd) (v : Val V) (args : List (String × Val V)) (ha : p ∉ args.map (·.1)) (hnd : own.names.Nodup) :
    withRegimes own fwd target ((p, v) :: args) = withRegimes own fwd target args := by
  have hb : ∀ b, bind own args = .ok b → ∃ b', bind own ((p, v) :: args) = .ok b' ∧ b'.extra = b.extra ∧ ∀ q ≠ p, b'.val q = b.val q := by
    intro b hb
    obtain ⟨h1, h2, h3, rfl⟩ := bind_ok hb
    refine ⟨_, bind_intro ?_ ?_ ?_, ?_, ?_⟩
    · simpa using ⟨by simpa using ha, h1⟩
    · refine h2.imp id fun h2 a ham => ?_
      rcases List.mem_cons.1 ham with rfl | ham
      · exact hp
      · exact h2 a ham
    · intro q hq hn
      simp only [List.map_cons, List.mem_cons]
      exact Or.inr (h3 q hq hn)
    · simp [bound, List.filter_cons, hp]
    · intro q hq
      have : (q == p) = false := beq_false_of_ne hq
      simp only [bound, List.lookup_cons, this]
  have hb' : ∀ b, bind own ((p, v) :: args) = .ok b → ∃ b', bind own args = .ok b' := by
    intro b hb
    obtain ⟨h1, h2, h3, -⟩ := bind_ok hb
    refine ⟨_, bind_intro ?_ ?_ ?_⟩
    · simp only [List.map_cons, List.nodup_cons] at h1; exact h1.2
    · exact h2.imp id fun h2 a ham => h2 a (by simp [ham])
    · intro q hq hqn
      have := h3 q hq hqn
      rw [List.map_cons, List.mem_cons] at this
      rcases this with e | e
      · exfalso
        apply hreq
        have hmem : (p, none) ∈ own.params := by
          have : q = (p, none) := Prod.ext e hqn
          exact this ▸ hq
        have key : ∀ l : List (String × Option String), (l.map (·.1)).Nodup → (p, none) ∈ l → l.lookup p = some none := by
          intro l
          induction l with
          | nil => simp
          | cons x t ih =>
            intro hnd hm
            rw [List.lookup_cons]
            rcases List.mem_cons.1 hm with rfl | hm
            · simp
            · have hx : p ≠ x.1 := by
                rintro rfl
                simp only [List.map_cons, List.nodup_cons] at hnd
                exact hnd.1 (List.mem_map.2 ⟨_, hm, rfl⟩)
              have : (p == x.1) = false := beq_false_of_ne hx
              rw [this]
              exact ih (by simp only [List.map_cons, List.nodup_cons] at hnd; exact hnd.2) hm
        exact key own.params hnd hmem
      · exact e
  unfold withRegimes
  rcases h : bind own args with e | b
  · rcases h' : bind own ((p, v) :: args) with e' | b'
    · rw [bind_err h, bind_err h']
    · obtain ⟨b'', hb''⟩ := hb' b' h'
      rw [h] at hb''; cases hb''
  · obtain ⟨b', h1, h2, h3⟩ := hb b h
    rw [h1]
    show passOn b' fwd true target = passOn b fwd true target
    unfold passOn
    rw [h2]
    congr 2
    refine List.filterMap_congr fun q hq => ?_
    rw [h3 q fun e => hn (e ▸ hq)]

/-- C137 is false for `vif` of `OLS`, `nonspat_diag` of `TSLS`, and `slx_vars`, `hard_bound` and `spat_diag` of `GMM_Error`: with
regimes they are accepted and have no effect. -/
theorem C137_ignored_violated : ∀ r ∈ [("OLS", "slx_vars"), ("OLS", "vif"), ("TSLS", "slx_vars"), ("TSLS", "nonspat_diag"),
      ("GM_Lag", "slx_vars"), ("ML_Lag", "slx_vars"), ("ML_Error", "slx_vars"),
      ("GMM_Error", "slx_vars"), ("GMM_Error", "hard_bound"), ("GMM_Error", "spat_diag")],
    ∀ row ∈ regimesTable, row.1 = r.1 → ∀ (args : List (String × Val V)) (v : Val V), r.2 ∉ args.map (·.1) →
      withRegimes row.2.1 row.2.2.1 row.2.2.2 ((r.2, v) :: args) = withRegimes row.2.1 row.2.2.1 row.2.2.2 args := by
  intro r hr row hrow he args v ha
  have hf : ∀ r ∈ [("OLS", "slx_vars"), ("OLS", "vif"), ("TSLS", "slx_vars"), ("TSLS", "nonspat_diag"),
      ("GM_Lag", "slx_vars"), ("ML_Lag", "slx_vars"), ("ML_Error", "slx_vars"),
      ("GMM_Error", "slx_vars"), ("GMM_Error", "hard_bound"), ("GMM_Error", "spat_diag")],
      ∀ row ∈ regimesTable, row.1 = r.1 → r.2 ∈ row.2.1.names ∧ row.2.1.params.lookup r.2 ≠ some none ∧ r.2 ∉ row.2.2.1 ∧
        row.2.1.names.Nodup := by decide +kernel
  obtain ⟨h1, h2, h3, h4⟩ := hf r hr row hrow he
  exact dropped h1 h2 h3 v args ha h4

/-- C137: where the two classes have the same default: `C(args, regimes=r)` and `C_Regimes(args, regimes=r)` give the class with
regimes the same values, except for `slx_vars`, for `sig2n_k` of `TSLS` and for `robust` of `GM_Lag`. -/
theorem C137_same_partial : ∀ row ∈ regimesTable, ∀ (args : List (String × Val V)) (c d : Bound V),
    withRegimes row.2.1 row.2.2.1 row.2.2.2 args = .ok c → bind row.2.2.2 args = .ok d → ∀ p ∈ row.2.2.2.names, p ≠ "slx_vars" →
      (row.1, p) ≠ ("TSLS", "sig2n_k") → (row.1, p) ≠ ("GM_Lag", "robust") → c.val p = d.val p := by
  intro row hrow args c d hc hd p hp h1 h2 h3
  rw [C137_regimes_partial row hrow args c hc p hp h1]
  have hf : ∀ row ∈ regimesTable, ∀ p ∈ row.2.2.2.names, p ≠ "slx_vars" → (row.1, p) ≠ ("TSLS", "sig2n_k") →
      (row.1, p) ≠ ("GM_Lag", "robust") → p ∈ row.2.1.names → row.2.1.params.lookup p = row.2.2.2.params.lookup p ∨
        (p, none) ∈ row.2.1.params ∨ (p, none) ∈ row.2.2.2.params := by decide +kernel
  have hbo : ∃ b, bind row.2.1 args = .ok b := by
    rcases hb : bind row.2.1 args with e | b
    · simp only [withRegimes, hb] at hc; cases hc
    · exact ⟨b, rfl⟩
  obtain ⟨b, hb⟩ := hbo
  obtain ⟨-, -, r1, -⟩ := bind_ok hb
  obtain ⟨-, -, r2, rfl⟩ := bind_ok hd
  simp only [if_pos hp]
  cases hl : args.lookup p with
  | some v => rfl
  | none =>
    have hn := (lookup_none_iff p args).1 hl
    by_cases ho : p ∈ row.2.1.names
    · rw [if_pos ho]
      rcases hf row hrow p hp h1 h2 h3 ho with e | e | e
      · simp only [Sig.dflt?, e]
      · exact absurd (r1 _ e rfl) hn
      · exact absurd (r2 _ e rfl) hn
    · rw [if_neg ho]

/-- C137 is false for the defaults: `TSLS(..., regimes=r)` divides by n and `TSLS_Regimes(..., r)` by n - k; `GM_Lag(..., regimes=r)` has
classical and `GM_Lag_Regimes(..., r)` White standard errors. -/
theorem C137_defaults_violated (args : List (String × Val V)) :
    ("sig2n_k" ∉ args.map (·.1) → ∀ c d, withRegimes sigTSLS fwdTSLS sigTSLSRegimes args = .ok c → bind sigTSLSRegimes args = .ok d →
      c.val "sig2n_k" = some (.dflt "False") ∧ d.val "sig2n_k" = some (.dflt "True")) ∧
    ("robust" ∉ args.map (·.1) → ∀ c d, withRegimes sigGMLag fwdGMLag sigGMLagRegimes args = .ok c → bind sigGMLagRegimes args = .ok d →
      c.val "robust" = some (.dflt "None") ∧ d.val "robust" = some (.dflt "'white'")) := by
  refine ⟨fun hn c d hc hd => ?_, fun hn c d hc hd => ?_⟩
  · have h1 := C137_regimes_partial ("TSLS", sigTSLS, fwdTSLS, sigTSLSRegimes) (by simp [regimesTable]) args c hc "sig2n_k"
      (by decide +kernel) (by decide)
    obtain ⟨-, -, -, rfl⟩ := bind_ok hd
    rw [h1]
    simp only [(lookup_none_iff _ args).2 hn, Option.none_or]
    refine ⟨?_, ?_⟩
    · rw [if_pos (by decide +kernel)]; rfl
    · rw [if_pos (by decide +kernel)]; rfl
  · have h1 := C137_regimes_partial ("GM_Lag", sigGMLag, fwdGMLag, sigGMLagRegimes) (by simp [regimesTable]) args c hc "robust"
      (by decide +kernel) (by decide)
    obtain ⟨-, -, -, rfl⟩ := bind_ok hd
    rw [h1]
    simp only [(lookup_none_iff _ args).2 hn, Option.none_or]
    refine ⟨?_, ?_⟩
    · rw [if_pos (by decide +kernel)]; rfl
    · rw [if_pos (by decide +kernel)]; rfl

/-- The arguments of the call `TSLS(y, x, yend, q, regimes=r, robust=..)`. -/
def exTSLS : List (String × Val Nat) :=
  [("y", .given 0), ("x", .given 1), ("yend", .given 2), ("q", .given 3), ("regimes", .given 4), ("robust", .given 5)]

/-- It meets the hypotheses of C137: both classes accept it, and the defaults differ. -/
example : ∃ c d, withRegimes sigTSLS fwdTSLS sigTSLSRegimes exTSLS = .ok c ∧ bind sigTSLSRegimes exTSLS = .ok d ∧
    c.val "robust" = some (.given 5) ∧ c.val "sig2n_k" = some (.dflt "False") ∧ d.val "sig2n_k" = some (.dflt "True") := by
  have h1 : bind sigTSLS exTSLS = .ok (bound sigTSLS exTSLS) := bind_intro (by decide +kernel) (Or.inl rfl) (by decide +kernel)
  refine ⟨bound sigTSLSRegimes (fwdTSLS.filterMap (fun p => ((bound sigTSLS exTSLS).val p).map fun v => (p, v)) ++ (bound sigTSLS exTSLS).extra),
    bound sigTSLSRegimes exTSLS, ?_,
    bind_intro (by decide +kernel) (Or.inr (by decide +kernel)) (by decide +kernel), ?_⟩
  · simp only [withRegimes, h1]
    show bind sigTSLSRegimes (fwdTSLS.filterMap (fun p => ((bound sigTSLS exTSLS).val p).map fun v => (p, v)) ++ (bound sigTSLS exTSLS).extra) = _
    exact bind_intro (by decide +kernel) (Or.inr (by decide +kernel)) (by decide +kernel)
  · decide +kernel

/-! ### C138: unknown keyword arguments -/

/-- The classes without regimes whose `**kwargs` is not used. -/
def swallow : List (String × Sig) := [("OLS", sigOLS), ("TSLS", sigTSLS), ("GM_Lag", sigGMLag), ("ML_Lag", sigMLLag), ("ML_Error", sigMLError),
  ("OLS_Regimes", sigOLSRegimes)]

/-- C138 is false: the classes `OLS`, `TSLS`, `GM_Lag`, `ML_Lag`, `ML_Error` and `OLS_Regimes` accept every keyword argument, and one
that they do not know has no effect: all parameters have the values they have without it. So a misspelled option is silently ignored. -/
theorem C138_violated : ∀ row ∈ swallow, ∀ (args : List (String × Val V)) (b : Bound V), bind row.2 args = .ok b →
    ∀ (k : String) (v : Val V), k ∉ row.2.names → k ∉ args.map (·.1) →
      ∃ b', bind row.2 ((k, v) :: args) = .ok b' ∧ b'.val = b.val := by
  intro row hrow args b hb k v hk ha
  have hkw : ∀ row ∈ swallow, row.2.kwargs = true := by decide +kernel
  obtain ⟨h1, h2, h3, rfl⟩ := bind_ok hb
  refine ⟨_, bind_intro ?_ (Or.inl (hkw row hrow)) ?_, ?_⟩
  · simpa using ⟨by simpa using ha, h1⟩
  · intro q hq hn
    simp only [List.map_cons, List.mem_cons]
    exact Or.inr (h3 q hq hn)
  · funext q
    simp only [bound]
    by_cases hq : q ∈ row.2.names
    · rw [if_pos hq, if_pos hq, List.lookup_cons]
      have : (q == k) = false := beq_false_of_ne fun e => hk (e ▸ hq)
      rw [this]
    · rw [if_neg hq, if_neg hq]

/-- `OLS(y, x, robsut='white')`. -/
example : ∃ b : Bound String, bind sigOLS [("robsut", .given "white"), ("y", .given "y"), ("x", .given "x")] = .ok b ∧
    b.val "robust" = some (.dflt "None") :=
  ⟨_, bind_intro (by decide) (Or.inl rfl) (by decide +kernel), by decide +kernel⟩

/-- A call with an argument that the callee does not know raises TypeError. -/
theorem bind_unknown {s : Sig} (hs : s.kwargs = false) {args : List (String × Val V)} {k : String} (hk : k ∈ args.map (·.1)) (hn : k ∉ s.names) :
    bind s args = .error .typeError := by
  rcases h : bind s args with e | b
  · rw [bind_err h]
  · obtain ⟨-, h2, -, -⟩ := bind_ok h
    rcases h2 with h2 | h2
    · rw [hs] at h2; cases h2
    · obtain ⟨a, ha, rfl⟩ := List.mem_map.1 hk
      exact absurd (h2 a ha) hn

theorem passOn_unknown {own target : Sig} {fwd : List String} {args : List (String × Val V)} {b : Bound V} (hb : bind own args = .ok b)
    (hs : target.kwargs = false) {k : String} (hk : k ∈ args.map (·.1)) (ho : k ∉ own.names) (hn : k ∉ target.names) :
    passOn b fwd true target = .error .typeError := by
  refine bind_unknown hs (k := k) ?_ hn
  obtain ⟨-, -, -, rfl⟩ := bind_ok hb
  obtain ⟨a, ha, rfl⟩ := List.mem_map.1 hk
  rw [List.map_append, List.mem_append]
  right
  exact List.mem_map.2 ⟨a, by simpa using ⟨ha, ho⟩, rfl⟩

/-- C138 (the part that holds): with `regimes=` an argument unknown to both classes raises TypeError, for `TSLS`, `GM_Lag`, `ML_Lag`
and `ML_Error`. -/
theorem C138_regimes_partial : ∀ row ∈ regimesTable, row.1 ≠ "OLS" → row.1 ≠ "GMM_Error" → ∀ (args : List (String × Val V)) (k : String),
    k ∈ args.map (·.1) → k ∉ row.2.1.names → k ∉ row.2.2.2.names → withRegimes row.2.1 row.2.2.1 row.2.2.2 args = .error .typeError := by
  intro row hrow h1 h2 args k hk hn hm
  have hf : ∀ row ∈ regimesTable, row.1 ≠ "OLS" → row.1 ≠ "GMM_Error" → row.2.2.2.kwargs = false := by decide +kernel
  rcases hb : bind row.2.1 args with e | b
  · simp only [withRegimes, hb]; rw [bind_err hb]; rfl
  · simp only [withRegimes, hb]
    exact passOn_unknown hb (hf row hrow h1 h2) hk hn hm

/-! ### C139: the model chosen by `GMM_Error` -/

/-- The name of the class asked for: the variant of the estimator and the regressors. -/
def askedClass (estimator : String) (yendNone addWy : Bool) : String :=
  (if addWy then "GM_Combo" else if yendNone then "GM_Error" else "GM_Endog_Error") ++
  (if estimator = "het" then "_Het" else if estimator = "hom" then "_Hom" else "")

theorem branch_facts : ∀ est ∈ ["het", "hom", "kp98"], ∀ yn aw : Bool,
    (gmmBranch est yn aw).cls = askedClass est yn aw ∧ (gmmBranch est yn aw).kw = true ∧ (gmmBranch est yn aw).target.kwargs = false ∧
    (∀ q ∈ (gmmBranch est yn aw).fwd, q ∈ sigGMMError.names) ∧
    (∀ q ∈ (gmmBranch est yn aw).target.names, q ∈ sigGMMError.names → q ∈ (gmmBranch est yn aw).fwd) ∧
    (gmmRegimesBranch est yn aw).cls = askedClass est yn aw ++ "_Regimes" ∧ (gmmRegimesBranch est yn aw).kw = true ∧
    (gmmRegimesBranch est yn aw).target.kwargs = false ∧
    (∀ q ∈ (gmmRegimesBranch est yn aw).fwd, q ∈ sigGMMErrorRegimes.names) ∧
    (∀ q ∈ (gmmRegimesBranch est yn aw).target.names, q ∈ sigGMMErrorRegimes.names → q ≠ "regime_lag_sep" → q ∈ (gmmRegimesBranch est yn aw).fwd) ∧
    (aw = true → "regime_lag_sep" ∈ (gmmRegimesBranch est yn aw).fwd) ∧
    ((aw = true ∨ yn = false) → "slx_vars" ∉ (gmmRegimesBranch est yn aw).target.names) := by
  decide +kernel

/-- What a variable reads as: the caller's value or the default of `GMM_Error`. -/
def argOf (s : Sig) (args : List (String × Val V)) (p : String) : Option (Val V) := (args.lookup p).or (s.dflt? p)

theorem bind_val {s : Sig} {args : List (String × Val V)} {b : Bound V} (h : bind s args = .ok b) {p : String} (hp : p ∈ s.names) :
    b.val p = argOf s args p := by
  obtain ⟨-, -, -, rfl⟩ := bind_ok h
  simp only [if_pos hp, argOf]

theorem gmmError_eq (r : Reads V) {args : List (String × Val V)} {b : Bound V} (hb : bind sigGMMError args = .ok b) :
    gmmError r args = if r.none? (b.val "regimes") then
      (passOn b (gmmBranch (r.str? (b.val "estimator")) (r.none? (b.val "yend")) (r.true? (b.val "add_wy"))).fwd
        (gmmBranch (r.str? (b.val "estimator")) (r.none? (b.val "yend")) (r.true? (b.val "add_wy"))).kw
        (gmmBranch (r.str? (b.val "estimator")) (r.none? (b.val "yend")) (r.true? (b.val "add_wy"))).target).map fun c =>
          ((gmmBranch (r.str? (b.val "estimator")) (r.none? (b.val "yend")) (r.true? (b.val "add_wy"))).cls, c)
      else gmmErrorRegimes r (fwdGMMError.filterMap (fun p => (b.val p).map fun v => (p, v)) ++ b.extra) := by
  rw [gmmError, hb]; rfl

theorem gmmErrorRegimes_eq (r : Reads V) {args : List (String × Val V)} {b : Bound V} (hb : bind sigGMMErrorRegimes args = .ok b) :
    gmmErrorRegimes r args =
      (passOn b (gmmRegimesBranch (r.str? (b.val "estimator")) (r.none? (b.val "yend")) (r.true? (b.val "add_wy"))).fwd
        (gmmRegimesBranch (r.str? (b.val "estimator")) (r.none? (b.val "yend")) (r.true? (b.val "add_wy"))).kw
        (gmmRegimesBranch (r.str? (b.val "estimator")) (r.none? (b.val "yend")) (r.true? (b.val "add_wy"))).target).map fun c =>
          ((gmmRegimesBranch (r.str? (b.val "estimator")) (r.none? (b.val "yend")) (r.true? (b.val "add_wy"))).cls, c) := by
  rw [gmmErrorRegimes, hb]; rfl

/-- C139: with one of the three estimators and no regimes, `GMM_Error` is the class asked for (`add_wy`: the combo model, endogenous
variables: the endogenous model, neither: the error model; with the suffix of the estimator), and every argument given reaches the
parameter of its name; an argument not given has the default of `GMM_Error` if it knows it, otherwise that of the class. -/
theorem C139_class (r : Reads V) (args : List (String × Val V)) (cls : String) (c : Bound V)
    (hreg : r.none? (argOf sigGMMError args "regimes") = true)
    (hest : r.str? (argOf sigGMMError args "estimator") ∈ ["het", "hom", "kp98"])
    (h : gmmError r args = .ok (cls, c)) :
    cls = askedClass (r.str? (argOf sigGMMError args "estimator")) (r.none? (argOf sigGMMError args "yend"))
        (r.true? (argOf sigGMMError args "add_wy")) ∧
    ∀ p ∈ (gmmBranch (r.str? (argOf sigGMMError args "estimator")) (r.none? (argOf sigGMMError args "yend"))
        (r.true? (argOf sigGMMError args "add_wy"))).target.names,
      c.val p = (args.lookup p).or (if p ∈ sigGMMError.names then sigGMMError.dflt? p else
        (gmmBranch (r.str? (argOf sigGMMError args "estimator")) (r.none? (argOf sigGMMError args "yend"))
          (r.true? (argOf sigGMMError args "add_wy"))).target.dflt? p) := by
  rcases hb : bind sigGMMError args with e | b
  · simp only [gmmError, hb] at h; cases h
  · rw [gmmError_eq r hb] at h
    have v1 := bind_val hb (p := "regimes") (by decide +kernel)
    have v2 := bind_val hb (p := "estimator") (by decide +kernel)
    have v3 := bind_val hb (p := "yend") (by decide +kernel)
    have v4 := bind_val hb (p := "add_wy") (by decide +kernel)
    rw [v1, v2, v3, v4, if_pos hreg] at h
    generalize r.str? (argOf sigGMMError args "estimator") = est at *
    generalize r.none? (argOf sigGMMError args "yend") = yn at *
    generalize r.true? (argOf sigGMMError args "add_wy") = aw at *
    obtain ⟨f1, f2, f3, f4, f5, -⟩ := branch_facts est hest yn aw
    rw [f2] at h
    rcases hp : passOn b (gmmBranch est yn aw).fwd true (gmmBranch est yn aw).target with e | c'
    · rw [hp] at h; cases h
    · rw [hp] at h
      obtain ⟨rfl, rfl⟩ := Prod.mk.inj (Except.ok.inj h)
      refine ⟨f1, fun p hpt => ?_⟩
      rw [passOn_val f4 hb hp p hpt]
      by_cases e : p ∈ (gmmBranch est yn aw).fwd
      · rw [if_pos e, if_pos (f4 p e)]
      · have e' : p ∉ sigGMMError.names := fun hc => e (f5 p hpt hc)
        rw [if_neg e, if_pos ⟨rfl, e'⟩, if_neg e']

/-- C138 for `GMM_Error` without regimes and with one of the three estimators: an argument that neither it nor the class asked for
knows raises TypeError. -/
theorem C138_gmm_partial (r : Reads V) (args : List (String × Val V)) (k : String) (hk : k ∈ args.map (·.1)) (hn : k ∉ sigGMMError.names)
    (hreg : r.none? (argOf sigGMMError args "regimes") = true)
    (hest : r.str? (argOf sigGMMError args "estimator") ∈ ["het", "hom", "kp98"])
    (hm : k ∉ (gmmBranch (r.str? (argOf sigGMMError args "estimator")) (r.none? (argOf sigGMMError args "yend"))
        (r.true? (argOf sigGMMError args "add_wy"))).target.names) :
    gmmError r args = .error .typeError := by
  rcases hb : bind sigGMMError args with e | b
  · rw [gmmError, hb]; rw [bind_err hb]; rfl
  · rw [gmmError_eq r hb]
    have v1 := bind_val hb (p := "regimes") (by decide +kernel)
    have v2 := bind_val hb (p := "estimator") (by decide +kernel)
    have v3 := bind_val hb (p := "yend") (by decide +kernel)
    have v4 := bind_val hb (p := "add_wy") (by decide +kernel)
    rw [v1, v2, v3, v4, if_pos hreg]
    generalize r.str? (argOf sigGMMError args "estimator") = est at *
    generalize r.none? (argOf sigGMMError args "yend") = yn at *
    generalize r.true? (argOf sigGMMError args "add_wy") = aw at *
    obtain ⟨-, f2, f3, -⟩ := branch_facts est hest yn aw
    rw [f2, passOn_unknown hb f3 hk hn hm]
    rfl

/-- C139 for `GMM_Error_Regimes` with one of the three estimators: the class asked for, with regimes, gets every argument given
(except that `regime_lag_sep` reaches only the combo models, which are the ones with a spatial lag). -/
theorem C139_regimes (r : Reads V) (args : List (String × Val V)) (cls : String) (c : Bound V)
    (hest : r.str? (argOf sigGMMErrorRegimes args "estimator") ∈ ["het", "hom", "kp98"])
    (h : gmmErrorRegimes r args = .ok (cls, c)) :
    cls = askedClass (r.str? (argOf sigGMMErrorRegimes args "estimator")) (r.none? (argOf sigGMMErrorRegimes args "yend"))
        (r.true? (argOf sigGMMErrorRegimes args "add_wy")) ++ "_Regimes" ∧
    ∀ p ∈ (gmmRegimesBranch (r.str? (argOf sigGMMErrorRegimes args "estimator")) (r.none? (argOf sigGMMErrorRegimes args "yend"))
        (r.true? (argOf sigGMMErrorRegimes args "add_wy"))).target.names,
      (p ≠ "regime_lag_sep" ∨ r.true? (argOf sigGMMErrorRegimes args "add_wy") = true) →
      c.val p = (args.lookup p).or (if p ∈ sigGMMErrorRegimes.names then sigGMMErrorRegimes.dflt? p else
        (gmmRegimesBranch (r.str? (argOf sigGMMErrorRegimes args "estimator")) (r.none? (argOf sigGMMErrorRegimes args "yend"))
          (r.true? (argOf sigGMMErrorRegimes args "add_wy"))).target.dflt? p) := by
  rcases hb : bind sigGMMErrorRegimes args with e | b
  · simp only [gmmErrorRegimes, hb] at h; cases h
  · rw [gmmErrorRegimes_eq r hb] at h
    have v2 := bind_val hb (p := "estimator") (by decide +kernel)
    have v3 := bind_val hb (p := "yend") (by decide +kernel)
    have v4 := bind_val hb (p := "add_wy") (by decide +kernel)
    rw [v2, v3, v4] at h
    generalize r.str? (argOf sigGMMErrorRegimes args "estimator") = est at *
    generalize r.none? (argOf sigGMMErrorRegimes args "yend") = yn at *
    generalize r.true? (argOf sigGMMErrorRegimes args "add_wy") = aw at *
    obtain ⟨-, -, -, -, -, f1, f2, f3, f4, f5, f6, -⟩ := branch_facts est hest yn aw
    rw [f2] at h
    rcases hp : passOn b (gmmRegimesBranch est yn aw).fwd true (gmmRegimesBranch est yn aw).target with e | c'
    · rw [hp] at h; cases h
    · rw [hp] at h
      obtain ⟨rfl, rfl⟩ := Prod.mk.inj (Except.ok.inj h)
      refine ⟨f1, fun p hpt hl => ?_⟩
      rw [passOn_val f4 hb hp p hpt]
      by_cases e : p ∈ (gmmRegimesBranch est yn aw).fwd
      · rw [if_pos e, if_pos (f4 p e)]
      · have e' : p ∉ sigGMMErrorRegimes.names := fun hc => by
          rcases hl with hl | hl
          · exact e (f5 p hpt hc hl)
          · by_cases hq : p = "regime_lag_sep"
            · exact e (hq ▸ f6 hl)
            · exact e (f5 p hpt hc hq)
        rw [if_neg e, if_pos ⟨rfl, e'⟩, if_neg e']

/-- C139 is false for any other estimator: no exception; the model is `GM_Error_Het`, in which the endogenous variables, the
instruments, `add_wy`, `slx_vars` and all extra arguments have no part. -/
theorem C139_unknown_violated (r : Reads V) (args : List (String × Val V)) (b : Bound V) (hb : bind sigGMMError args = .ok b)
    (hreg : r.none? (argOf sigGMMError args "regimes") = true)
    (hest : r.str? (argOf sigGMMError args "estimator") ∉ ["het", "hom", "kp98"]) :
    ∃ c : Bound V, gmmError r args = .ok ("GM_Error_Het", c) ∧ c.extra = [] ∧ c.val "slx_vars" = some (.dflt "'All'") ∧
      ∀ p ∈ sigGMErrorHet.names, p ≠ "slx_vars" → c.val p = (if p ∈ sigGMMError.names then argOf sigGMMError args p else sigGMErrorHet.dflt? p) := by
  rw [gmmError_eq r hb]
  have v1 := bind_val hb (p := "regimes") (by decide +kernel)
  have v2 := bind_val hb (p := "estimator") (by decide +kernel)
  rw [v1, v2, if_pos hreg]
  simp only [List.mem_cons, List.not_mem_nil, or_false, not_or] at hest
  have hbr : ∀ yn aw, gmmBranch (r.str? (argOf sigGMMError args "estimator")) yn aw = brGMMErrorElse := by
    intro yn aw
    simp only [gmmBranch, if_neg hest.1, if_neg hest.2.1, if_neg hest.2.2]
  rw [hbr]
  have hf : ∀ q ∈ brGMMErrorElse.fwd, q ∈ sigGMMError.names := by decide +kernel
  have hkeys : (brGMMErrorElse.fwd.filterMap (fun p => (b.val p).map fun v => (p, v))).map (·.1) = brGMMErrorElse.fwd := by
    have : ∀ l : List String, (∀ q ∈ l, (b.val q).isSome) → (l.filterMap (fun p => (b.val p).map fun v => (p, v))).map (·.1) = l := by
      intro l
      induction l with
      | nil => intro _; rfl
      | cons q t ih =>
        intro hq
        obtain ⟨v, hv⟩ := Option.isSome_iff_exists.1 (hq q (by simp))
        rw [List.filterMap_cons, hv]
        simp only [Option.map_some, List.map_cons]
        rw [ih fun x hx => hq x (by simp [hx])]
    exact this _ fun q hq => val_some hb (hf q hq)
  have hok : passOn b brGMMErrorElse.fwd brGMMErrorElse.kw brGMMErrorElse.target =
      .ok (bound brGMMErrorElse.target (brGMMErrorElse.fwd.filterMap (fun p => (b.val p).map fun v => (p, v)) ++ [])) := by
    refine bind_intro ?_ (Or.inr ?_) ?_
    · show (List.map _ (_ ++ [])).Nodup
      rw [List.append_nil, hkeys]; decide +kernel
    · intro a ha
      have ha' : a ∈ brGMMErrorElse.fwd.filterMap (fun p => (b.val p).map fun v => (p, v)) := by simpa [brGMMErrorElse] using ha
      have : a.1 ∈ brGMMErrorElse.fwd := hkeys ▸ List.mem_map.2 ⟨a, ha', rfl⟩
      have hall : ∀ q ∈ brGMMErrorElse.fwd, q ∈ brGMMErrorElse.target.names := by decide +kernel
      exact hall _ this
    · intro p hp hn
      show p.1 ∈ List.map _ (_ ++ [])
      rw [List.append_nil, hkeys]
      have hall : ∀ p ∈ brGMMErrorElse.target.params, p.2 = none → p.1 ∈ brGMMErrorElse.fwd := by decide +kernel
      exact hall p hp hn
  rw [hok]
  refine ⟨_, rfl, ?_, ?_, ?_⟩
  · simp only [bound, List.append_nil, List.filter_eq_nil_iff]
    intro a ha
    have : a.1 ∈ brGMMErrorElse.fwd := hkeys ▸ List.mem_map.2 ⟨a, ha, rfl⟩
    have hall : ∀ q ∈ brGMMErrorElse.fwd, q ∈ brGMMErrorElse.target.names := by decide +kernel
    simpa using hall _ this
  · rw [passOn_val hf hb hok "slx_vars" (by decide +kernel), if_neg (by decide +kernel), if_neg (by decide)]
    rfl
  · intro p hp hne
    rw [passOn_val hf hb hok p hp]
    have hall : ∀ q ∈ sigGMErrorHet.names, q ≠ "slx_vars" → q ∈ sigGMMError.names → q ∈ brGMMErrorElse.fwd := by decide +kernel
    by_cases e : p ∈ brGMMErrorElse.fwd
    · rw [if_pos e, if_pos (hf p e)]; rfl
    · rw [if_neg e, if_neg (fun hc => e (hall p hp hne hc)), if_neg (by simp [brGMMErrorElse])]
      rfl

/-- C139 is false for `slx_vars` of `GMM_Error_Regimes`: with endogenous variables or a spatial lag the argument raises TypeError,
since the endogenous and combo classes with regimes do not have it. -/
theorem C139_slx_vars_violated (r : Reads V) (args : List (String × Val V)) (hk : "slx_vars" ∈ args.map (·.1))
    (hest : r.str? (argOf sigGMMErrorRegimes args "estimator") ∈ ["het", "hom", "kp98"])
    (hm : r.true? (argOf sigGMMErrorRegimes args "add_wy") = true ∨ r.none? (argOf sigGMMErrorRegimes args "yend") = false) :
    gmmErrorRegimes r args = .error .typeError := by
  rcases hb : bind sigGMMErrorRegimes args with e | b
  · rw [gmmErrorRegimes, hb]; rw [bind_err hb]; rfl
  · rw [gmmErrorRegimes_eq r hb]
    have v2 := bind_val hb (p := "estimator") (by decide +kernel)
    have v3 := bind_val hb (p := "yend") (by decide +kernel)
    have v4 := bind_val hb (p := "add_wy") (by decide +kernel)
    rw [v2, v3, v4]
    generalize r.str? (argOf sigGMMErrorRegimes args "estimator") = est at *
    generalize r.none? (argOf sigGMMErrorRegimes args "yend") = yn at *
    generalize r.true? (argOf sigGMMErrorRegimes args "add_wy") = aw at *
    obtain ⟨-, -, -, -, -, -, f2, f3, -, -, -, f7⟩ := branch_facts est hest yn aw
    rw [f2, passOn_unknown hb f3 hk (by decide +kernel) (f7 hm)]
    rfl

/-- Values of arguments for the examples: strings as themselves. -/
def exReads : Reads String := ⟨fun v => v == "None", fun v => v == "True", id⟩

/-- `GMM_Error(y, x, w, yend=.., q=.., estimator='hom', add_wy=True, A1='het')` meets the hypotheses of C139. -/
def exGMM : List (String × Val String) := [("y", .given "y"), ("x", .given "x"), ("w", .given "w"), ("yend", .given "e"), ("q", .given "q"),
  ("estimator", .given "hom"), ("add_wy", .given "True"), ("A1", .given "het")]

example : (match gmmError exReads exGMM with | .ok (cls, c) => (cls, c.val "A1", c.val "yend") | .error _ => ("", none, none)) =
    ("GM_Combo_Hom", some (.given "het"), some (.given "e")) := by decide +kernel

/-- A misspelled estimator: the plain error model, without the endogenous variable. -/
example : (match gmmError exReads (("estimator", .given "HET") :: exGMM.filter (·.1 != "estimator")) with
    | .ok (cls, c) => (cls, c.val "yend") | .error _ => ("", none)) = ("GM_Error_Het", none) := by decide +kernel

/-- `GMM_Error(y, x, w, yend=.., q=.., regimes=.., slx_vars=..)` through `GMM_Error_Regimes`. -/
example : (match gmmError exReads (("regimes", .given "r") :: ("slx_vars", .given "v") :: exGMM) with
    | .ok (cls, c) => (cls, c.val "yend") | .error _ => ("", none)) = ("GM_Combo_Hom_Regimes", some (.given "e")) := by decide +kernel

end Spreg.Calls
