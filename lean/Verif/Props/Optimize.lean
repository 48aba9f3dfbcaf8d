import Verif.Proofs.OptTotal
import Verif.Spec.Optimize
import Verif.Props.Termination
/-
The optimizer: C27 - C31.
-/
namespace Verif.Props
open Spec

/-! ### C29 -/

theorem firstByte_head (c : Char) (b : UInt8) : firstByte c ≠ b ↔
    (String.utf8EncodeChar c).head? ≠ some b := by
  obtain ⟨b', bs, h⟩ := utf8_ne_nil c
  simp [firstByte, h]

theorem notFirst_iff {b src} : NotFirst b src ↔ NotStarting b src := by
  unfold NotFirst NotStarting
  constructor
  · intro h c cs hc; exact (firstByte_head c b).1 (h c cs hc)
  · intro h c cs hc; exact (firstByte_head c b).2 (h c cs hc)

theorem reported_mem {tr e} (h : Reported tr e) : e ∈ tr := by
  obtain ⟨a, b, rfl, _⟩ := h
  simp

theorem reported_deepest {tr e} (h : Reported tr e) : e.depth = deepest tr := by
  refine Nat.le_antisymm (le_deepest (reported_mem h)) ?_
  refine deepest_le fun x hx => ?_
  exact reported_max h x hx

/-- A rule with unique byte `b` is refused by every text that does not start with `b`, with the
error right at the start and with the indentation and the data unchanged. -/
theorem C29_unique_byte_sound {L : Lexer} (hL : L.Lawful) {refs : List Rule} {r : Rule} {b : UInt8}
    (h : UniqueByte refs r (some b)) (p : Pos) (hp : NotStarting b p.src) (ind : Indent) :
    ∃ e, Fails L refs r p ind e ind ∧ e.range.next = p.off := by
  obtain ⟨n, h⟩ := h
  obtain ⟨tr, h1, h2, h3⟩ := unique_refuses (E' := envOf L refs ind) (Q := fun _ => True) (m := 0) hL
    (SimL.refl refs) n r r b h (Sim.refl r) p ind.indent (notFirst_iff.2 hp)
  obtain ⟨e, he⟩ := best_ne_none h3
  refine ⟨e, fails_iff.2 ⟨_, tr, h1, rfl, best_iff.1 he⟩, ?_⟩
  exact h2 e (reported_mem (best_iff.1 he))

/-! ### Optimized syntaxes -/

theorem optimizes_simL {syn syn' : Syntax} {n : Nat} {E : Env} (hE : E.refs = syn.rules)
    (h : syn.optimize n = .ok syn') (ht : TailsRefused E) :
    SimL syn.rules n (EndRefused E) syn.rules syn'.rules := by
  obtain ⟨rules, h1, h2⟩ := Comp.bind_ok.1 h
  cases h2
  refine opt_simL syn.rules ?_ (by rw [optimizeRules_eq]; exact h1)
  intro x hx args id t u ho hu h2 b hb
  exact ht args id t u ⟨x, by rw [hE]; exact hx, ho⟩ ⟨n, by rw [hE]; exact hu⟩ h2 b hb

/-! ### C27 -/

theorem accepts_sim {L : Lexer} (hL : L.Lawful) {syn syn' : Syntax} {ind : Indent} {n : Nat}
    (hs : SimL syn.rules n (EndRefused (envOf L syn.rules ind)) syn.rules syn'.rules) (text : Str)
    (toks toks' : List Tok) :
    Parses L syn text toks ind (.ok toks') ↔ Parses L syn' text toks ind (.ok toks') := by
  rw [parses_ok_run, parses_ok_run]
  constructor
  · rintro ⟨r, k, ts, j, tr, hr, h1, h2, h3⟩
    obtain ⟨r', hr', hrr⟩ := hs.last hr
    obtain ⟨tr', h4, -⟩ := run_opt hL rfl hs h1 _ (.rule hrr)
    exact ⟨r', k, ts, j, tr', hr', h4, h2, h3⟩
  · rintro ⟨r', k, ts, j, tr, hr, h1, h2, h3⟩
    obtain ⟨r, hr', hrr⟩ := hs.last' hr
    obtain ⟨tr', h4⟩ := opt_run hL rfl hs h1 _ (.rule hrr)
    exact ⟨r, k, ts, j, tr', hr', h4, h2, h3⟩

/-- Where the alternatives left out of the tables cannot match at the end of a text, the optimized
syntax accepts the same texts with the same data. -/
theorem C27_accepts_the_same_partial {L : Lexer} (hL : L.Lawful) {syn syn' : Syntax} {ind : Indent}
    (h : Optimizes syn syn') (ht : TailsRefused (envOf L syn.rules ind)) (text : Str)
    (toks toks' : List Tok) :
    Parses L syn text toks ind (.ok toks') ↔ Parses L syn' text toks ind (.ok toks') := by
  obtain ⟨n, h⟩ := h
  exact accepts_sim hL (optimizes_simL rfl h ht) text toks toks'

/-- Both directions of rejecting, with the reported error ending at the same place. -/
theorem rejects_opt {L : Lexer} (hL : L.Lawful) {syn syn' : Syntax} {ind : Indent} {n : Nat}
    (hs : SimL syn.rules n (EndRefused (envOf L syn.rules ind)) syn.rules syn'.rules) (text : Str) :
    (∀ tr, Rejects L syn text ind tr → ∃ tr', Rejects L syn' text ind tr' ∧ deepest tr = deepest tr') ∧
    (∀ tr', Rejects L syn' text ind tr' → ∃ tr, Rejects L syn text ind tr) := by
  constructor
  · rintro tr (hr | ⟨hr, h1⟩ | ⟨hr, h1, h2⟩)
    · refine ⟨_, .noRules ?_, rfl⟩
      have := hs.length
      rw [hr] at this
      exact List.length_eq_zero_iff.1 this.symm
    · obtain ⟨r', hr', hrr⟩ := hs.last hr
      obtain ⟨tr', h4, h5⟩ := run_opt hL rfl hs h1 _ (.rule hrr)
      exact ⟨tr', .fails hr' h4, h5⟩
    · obtain ⟨r', hr', hrr⟩ := hs.last hr
      obtain ⟨tr', h4, h5⟩ := run_opt hL rfl hs h1 _ (.rule hrr)
      refine ⟨_, .short hr' h4 h2, ?_⟩
      rw [sameReach_some] at h5
      simp only [deepest_append, deepest, RErr.depth, Range.next] at h5 ⊢
      omega
  · rintro tr (hr | ⟨hr, h1⟩ | ⟨hr, h1, h2⟩)
    · refine ⟨_, .noRules ?_⟩
      have := hs.length
      rw [hr] at this
      exact List.length_eq_zero_iff.1 this
    · obtain ⟨r', hr', hrr⟩ := hs.last' hr
      obtain ⟨tr', h4⟩ := opt_run hL rfl hs h1 _ (.rule hrr)
      exact ⟨tr', .fails hr' h4⟩
    · obtain ⟨r', hr', hrr⟩ := hs.last' hr
      obtain ⟨tr', h4⟩ := opt_run hL rfl hs h1 _ (.rule hrr)
      exact ⟨_, .short hr' h4 h2⟩

theorem rejects_det {L : Lexer} {syn : Syntax} {ind : Indent} {text tr tr'}
    (h : Rejects L syn text ind tr) (h' : Rejects L syn text ind tr') : tr = tr' := by
  rcases h with hr | ⟨hr, h1⟩ | ⟨hr, h1, h2⟩ <;> rcases h' with hr' | ⟨hr', h1'⟩ | ⟨hr', h1', h2'⟩ <;>
    first
      | rfl
      | (rw [hr] at hr'; simp at hr'; done)
      | (rw [hr'] at hr; simp at hr; done)
      | (rw [hr] at hr'; cases hr'; obtain ⟨h3, h4, h5⟩ := h1.det h1'; simp_all)

theorem rejects_ne {L : Lexer} {syn : Syntax} {ind : Indent} {text tr}
    (h : Rejects L syn text ind tr) : tr ≠ [] := by
  rcases h with hr | ⟨hr, h1⟩ | ⟨hr, h1, h2⟩
  · simp
  · obtain ⟨e, he⟩ := run_none_trace h1
    rintro rfl; simp [best] at he
  · simp

theorem rejects_sim {L : Lexer} (hL : L.Lawful) {syn syn' : Syntax} {ind : Indent} {n : Nat}
    (hs : SimL syn.rules n (EndRefused (envOf L syn.rules ind)) syn.rules syn'.rules) (text : Str)
    (toks : List Tok) :
    (∃ e toks', Parses L syn text toks ind (.err e toks')) ↔
      ∃ e toks', Parses L syn' text toks ind (.err e toks') := by
  have hr := rejects_opt hL hs text
  constructor
  · rintro ⟨e, h1⟩
    obtain ⟨tr, h2, h3⟩ := parses_err_run.1 h1
    obtain ⟨tr', h4, h5⟩ := hr.1 tr h2
    obtain ⟨e', he'⟩ := best_ne_none (rejects_ne h4)
    exact ⟨e', parses_err_run.2 ⟨tr', h4, best_iff.1 he'⟩⟩
  · rintro ⟨e, h1⟩
    obtain ⟨tr, h2, h3⟩ := parses_err_run.1 h1
    obtain ⟨tr', h4⟩ := hr.2 tr h2
    obtain ⟨e', he'⟩ := best_ne_none (rejects_ne h4)
    exact ⟨e', parses_err_run.2 ⟨tr', h4, best_iff.1 he'⟩⟩

/-- Under the same condition the optimized syntax rejects the same texts. -/
theorem C27_rejects_the_same_partial {L : Lexer} (hL : L.Lawful) {syn syn' : Syntax} {ind : Indent}
    (h : Optimizes syn syn') (ht : TailsRefused (envOf L syn.rules ind)) (text : Str) (toks : List Tok) :
    (∃ e toks', Parses L syn text toks ind (.err e toks')) ↔
      ∃ e toks', Parses L syn' text toks ind (.err e toks') := by
  obtain ⟨n, h⟩ := h
  exact rejects_sim hL (optimizes_simL rfl h ht) text toks

/-! ### C28 -/

theorem error_place_sim {L : Lexer} (hL : L.Lawful) {syn syn' : Syntax} {ind : Indent} {n : Nat}
    (hs : SimL syn.rules n (EndRefused (envOf L syn.rules ind)) syn.rules syn'.rules) {text : Str}
    {toks toks₁ toks₂ : List Tok} {e e' : RErr}
    (h1 : Parses L syn text toks ind (.err e toks₁))
    (h2 : Parses L syn' text toks ind (.err e' toks₂)) : e.range.next = e'.range.next := by
  obtain ⟨tr, h3, h4⟩ := parses_err_run.1 ⟨_, h1⟩
  obtain ⟨tr', h5, h6⟩ := parses_err_run.1 ⟨_, h2⟩
  obtain ⟨tr'', h7, h8⟩ := (rejects_opt hL hs text).1 tr h3
  cases rejects_det h5 h7
  have := reported_deepest h4
  have := reported_deepest h6
  simp only [RErr.depth] at *
  omega

/-- Under the same condition the reported error ends at the same character. -/
theorem C28_same_error_place {L : Lexer} (hL : L.Lawful) {syn syn' : Syntax} {ind : Indent}
    (h : Optimizes syn syn') (ht : TailsRefused (envOf L syn.rules ind)) {text : Str}
    {toks toks₁ toks₂ : List Tok} {e e' : RErr}
    (h1 : Parses L syn text toks ind (.err e toks₁))
    (h2 : Parses L syn' text toks ind (.err e' toks₂)) : e.range.next = e'.range.next := by
  obtain ⟨n, h⟩ := h
  exact error_place_sim hL (optimizes_simL rfl h ht) h1 h2

/-! ### C30 -/

/-- The table sends a byte to the index of the alternative that starts with it, for the first `u`
alternatives, and every other byte to 255.  `u` fits a byte and the list. -/
theorem C30_table_exact {refs args : List Rule} {t : Table} {u : Nat} (h : UniqueTable refs args t u) :
    u ≤ 255 ∧ u ≤ args.length ∧
    (∀ (j : Nat) r, j < u → args[j]? = some r →
      ∃ b, UniqueByte refs r (some b) ∧ (t b).toNat = j) ∧
    (∀ b, t b ≠ 255 → (t b).toNat < u ∧
      ∃ r, args[(t b).toNat]? = some r ∧ UniqueByte refs r (some b)) := by
  obtain ⟨n, h⟩ := h
  obtain ⟨hs, -⟩ := uniqueTable_spec h
  refine ⟨hs.small, hs.len, fun j r hj hr => ?_, fun b hb => ?_⟩
  · obtain ⟨r', b, h1, h2, h3⟩ := hs.entry j hj
    rw [hr] at h1
    cases h1
    refine ⟨b, ⟨n, h2⟩, ?_⟩
    rw [h3, UInt8.toNat_ofNat']
    have := hs.small
    omega
  · obtain ⟨h1, r, h2, h3⟩ := hs.only b hb
    exact ⟨h1, r, h2, n, h3⟩

/-- No two of the first `u` alternatives start with the same byte. -/
theorem C30_bytes_distinct {refs args : List Rule} {t : Table} {u : Nat} (h : UniqueTable refs args t u)
    {i j : Nat} {r r' b} (hi : i < u) (hj : j < u) (hr : args[i]? = some r) (hr' : args[j]? = some r')
    (hb : UniqueByte refs r (some b)) (hb' : UniqueByte refs r' (some b)) : i = j := by
  obtain ⟨-, -, h1, -⟩ := C30_table_exact h
  obtain ⟨c, hc, rfl⟩ := h1 i r hi hr
  obtain ⟨d, hd, rfl⟩ := h1 j r' hj hr'
  cases uniqueByte_det hb hc
  cases uniqueByte_det hb' hd
  rfl

/-- `u` is as large as possible: it stops at the end of the list, at 255, or at an alternative
without a unique byte or whose unique byte is taken. -/
theorem C30_maximal {refs args : List Rule} {t : Table} {u : Nat} (h : UniqueTable refs args t u) :
    u = args.length ∨ u = 255 ∨ ∃ r, args[u]? = some r ∧
      (UniqueByte refs r none ∨
       ∃ b, UniqueByte refs r (some b) ∧ ∃ (j : Nat) (q : Rule), j < u ∧ args[j]? = some q ∧
        UniqueByte refs q (some b)) := by
  have hx := (C30_table_exact h).2.2.2
  obtain ⟨n, h⟩ := h
  obtain ⟨-, hs⟩ := uniqueTable_spec h
  rcases hs with h | h | ⟨r, h1, h2 | ⟨b, h2, h3⟩⟩
  · exact .inl h
  · exact .inr (.inl h)
  · exact .inr (.inr ⟨r, h1, .inl ⟨n, h2⟩⟩)
  · obtain ⟨h4, q, h5, h6⟩ := hx b h3
    exact .inr (.inr ⟨r, h1, .inr ⟨b, ⟨n, h2⟩, _, q, h4, h5, h6⟩⟩)

/-! ### C31 -/

/-- `optimize` returns for every syntax where following first sub rules and references never leads
back to the same rule. -/
theorem C31_returns {syn : Syntax}
    (hac : ∀ x, Part syn.rules x → ¬ Relation.TransGen (ByteCall syn.rules) x x) (hs : SyntaxOk syn) :
    ∃ syn', Optimizes syn syn' := by
  have hcl : Closed syn.rules (Part syn.rules) := ⟨fun q hq => ⟨q, hq, .refl⟩, fun hc ⟨q, hq, hr⟩ =>
    ⟨q, hq, Occurs.trans (.step .refl hc) hr⟩⟩
  have hix : ∀ r, Part syn.rules r → IndexOk syn.rules r := by
    rintro x ⟨q, hq, hx⟩
    exact hs q hq x hx
  have hu : ∀ args id, Part syn.rules (.select args id) → ∃ n x, uniqueTable syn.rules n args = .ok x :=
    fun args id h => uniqueTable_returns fun pre r post e _ =>
      have hr : Part syn.rules r := hcl.child (.select (by simp [e])) h
      uniqueByte_returns hcl hix (byteCall_acc hac hr) hr
  obtain ⟨n, bs, h⟩ := all_map_returns (f := optimizeRule syn.rules)
    (fun hnm h => optimizeRule_mono hnm _ _ h) syn.rules
    (fun r hr => optimizeRule_returns (fun h _ => hcl.child h) hu r (hcl.refs r hr))
  exact ⟨⟨bs, syn.names⟩, n, Comp.bind_ok.2 ⟨bs, h, rfl⟩⟩

/-- In particular for every syntax that the parser can handle without running for ever. -/
theorem C31_returns_well_formed {L : Lexer} {syn : Syntax} {ind : Indent}
    (hw : WellFormed (envOf L syn.rules ind)) (hs : SyntaxOk syn) : ∃ syn', Optimizes syn syn' := by
  refine C31_returns (fun x hx hc => hw.acyclic x hx ?_) hs
  have : ∀ {y z}, Relation.TransGen (ByteCall syn.rules) y z →
      Relation.TransGen (Calls (envOf L syn.rules ind)) y z := by
    intro y z hy
    induction hy with
    | single h => exact byteCall_calls (E := envOf L syn.rules ind) h
    | tail _ h ih => exact ih.trans (byteCall_calls (E := envOf L syn.rules ind) h)
  exact this hc

/-- The result does not depend on anything but the syntax. -/
theorem C31_deterministic {syn syn₁ syn₂ : Syntax} (h₁ : Optimizes syn syn₁)
    (h₂ : Optimizes syn syn₂) : syn₁ = syn₂ := by
  obtain ⟨n, h₁⟩ := h₁
  obtain ⟨m, h₂⟩ := h₂
  obtain ⟨a, ha, ha'⟩ := Comp.bind_ok.1 h₁
  obtain ⟨b, hb, hb'⟩ := Comp.bind_ok.1 h₂
  cases ha'
  cases hb'
  have h1 := Comp.all_mono (fun r _ b hb => optimizeRule_mono (Nat.le_max_left n m) r b hb) ha
  have h2 := Comp.all_mono (fun r _ b hb => optimizeRule_mono (Nat.le_max_right n m) r b hb) hb
  rw [h1] at h2
  cases h2
  rfl

/-- The optimized syntax has as many rules, the same names, and all its indices are in range, so
that it cannot make the parser panic where the original does not. -/
theorem C31_result_ok {syn syn' : Syntax} (h : Optimizes syn syn') (hs : SyntaxOk syn) :
    syn'.names = syn.names ∧ syn'.rules.length = syn.rules.length ∧ SyntaxOk syn' := by
  obtain ⟨n, h⟩ := h
  obtain ⟨rules, h1, h2⟩ := Comp.bind_ok.1 h
  cases h2
  have hsim : SimL syn.rules n (fun _ => True) syn.rules rules :=
    opt_simL syn.rules (by simp) (by rw [optimizeRules_eq]; exact h1)
  refine ⟨rfl, hsim.length.symm, fun r' hr' => ?_⟩
  obtain ⟨k, hk⟩ := List.getElem?_of_mem hr'
  obtain ⟨r, h3, h4⟩ := hsim.get' k r' hk
  exact sim_ruleOk hsim.length h4 (hs r (List.mem_of_getElem? h3))

/-- `unique_byte` never returns on a rule from which it is called on and on. -/
theorem C31_unique_byte_runs_for_ever {refs : List Rule} {S : Rule → Prop}
    (hS : ∀ r, S r → ∃ c, S c ∧ ByteCall refs c r) {r : Rule} (hr : S r) (n : Nat) :
    uniqueByte refs n r = .timeout := by
  induction n generalizing r with
  | zero => simp [uniqueByte]
  | succ n ih =>
    obtain ⟨c, hc, hcall⟩ := hS r hr
    cases hcall with
    | node h => unfold uniqueByte; simp [h, ih hc]
    | _ => unfold uniqueByte; simp [ih hc]

/-- So `optimize` never returns a syntax when such a rule is the first alternative of a select
that is a rule of the syntax. -/
theorem C31_optimize_runs_for_ever {syn : Syntax} {S : Rule → Prop}
    (hS : ∀ r, S r → ∃ c, S c ∧ ByteCall syn.rules c r) {r : Rule} (hr : S r) {rs id}
    (hsel : .select (r :: rs) id ∈ syn.rules) : ¬ ∃ syn', Optimizes syn syn' := by
  rintro ⟨syn', n, h⟩
  obtain ⟨rules, h1, -⟩ := Comp.bind_ok.1 h
  obtain ⟨x, hx⟩ := Comp.all_mem h1 (optimizeRule syn.rules n (.select (r :: rs) id))
    (List.mem_map_of_mem hsel)
  simp only [optimizeRule, optimizeSelect, uniqueTable, uniqueLoop,
    C31_unique_byte_runs_for_ever hS hr] at hx
  simp at hx

/-- Without a panic, running for ever is neither accepting nor rejecting. -/
theorem diverges_iff {L : Lexer} {s : Syntax} {ind : Indent} (hs : SyntaxOk s) {text : Str}
    (hsh : ShortFor ind.tabSpaces text) (toks : List Tok) : ParseDiverges L s text toks ind ↔
      (¬ ∃ toks', Parses L s text toks ind (.ok toks')) ∧
        ¬ ∃ e toks', Parses L s text toks ind (.err e toks') := by
  constructor
  · intro hd
    constructor
    · rintro ⟨toks', h1, n, h2⟩; exact h1 (h2 ▸ hd n)
    · rintro ⟨e, toks', h1, n, h2⟩; exact h1 (h2 ▸ hd n)
  · rintro ⟨h1, h2⟩ n
    cases h3 : parseWithIndent L n s text toks ind with
    | timeout => rfl
    | ok toks' => exact absurd ⟨toks', by simp, n, h3⟩ h1
    | err e toks' => exact absurd ⟨e, toks', by simp, n, h3⟩ h2
    | panic => exact absurd ⟨by simp, n, h3⟩ (C26_no_panic hs (.inl hsh))

/-- And the optimized syntax runs for ever on the same texts. -/
theorem C27_runs_for_ever_the_same_partial {L : Lexer} (hL : L.Lawful) {syn syn' : Syntax}
    {ind : Indent} (h : Optimizes syn syn') (ht : TailsRefused (envOf L syn.rules ind))
    (hs : SyntaxOk syn) {text : Str} (hsh : ShortFor ind.tabSpaces text) (toks : List Tok) :
    ParseDiverges L syn text toks ind ↔ ParseDiverges L syn' text toks ind := by
  rw [diverges_iff hs hsh, diverges_iff (C31_result_ok h hs).2.2 hsh]
  have h1 : (∃ toks', Parses L syn text toks ind (.ok toks')) ↔
      ∃ toks', Parses L syn' text toks ind (.ok toks') :=
    exists_congr fun toks' => C27_accepts_the_same_partial hL h ht text toks toks'
  rw [h1, C27_rejects_the_same_partial hL h ht]

/-! ### A check for the condition -/

/-- A computable check for `TailsRefused`: the alternatives left out of a table cannot match
without reading. -/
def tailsOk (refs : List Rule) (n : Nat) : Bool :=
  let nt := nullTable refs (refs.length + 1)
  refs.all (Rule.all fun x =>
    match x with
    | .select args _ =>
      match uniqueTable refs n args with
      | .ok (_, u) => u < 2 || (args.drop u).all fun b => !b.nullable nt
      | _ => false
    | _ => true)

/-- The check is sound for well-formed syntaxes. -/
theorem C27_check_sound {L : Lexer} (hL : L.Lawful) {syn : Syntax} (ind : Indent) {n : Nat}
    (hw : wellFormed syn.rules = true) (hs : SyntaxOk syn) (h : tailsOk syn.rules n = true) :
    TailsRefused (envOf L syn.rules ind) := by
  rintro args id t u ⟨q, hq, ho⟩ ⟨m, ht⟩ hu b hb
  have h1 := Rule.all_occurs ho (List.all_eq_true.1 h q hq)
  simp only at h1
  cases h2 : uniqueTable syn.rules n args with
  | ok x =>
    cases uniqueTable_det h2 ht
    rw [h2] at h1
    simp only [Bool.or_eq_true, decide_eq_true_eq] at h1
    rcases h1 with h1 | h1
    · omega
    · have hb' := List.all_eq_true.1 h1 b hb
      have hwf : WellFormed (envOf L syn.rules ind) := wellFormed_sound hL hw
      have hpart : Part syn.rules b := ⟨q, hq, Occurs.trans (.step .refl (.select (List.mem_of_mem_drop hb))) ho⟩
      intro off i
      obtain ⟨o, j, tr, hr⟩ := wellFormed_has (E := envOf L syn.rules ind) hL hwf hs hpart ⟨[], off⟩
        (.inl (by simp [ShortFor])) i
      have hj := eof_indent hr rfl
      subst hj
      cases o with
      | none => exact ⟨tr, hr⟩
      | some x =>
        obtain ⟨k, ts⟩ := x
        have hk := ((run_bounded hL hr).1 _ _ rfl).1
        simp at hk
        subst hk
        have ht : tableOk syn.rules (nullTable syn.rules (syn.rules.length + 1)) = true := by
          simp only [wellFormed, Bool.and_eq_true] at hw
          exact hw.1.1
        have := canBeEmpty_nullable (E := envOf L syn.rules ind) hL ht ⟨_, _, _, _, _, hr⟩
        simp [this] at hb'
  | panic => rw [h2] at h1; simp at h1
  | timeout => rw [h2] at h1; simp at h1

/-- `2 value = {"{":"obj" ["[" ..r(0) "]"] .t!:"str" .$:"num" "x":"x"}`, a list of them after it: a
syntax with a select that becomes a table of three alternatives with a tail of two. -/
def exFast : Syntax :=
  ⟨[.select [.tag c!"{" false false (some c!"obj") 1,
      .sequence [.tag c!"[" false false none 2, .node c!"value" (some c!"v") (some 0) 3,
        .tag c!"]" false false none 4] 5,
      .text false (some c!"str") 6, .number (some c!"num") false 7,
      .tag c!"x" false false (some c!"x") 8] 9,
    .separateBy (.node c!"value" (some c!"v") (some 0) 10) (.tag c!"," false false none 11) true true 12],
   [c!"value", c!"doc"]⟩

theorem exFast_ok : SyntaxOk exFast := C26_check_sound (by decide +kernel)

theorem exFast_tails (ind : Indent) : TailsRefused (envOf stdLexer exFast.rules ind) :=
  C27_check_sound stdLexer_lawful ind (n := 9) (by decide +kernel) exFast_ok (by decide +kernel)

/-- The hypotheses can be met by a syntax that is changed by optimizing. -/
example : ∃ syn', Optimizes exFast syn' ∧ (∃ t args id q, syn'.rules = [.fastSelect t args true id, q]) ∧
    ∀ text toks toks', Parses stdLexer exFast text toks Indent.default (.ok toks') ↔
      Parses stdLexer syn' text toks Indent.default (.ok toks') := by
  obtain ⟨syn', h⟩ := C31_returns_well_formed (L := stdLexer) (ind := Indent.default)
    (C25_check_sound stdLexer_lawful _ (by decide +kernel)) exFast_ok
  refine ⟨syn', h, ?_, fun text toks toks' =>
    C27_accepts_the_same_partial stdLexer_lawful h (exFast_tails _) text toks toks'⟩
  have h' : Optimizes exFast ⟨[.fastSelect _ _ true _, _], _⟩ := ⟨9, rfl⟩
  cases C31_deterministic h h'
  exact ⟨_, _, _, _, rfl⟩

/-- The condition is needed.  `{"a" "b" .w?}` matches the empty text; after optimizing it does not,
because the look-up fails at the end of the text before the tail is tried. -/
theorem C27_end_of_text_refuted :
    ∃ syn syn' : Syntax, Optimizes syn syn' ∧
      Parses stdLexer syn c!"" [] Indent.default (.ok []) ∧
      Parses stdLexer syn' c!"" [] Indent.default (.err ⟨⟨0, 0⟩, .expectedSomething 4⟩ []) := by
  refine ⟨⟨[.select [.tag c!"a" false false none 1, .tag c!"b" false false none 2, .whitespace true 3] 4],
    [c!"doc"]⟩, _, ⟨5, rfl⟩, ⟨by simp, 5, by decide +kernel⟩, ⟨by simp, 5, by decide +kernel⟩⟩

/-- A unique byte and its use. -/
example (L : Lexer) (hL : L.Lawful) (ind : Indent) :
    ∃ e, Fails L exFast.rules (.sequence [.tag c!"[" false false none 2] 5) ⟨c!"x", 3⟩ ind e ind ∧
      e.range.next = 3 :=
  C29_unique_byte_sound hL (b := 0x5b) ⟨3, by decide +kernel⟩ _
    (by intro c cs h; cases h; decide +kernel) ind

/-- Left recursion: `1 a = [a "x"]` and a select on `a`. -/
example : ¬ ∃ syn', Optimizes ⟨[.sequence [.node c!"a" none (some 0) 1, .tag c!"x" false false none 2] 3,
    .select [.node c!"a" none (some 0) 4, .tag c!"y" false false none 5] 6], [c!"a", c!"doc"]⟩ syn' :=
  C31_optimize_runs_for_ever
    (S := fun r => r = .sequence [.node c!"a" none (some 0) 1, .tag c!"x" false false none 2] 3 ∨
      ∃ k, r = .node c!"a" none (some 0) k)
    (by
      rintro r (rfl | ⟨k, rfl⟩)
      · exact ⟨_, .inr ⟨1, rfl⟩, .sequence⟩
      · exact ⟨_, .inl rfl, .node rfl⟩)
    (.inr ⟨4, rfl⟩) (List.mem_cons_of_mem _ (List.mem_cons_self))

end Verif.Props
