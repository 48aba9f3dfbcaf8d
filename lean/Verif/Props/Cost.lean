import Verif.Spec.Cost
import Verif.Proofs.CallDepth
import Verif.Proofs.OpenComments
import Verif.Props.Syntax
import Verif.Props.Lines
/-
What parsing costs: C70 (depth of the recursion) and C71 (number of calls).
-/
namespace Verif.Props
open Spec

/-! ### C70: the calls counted are the calls made -/

/-- The result of a call of `Rule::parse` depends on the listed calls only: if they come to the same, so does the
call, and it makes the same calls. -/
theorem C70_no_other_calls {L : Lexer} {refs : List Rule} {f g : Ev} {n : Nat} {c : Call}
    (h : ∀ c' ∈ subcalls L refs f n c, c'.run f = c'.run g) (hne : c.run (step L refs f n) ≠ .timeout) :
    c.run (step L refs g n) = c.run (step L refs f n) ∧ subcalls L refs g n c = subcalls L refs f n c :=
  subcalls_agree (Nat.le_refl _) h hne

/-- Every listed call is made: if it does not return, the call that makes it does not return. -/
theorem C70_calls_made {L : Lexer} {refs : List Rule} {f : Ev} {n : Nat} {c c' : Call}
    (h : c' ∈ subcalls L refs f n c) (hc : c'.run f = .timeout) : c.run (step L refs f n) = .timeout :=
  subcalls_strict h hc

/-- A parse that comes to an end has a cost, and only one; a parse that does not has none. -/
theorem C70_cost_defined {L : Lexer} {syn : Syntax} {text : Str} {toks : List Tok} {ind : Indent}
    (hr : syn.rules ≠ []) :
    (∃ o, Parses L syn text toks ind o) ↔ ∃ m d, Costs L syn text toks ind m d := by
  have hl : ∃ r, syn.rules.getLast? = some r := by
    cases h : syn.rules.getLast? with
    | none => simp at h; exact absurd h hr
    | some r => exact ⟨r, rfl⟩
  obtain ⟨r, hl⟩ := hl
  have hiff : ∀ n, parseWithIndent L n syn text toks ind ≠ .timeout ↔
      eval L syn.rules n r ⟨toks, ind⟩ toks.length (Pos.new text 0) ≠ .timeout := by
    intro n
    unfold parseWithIndent
    rw [hl]
    simp only
    cases eval L syn.rules n r ⟨toks, ind⟩ toks.length (Pos.new text 0) with
    | timeout => simp
    | panic => simp
    | ret x st =>
      cases x with
      | err => simp
      | ok =>
        simp only
        split <;> simp
  constructor
  · rintro ⟨o, ho, n, hn⟩
    refine ⟨_, _, n, _, by simp [firstCall, hl]; rfl, ?_, rfl, rfl⟩
    exact (hiff n).1 (by rw [hn]; exact ho)
  · rintro ⟨m, d, n, c, hc, hne, -⟩
    simp only [firstCall, hl, Option.map_some, Option.some.injEq] at hc
    subst hc
    exact ⟨_, (hiff n).2 hne, n, rfl⟩

theorem C70_cost_unique {L : Lexer} {syn : Syntax} {text : Str} {toks : List Tok} {ind : Indent} {m d m' d' : Nat}
    (h : Costs L syn text toks ind m d) (h' : Costs L syn text toks ind m' d') : m = m' ∧ d = d' := by
  obtain ⟨n, c, hc, hne, rfl, rfl⟩ := h
  obtain ⟨n', c', hc', hne', rfl, rfl⟩ := h'
  rw [hc] at hc'
  cases hc'
  rcases Nat.le_total n n' with hn | hn
  · exact ⟨(callCount_stable hn hne).symm, (callDepth_stable hn hne).symm⟩
  · exact ⟨callCount_stable hn hne', callDepth_stable hn hne'⟩

/-! ### C70: the recursion is at most as deep as the text is long, times the size of the syntax -/

mutual
theorem parts_length : ∀ r : Rule, r.parts.length = ruleSize r
  | .select args _ => by simp [Rule.parts, ruleSize, partsL_length args]; omega
  | .fastSelect _ args _ _ => by simp [Rule.parts, ruleSize, partsL_length args]; omega
  | .sequence args _ => by simp [Rule.parts, ruleSize, partsL_length args]; omega
  | .separateBy r b _ _ _ => by simp [Rule.parts, ruleSize, parts_length r, parts_length b]; omega
  | .repeat_ r _ _ => by simp [Rule.parts, ruleSize, parts_length r]; omega
  | .lines r _ _ => by simp [Rule.parts, ruleSize, parts_length r]; omega
  | .optional r _ => by simp [Rule.parts, ruleSize, parts_length r]; omega
  | .not r _ => by simp [Rule.parts, ruleSize, parts_length r]; omega
  | .whitespace .. | .tag .. | .untilAny .. | .untilAnyOrWs .. | .text .. | .number .. | .node .. => by
    simp [Rule.parts, ruleSize]
theorem partsL_length : ∀ rs : List Rule, (Rule.partsL rs).length = rulesSize rs
  | [] => rfl
  | r :: rs => by simp [Rule.partsL, rulesSize, parts_length r, partsL_length rs]
end

/-- With a well-formed syntax the recursion is never deeper than one level for each rule of the syntax and each
character of the text (and the end of the text). -/
theorem C70_depth_bound {L : Lexer} (hL : L.Lawful) {syn : Syntax} {ind : Indent}
    (hw : WellFormed (envOf L syn.rules ind)) {text : Str} {toks : List Tok} {m d : Nat}
    (h : Costs L syn text toks ind m d) : d ≤ (rulesSize syn.rules + 1) * (text.length + 1) := by
  obtain ⟨n, c, hc, -, -, rfl⟩ := h
  simp only [firstCall, Option.map_eq_some_iff] at hc
  obtain ⟨r, hr, rfl⟩ := hc
  have hp : Part (envOf L syn.rules ind).refs r := ⟨r, List.mem_of_getLast? hr, .refl⟩
  have hM : (Rule.partsL (envOf L syn.rules ind).refs).length = rulesSize syn.rules := partsL_length _
  have hH : ∀ r, Part (envOf L syn.rules ind).refs r → Ht (Calls (envOf L syn.rules ind)) (rulesSize syn.rules) r :=
    fun r hr => hM ▸ wellFormed_ht hw hr
  have h : callDepth L syn.rules n _ ≤ (rulesSize syn.rules + 1) * text.length + rulesSize syn.rules + 1 :=
    callDepth_le (E := envOf L syn.rules ind) hL hH n _
      ⟨r, ⟨toks, ind⟩, toks.length, Pos.new text 0⟩ ⟨⟨ind.indent, rfl⟩, Nat.le_refl _⟩ hp (hH r hp)
  rw [Nat.mul_add]
  omega

/-- The model needs no more fuel than that: with a well-formed syntax the cut off is not reached if it is at least
this large, whatever the text (a panic of the indentation counter aside). -/
theorem C70_fuel_bound {L : Lexer} (hL : L.Lawful) {syn : Syntax} {ind : Indent}
    (hw : WellFormed (envOf L syn.rules ind)) (text : Str) (toks : List Tok) {n : Nat}
    (hn : (rulesSize syn.rules + 2) * (text.length + 1) + rulesSize syn.rules ≤ n) :
    Parses L syn text toks ind (parseWithIndent L n syn text toks ind) := by
  refine ⟨?_, n, rfl⟩
  unfold parseWithIndent
  split
  · simp
  · rename_i r hr
    have hp : Part (envOf L syn.rules ind).refs r := ⟨r, List.mem_of_getLast? hr, .refl⟩
    have hM : (Rule.partsL (envOf L syn.rules ind).refs).length = rulesSize syn.rules := partsL_length _
    have h := rule_inTime (E := envOf L syn.rules ind) hL hw text.length _ r hp (wellFormed_ht hw hp) n (by rw [hM]; exact hn)
      (Pos.new text 0) (Nat.le_refl _) ind.indent toks toks.length (Nat.le_refl _)
    have h' : eval L syn.rules n r ⟨toks, ind⟩ toks.length (Pos.new text 0) ≠ .timeout := h
    cases ho : eval L syn.rules n r ⟨toks, ind⟩ toks.length (Pos.new text 0) with
    | timeout => exact absurd ho h'
    | panic => simp
    | ret x st =>
      cases x with
      | err => simp
      | ok =>
        simp only
        split <;> simp

/-- For the hard-coded rules: parsing a rule file of `n` characters is at most `181 * (n + 1)` levels deep. -/
theorem C70_bootstrap_depth {L : Lexer} (hL : L.Lawful) {ind : Indent} {text : Str} {toks : List Tok} {m d : Nat}
    (h : Costs L bootstrapRules text toks ind m d) : d ≤ 181 * (text.length + 1) := by
  have hsize : rulesSize bootstrapRules.rules = 180 := by decide +kernel
  have := C70_depth_bound hL (C25_check_sound hL ind boot_wellFormed) h
  rwa [hsize] at this

/-! ### Comments that are not closed -/

/-- At the first opening of the text the rule for comments is tried. -/
theorem comment_called {L : Lexer} (hL : L.Lawful) {w : Str} {ws : List Str} {toks : List Tok} {ind : Indent} {n : Nat}
    (hne : Call.run (eval L Boot.refs n) ⟨Boot.document, ⟨toks, ind⟩, toks.length, ⟨openings (w :: ws), 0⟩⟩ ≠ .timeout) :
    ∃ m st, Within L Boot.refs 7 m ⟨Boot.multiLineComment, st, toks.length, ⟨openings (w :: ws), 0⟩⟩ n
      ⟨Boot.document, ⟨toks, ind⟩, toks.length, ⟨openings (w :: ws), 0⟩⟩ := by
  obtain ⟨n, rfl⟩ := ne_zero_of_run hne
  have h1 := within_sub (c' := ⟨.lines (.sequence [.whitespace true 22004, .select
      [.node c!"string" (some c!"string") (some 2) 22006, .node c!"comment" none (some 1) 22007] 22005] 22003) false 22002,
      ⟨toks, ind⟩, toks.length, ⟨openings (w :: ws), 0⟩⟩) hne (by simp [subcalls, Boot.document, sequenceCalls])
  obtain ⟨n, rfl⟩ := ne_zero_of_run h1.1
  have hn : n ≠ 0 := by
    rintro rfl
    exact h1.1 rfl
  obtain ⟨n, rfl⟩ : ∃ m, n = m + 1 := ⟨n - 1, by omega⟩
  have hnext : L.lineNext true [] (openings (w :: ws)) = .call 0 := by
    refine lineNext_call hL ⟨Nat.zero_le _, by simp, .inl rfl, ?_⟩ (by intro t ht; simp at ht) (by simp)
    exact ⟨[], '/', _, by simp [openings]; rfl, by decide, by simp⟩
  have h2 := within_sub (c' := ⟨.sequence [.whitespace true 22004, .select
      [.node c!"string" (some c!"string") (some 2) 22006, .node c!"comment" none (some 1) 22007] 22005] 22003,
      ⟨toks, ind⟩, toks.length, ⟨openings (w :: ws), 0⟩⟩) h1.1 (by
    simp only [subcalls, linesCalls, hnext, List.mem_append]
    left
    simp [lineClosureCalls])
  have hws : eval L Boot.refs n (.whitespace true 22004) ⟨toks, ind⟩ toks.length ⟨openings (w :: ws), 0⟩ = .timeout ∨
      eval L Boot.refs n (.whitespace true 22004) ⟨toks, ind⟩ toks.length ⟨openings (w :: ws), 0⟩ =
        .ret (.ok ⟨0, 0⟩ toks.length none) ⟨toks, ind⟩ := by
    cases n with
    | zero => exact .inl rfl
    | succ n =>
      refine .inr ?_
      have : isWs '/' = false := by decide
      simp [eval, step, evalWhitespace, Pos.whitespace, openings, Pos.peek, this]
  have hmem : ∀ c', c' ∈ sequenceCalls (eval L Boot.refs n) [.whitespace true 22004, .select
      [.node c!"string" (some c!"string") (some 2) 22006, .node c!"comment" none (some 1) 22007] 22005]
      ⟨openings (w :: ws), 0⟩ toks.length ⟨toks, ind⟩ → _ := fun c' h => within_sub h2.1 (c' := c') h
  have hws' := (hmem ⟨.whitespace true 22004, ⟨toks, ind⟩, toks.length, ⟨openings (w :: ws), 0⟩⟩ (by simp [sequenceCalls])).1
  have hws := hws.resolve_left hws'
  have h3 := hmem ⟨.select [.node c!"string" (some c!"string") (some 2) 22006, .node c!"comment" none (some 1) 22007] 22005,
    ⟨toks, ind⟩, toks.length, ⟨openings (w :: ws), 0⟩⟩ (by simp [sequenceCalls, hws, Pos.consume])
  obtain ⟨n, rfl⟩ := ne_zero_of_run h3.1
  have hstr : eval L Boot.refs n (.node c!"string" (some c!"string") (some 2) 22006) ⟨toks, ind⟩ toks.length ⟨openings (w :: ws), 0⟩ = .timeout ∨
      ∃ e st', eval L Boot.refs n (.node c!"string" (some c!"string") (some 2) 22006) ⟨toks, ind⟩ toks.length ⟨openings (w :: ws), 0⟩ =
        .ret (.err e) st' := by
    cases n with
    | zero => exact .inl rfl
    | succ n =>
      have hs : ∀ st s, Nope (eval L Boot.refs n) Boot.string st s ⟨openings (w :: ws), 0⟩ := fun st s =>
        nope_seq_head fun m => nope_tag (by simp [openings, List.isPrefixOf])
      simp only [eval, step, evalNode, Boot.refs, List.getElem?_cons_succ, List.getElem?_cons_zero]
      rcases hs (pushOpt (some c!"string") .startNode (Pos.start ⟨openings (w :: ws), 0⟩) ⟨toks, ind⟩ toks.length).1
        (pushOpt (some c!"string") .startNode (Pos.start ⟨openings (w :: ws), 0⟩) ⟨toks, ind⟩ toks.length).2 with h | ⟨e, h⟩
      · exact .inl (by simp only [Boot.refs] at h; rw [h])
      · exact .inr ⟨_, _, by simp only [Boot.refs] at h; rw [h]⟩
  have hmem : ∀ c', c' ∈ selectCalls (eval L Boot.refs n) toks.length ⟨openings (w :: ws), 0⟩
      [.node c!"string" (some c!"string") (some 2) 22006, .node c!"comment" none (some 1) 22007] ⟨toks, ind⟩ → _ :=
    fun c' h => within_sub h3.1 (c' := c') h
  have hstr' := (hmem ⟨.node c!"string" (some c!"string") (some 2) 22006, ⟨toks, ind⟩, toks.length, ⟨openings (w :: ws), 0⟩⟩ (by simp [selectCalls])).1
  obtain ⟨e, st, hstr⟩ := hstr.resolve_left hstr'
  have h4 := hmem ⟨.node c!"comment" none (some 1) 22007, st, toks.length, ⟨openings (w :: ws), 0⟩⟩ (by simp [selectCalls, hstr])
  obtain ⟨n, rfl⟩ := ne_zero_of_run h4.1
  have h5 := within_sub (c' := ⟨Boot.comment, st, toks.length, ⟨openings (w :: ws), 0⟩⟩) h4.1
    (by simp [subcalls, nodeCalls, Boot.refs, pushOpt])
  obtain ⟨n, rfl⟩ := ne_zero_of_run h5.1
  have h6 := within_sub (c' := ⟨.node c!"multi_line_comment" none (some 0) 1002, st, toks.length, ⟨openings (w :: ws), 0⟩⟩) h5.1
    (by simp [subcalls, Boot.comment, selectCalls])
  obtain ⟨n, rfl⟩ := ne_zero_of_run h6.1
  have h7 := within_sub (c' := ⟨Boot.multiLineComment, st, toks.length, ⟨openings (w :: ws), 0⟩⟩) h6.1
    (by simp [subcalls, nodeCalls, Boot.refs, pushOpt])
  exact ⟨n, st, (((((h7.trans h6).trans h5).trans h4).trans h3).trans h2).trans h1⟩

/-- What a rule file costs that opens comments and closes none, each followed by at least one other character. -/
theorem openings_cost {L : Lexer} (hL : L.Lawful) {ws : List Str} (hw : ws ≠ []) (hf : ∀ w ∈ ws, Filler w)
    {toks : List Tok} {ind : Indent} {m d : Nat} (h : Costs L bootstrapRules (openings ws) toks ind m d) :
    2 ^ ws.length ≤ m ∧ 5 * ws.length ≤ d := by
  obtain ⟨n, c, hc, hne, rfl, rfl⟩ := h
  have hc' : firstCall bootstrapRules (openings ws) toks ind =
    some ⟨Boot.document, ⟨toks, ind⟩, toks.length, ⟨openings ws, 0⟩⟩ := rfl
  rw [hc'] at hc
  cases hc
  rw [Boot.rules_eq] at hne ⊢
  cases ws with
  | nil => exact absurd rfl hw
  | cons w ws =>
    obtain ⟨m, st, h1⟩ := comment_called hL hne
    have h2 := comment_cost (refs := Boot.refs) rfl hf h1.1
    have h3 := h1.2.1
    have h4 := h1.2.2
    simp only [List.length_cons]
    omega

/-- C70: no depth is enough for all rule files: with comments opened and not closed, `k` openings are at least `5 * k`
levels deep. -/
theorem C70_bootstrap_deep {L : Lexer} (hL : L.Lawful) {ws : List Str} (hw : ws ≠ []) (hf : ∀ w ∈ ws, Filler w)
    {toks : List Tok} {ind : Indent} {m d : Nat} (h : Costs L bootstrapRules (openings ws) toks ind m d) :
    5 * ws.length ≤ d := (openings_cost hL hw hf h).2

/-- C71: the hard-coded rules take exponential time on rule files that open comments and do not close them: every
opening doubles the number of calls. -/
theorem C71_bootstrap_exponential {L : Lexer} (hL : L.Lawful) {ws : List Str} (hw : ws ≠ []) (hf : ∀ w ∈ ws, Filler w)
    {toks : List Tok} {ind : Indent} {m d : Nat} (h : Costs L bootstrapRules (openings ws) toks ind m d) :
    2 ^ ws.length ≤ m := (openings_cost hL hw hf h).1

/-- `/* ` written `k` times. -/
theorem openings_length (k : Nat) : (openings (List.replicate k [' '])).length = 3 * k := by
  induction k with
  | zero => rfl
  | succ k ih => simp [List.replicate_succ, openings, ih]; omega

/-- C71: a rule file of `3 * k` characters for which `parse` comes back only after `2 ^ k` calls or more. -/
theorem C71_short_file {L : Lexer} (hL : L.Lawful) (k : Nat) (hk : k ≠ 0) (toks : List Tok) (ind : Indent) :
    ∃ text : Str, text.length = 3 * k ∧ ∃ m d, Costs L bootstrapRules text toks ind m d ∧ 2 ^ k ≤ m ∧ 5 * k ≤ d := by
  refine ⟨openings (List.replicate k [' ']), openings_length k, ?_⟩
  have hret : ∃ o, Parses L bootstrapRules (openings (List.replicate k [' '])) toks ind o := by
    rcases C46_bootstrap_returns hL (openings (List.replicate k [' '])) toks ind with ⟨toks', h⟩ | ⟨e, toks', h⟩
    · exact ⟨_, h⟩
    · exact ⟨_, h⟩
  obtain ⟨m, d, h⟩ := (C70_cost_defined (by rw [Boot.rules_eq]; simp [Boot.refs])).1 hret
  have hf : ∀ w ∈ List.replicate k [' '], Filler w := by
    intro w hw
    rw [List.eq_of_mem_replicate hw]
    exact ⟨by simp, by decide⟩
  have := openings_cost hL (by simpa using hk) hf h
  simp only [List.length_replicate] at this
  exact ⟨m, d, h, this⟩

/-- Forty unclosed comments, 120 characters: more than a million million calls. -/
example : ∃ text : Str, text.length = 120 ∧ ∃ m d, Costs stdLexer bootstrapRules text [] Indent.default m d ∧ 1000000000000 ≤ m := by
  obtain ⟨text, h1, m, d, h2, h3, -⟩ := C71_short_file stdLexer_lawful 40 (by decide) [] Indent.default
  exact ⟨text, h1, m, d, h2, Nat.le_trans (by decide) h3⟩

/-- Small cases, counted: one opening costs 56 calls, 14 of them open at the same time; two cost 114, and 19. -/
example : Costs stdLexer bootstrapRules c!"/* " [] Indent.default 56 14 :=
  ⟨16, ⟨Boot.document, ⟨[], Indent.default⟩, 0, ⟨c!"/* ", 0⟩⟩, rfl, by rw [Boot.rules_eq]; decide +kernel,
    by rw [Boot.rules_eq]; decide +kernel, by rw [Boot.rules_eq]; decide +kernel⟩
example : Costs stdLexer bootstrapRules c!"/* /* " [] Indent.default 114 19 :=
  ⟨20, ⟨Boot.document, ⟨[], Indent.default⟩, 0, ⟨c!"/* /* ", 0⟩⟩, rfl, by rw [Boot.rules_eq]; decide +kernel,
    by rw [Boot.rules_eq]; decide +kernel, by rw [Boot.rules_eq]; decide +kernel⟩

end Verif.Props
