import Verif.Proofs.OptGuard
import Verif.Props.Syntax
/-
What optimizing changes, for every syntax: C55.
-/
namespace Verif.Props
open Spec

theorem optimizes_guarded_simL {syn syn' syng : Syntax} {Q : Rule → Prop} (h : Optimizes syn syn')
    (hg : SyntaxGuarded syn syng) : ∃ n, SimL syng.rules n Q syng.rules syn'.rules := by
  obtain ⟨n, h⟩ := h
  obtain ⟨rules, h1, h2⟩ := Comp.bind_ok.1 h
  cases h2
  have h3 := Comp.all_mono
    (fun r _ b hb => optimizeRule_mono (Nat.le_max_left n 3) r b hb) h1
  exact ⟨max n 3, opt_guarded_simL hg.2 (Nat.le_max_right n 3)
    (by rw [optimizeRules_eq]; exact h3) hg.2⟩

/-- Every syntax that can be optimized has exactly one guarded syntax. -/
theorem C55_guarded_unique {syn syn' : Syntax} (h : Optimizes syn syn') :
    ∃ syng, SyntaxGuarded syn syng ∧ ∀ s, SyntaxGuarded syn s → s = syng := by
  obtain ⟨n, h⟩ := h
  obtain ⟨rules, h1, -⟩ := Comp.bind_ok.1 h
  obtain ⟨gs, hg⟩ := opt_guardedL (refs := syn.rules) (by rw [optimizeRules_eq]; exact h1)
  refine ⟨⟨gs, syn.names⟩, ⟨rfl, hg⟩, ?_⟩
  rintro ⟨gs', names⟩ ⟨rfl, hg'⟩
  cases hg.det hg'
  rfl

/-- The optimized syntax accepts what the guarded syntax accepts, with the same data. -/
theorem C55_accepts {L : Lexer} (hL : L.Lawful) {syn syn' syng : Syntax} (h : Optimizes syn syn')
    (hg : SyntaxGuarded syn syng) (ind : Indent) (text : Str) (toks toks' : List Tok) :
    Parses L syn' text toks ind (.ok toks') ↔ Parses L syng text toks ind (.ok toks') := by
  obtain ⟨n, hs⟩ := optimizes_guarded_simL h hg
  exact (accepts_sim hL hs text toks toks').symm

/-- It rejects what the guarded syntax rejects. -/
theorem C55_rejects {L : Lexer} (hL : L.Lawful) {syn syn' syng : Syntax} (h : Optimizes syn syn')
    (hg : SyntaxGuarded syn syng) (ind : Indent) (text : Str) (toks : List Tok) :
    (∃ e toks', Parses L syn' text toks ind (.err e toks')) ↔
      ∃ e toks', Parses L syng text toks ind (.err e toks') := by
  obtain ⟨n, hs⟩ := optimizes_guarded_simL h hg
  exact (rejects_sim hL hs text toks).symm

/-- And the error it reports ends where that of the guarded syntax does. -/
theorem C55_error_place {L : Lexer} (hL : L.Lawful) {syn syn' syng : Syntax} (h : Optimizes syn syn')
    (hg : SyntaxGuarded syn syng) {ind : Indent} {text : Str} {toks toks₁ toks₂ : List Tok} {e e' : RErr}
    (h1 : Parses L syn' text toks ind (.err e toks₁))
    (h2 : Parses L syng text toks ind (.err e' toks₂)) : e.range.next = e'.range.next := by
  obtain ⟨n, hs⟩ := optimizes_guarded_simL h hg
  exact (error_place_sim hL hs h2 h1).symm

/-- And it runs for ever on the same texts. -/
theorem C55_runs_for_ever {L : Lexer} (hL : L.Lawful) {syn syn' syng : Syntax} (h : Optimizes syn syn')
    (hg : SyntaxGuarded syn syng) (hs : SyntaxOk syn) {ind : Indent} {text : Str}
    (hsh : ShortFor ind.tabSpaces text) (toks : List Tok) :
    ParseDiverges L syn' text toks ind ↔ ParseDiverges L syng text toks ind := by
  have hok : SyntaxOk syng := by
    intro g hm
    exact guarded_ruleOkL (by rw [hg.2.length]) hg.2 (fun r hr => hs r hr) g hm
  rw [diverges_iff (C31_result_ok h hs).2.2 hsh, diverges_iff hok hsh, C55_rejects hL h hg]
  have : (∃ toks', Parses L syn' text toks ind (.ok toks')) ↔
      ∃ toks', Parses L syng text toks ind (.ok toks') :=
    exists_congr fun toks' => C55_accepts hL h hg ind text toks toks'
  rw [this]

/-- What the guard means: it is refused at the end of the text. -/
theorem C55_guard_at_end (L : Lexer) (refs : List Rule) (r : Rule) (off : Nat) (ind : Indent) :
    ∃ e, Fails L refs (notAtEnd r) ⟨[], off⟩ ind e ind := by
  obtain ⟨tr, h⟩ := guard_endRefused (envOf L refs ind) r off ind.indent
  obtain ⟨e, he⟩ := run_none_trace h
  exact ⟨e, fails_iff.2 ⟨_, tr, h, rfl, best_iff.1 he⟩⟩

/-- What the guard means: anywhere else it does what the rule does. -/
theorem C55_guard_elsewhere (L : Lexer) (refs : List Rule) (r : Rule) {p : Pos} (hp : p.src ≠ [])
    (ind : Indent) :
    (∀ n ts ind' err, Succeeds L refs (notAtEnd r) p ind n ts ind' err ↔
      Succeeds L refs r p ind n ts ind' err) ∧
    (∀ e ind', Fails L refs (notAtEnd r) p ind e ind' ↔ Fails L refs r p ind e ind') := by
  refine ⟨fun n ts ind' err => ?_, fun e ind' => ?_⟩
  · rw [succeeds_iff, succeeds_iff]; simp only [guard_iff hp]
  · rw [fails_iff, fails_iff]; simp only [guard_iff hp]

/-- The syntax `{"a" "b" .w?}`, which matches the empty text. -/
def exEnd : Syntax :=
  ⟨[.select [.tag c!"a" false false none 1, .tag c!"b" false false none 2, .whitespace true 3] 4],
    [c!"doc"]⟩

/-- Its guarded syntax. -/
def exEndGuarded : Syntax :=
  ⟨[.select [.tag c!"a" false false none 1, .tag c!"b" false false none 2,
    notAtEnd (.whitespace true 3)] 4], [c!"doc"]⟩

theorem exEnd_guarded : SyntaxGuarded exEnd exEndGuarded :=
  ⟨rfl, .cons (.guarded (u := 2) ⟨5, rfl⟩ (by decide) (by decide)
    (.cons .tag (.cons .tag (.cons .whitespace .nil)))) .nil⟩

example : ∃ syn', Optimizes exEnd syn' ∧ (∃ t args id, syn'.rules = [.fastSelect t args true id]) ∧
    (∀ text toks toks', Parses stdLexer syn' text toks Indent.default (.ok toks') ↔
      Parses stdLexer exEndGuarded text toks Indent.default (.ok toks')) ∧
    Parses stdLexer exEndGuarded c!"  " [] Indent.default (.ok []) ∧
    Parses stdLexer exEnd c!"" [] Indent.default (.ok []) ∧
    ¬ Parses stdLexer exEndGuarded c!"" [] Indent.default (.ok []) := by
  have h : Optimizes exEnd ⟨[.fastSelect _ _ true _], _⟩ := ⟨5, rfl⟩
  refine ⟨_, h, ⟨_, _, _, rfl⟩, C55_accepts stdLexer_lawful h exEnd_guarded Indent.default,
    ⟨by simp, 9, by decide +kernel⟩, ⟨by simp, 9, by decide +kernel⟩, ?_⟩
  intro h1
  have h2 : Parses stdLexer exEndGuarded c!"" [] Indent.default (.err ⟨⟨0, 0⟩, .didNotExpectTag [] 0⟩ []) :=
    ⟨by simp, 9, by decide +kernel⟩
  have := parses_det h1 h2
  simp at this

end Verif.Props
