import Verif.Proofs.Peg
import Verif.Proofs.PegRule
import Verif.Proofs.PegAbc
import Verif.Proofs.PegOpt
import Verif.Props.OptExact
/-
C91: rules are parsing expression grammars, and the other way round.
-/
namespace Verif.Props
open Spec

/-! ### The rules of a syntax -/

/-- What the last rule of a syntax without lines and tables does to a text is what its parsing expression does. -/
theorem C91_rule {L : Lexer} {syn : Syntax} {ind : Indent} (hf : ∀ q ∈ syn.rules, Bare q) {r : Rule} (hr : Bare r) {p : Pos} {i : Nat}
    {x : Option Nat} :
    (∃ o j tr, Run (envOf L syn.rules ind) (.rule r) p i o j tr ∧ o.map (·.1) = x) ↔
      Peg.Matches (syn.rules.map (pegOf L)) (pegOf L r) p.src x := by
  constructor
  · rintro ⟨o, j, tr, h, rfl⟩
    exact (run_matches (E := envOf L syn.rules ind) hf h (by simpa [BareG, Goal.rules] using hr)).1
  · intro h
    obtain ⟨o, tr, h1, h2⟩ := matches_run (E := envOf L syn.rules ind) hf h (.rule r) (by simpa [BareG, Goal.rules] using hr) rfl p i rfl
    exact ⟨o, i, tr, h1, h2⟩

/-- The texts accepted are those of the parsing expression grammar. -/
theorem C91_accepted {L : Lexer} (hL : L.Lawful) {syn : Syntax} {text : Str} {toks : List Tok} {ind : Indent}
    (hf : ∀ q ∈ syn.rules, Bare q) :
    (∃ toks', Parses L syn text toks ind (.ok toks')) ↔
      ∃ r, syn.rules.getLast? = some r ∧ Peg.Matches (syn.rules.map (pegOf L)) (pegOf L r) text (some text.length) := by
  constructor
  · rintro ⟨toks', h⟩
    obtain ⟨ts, ⟨r, j, tr, hr, h⟩, -⟩ := (C04_ok_iff_meaning hL).1 h
    exact ⟨r, hr, (C91_rule (p := ⟨text, 0⟩) hf (hf r (List.mem_of_getLast? hr))).1 ⟨_, _, _, h, rfl⟩⟩
  · rintro ⟨r, hr, h⟩
    obtain ⟨o, j, tr, h, ho⟩ := (C91_rule (ind := ind) (p := ⟨text, 0⟩) (i := ind.indent) hf (hf r (List.mem_of_getLast? hr))).2 h
    cases o with
    | none => cases ho
    | some y =>
      obtain ⟨n, ts⟩ := y
      cases ho
      exact ⟨_, (C04_ok_iff_meaning hL).2 ⟨ts, ⟨r, j, tr, hr, h⟩, rfl⟩⟩

/-- The texts rejected are those that the grammar fails on or reads a part of only. -/
theorem C91_rejected {L : Lexer} {syn : Syntax} {text : Str} {toks : List Tok} {ind : Indent} (hf : ∀ q ∈ syn.rules, Bare q) :
    (∃ e toks', Parses L syn text toks ind (.err e toks')) ↔ syn.rules = [] ∨
      ∃ r x, syn.rules.getLast? = some r ∧ Peg.Matches (syn.rules.map (pegOf L)) (pegOf L r) text x ∧ ∀ n, x = some n → n < text.length := by
  rw [C04_err_iff_meaning]
  constructor
  · rintro ⟨tr, h⟩
    cases h with
    | noRules h => exact .inl h
    | fails hr h => exact .inr ⟨_, none, hr, (C91_rule (p := ⟨text, 0⟩) hf (hf _ (List.mem_of_getLast? hr))).1 ⟨_, _, _, h, rfl⟩, by simp⟩
    | @short r n ts j tr hr h hn =>
      exact .inr ⟨_, some n, hr, (C91_rule (p := ⟨text, 0⟩) hf (hf _ (List.mem_of_getLast? hr))).1 ⟨_, _, _, h, rfl⟩, by simpa using hn⟩
  · rintro (h | ⟨r, x, hr, h, hx⟩)
    · exact ⟨_, .noRules h⟩
    · obtain ⟨o, j, tr, h, ho⟩ := (C91_rule (ind := ind) (p := ⟨text, 0⟩) (i := ind.indent) hf (hf r (List.mem_of_getLast? hr))).2 h
      cases o with
      | none => exact ⟨_, .fails hr h⟩
      | some y =>
        obtain ⟨n, ts⟩ := y
        exact ⟨_, .short hr h (hx n ho.symm)⟩

/-- Without lines the settings for indentation do not matter. -/
theorem C91_indent {L : Lexer} (hL : L.Lawful) {syn : Syntax} {text : Str} {toks toks' : List Tok} {ind ind' : Indent}
    (hf : ∀ q ∈ syn.rules, Bare q) :
    ((∃ t, Parses L syn text toks ind (.ok t)) ↔ ∃ t, Parses L syn text toks' ind' (.ok t)) ∧
      ((∃ e t, Parses L syn text toks ind (.err e t)) ↔ ∃ e t, Parses L syn text toks' ind' (.err e t)) :=
  ⟨by rw [C91_accepted hL hf, C91_accepted hL hf], by rw [C91_rejected hf, C91_rejected hf]⟩

/-- After optimizing the texts accepted are those of the grammar with guards. -/
theorem C91_optimized {L : Lexer} (hL : L.Lawful) {syn syn' syng : Syntax} (hf : ∀ q ∈ syn.rules, Bare q) (h : Optimizes syn syn')
    (hg : SyntaxGuarded syn syng) {text : Str} {toks : List Tok} {ind : Indent} :
    (∃ toks', Parses L syn' text toks ind (.ok toks')) ↔
      ∃ r, syng.rules.getLast? = some r ∧ Peg.Matches (syng.rules.map (pegOf L)) (pegOf L r) text (some text.length) := by
  rw [← C91_accepted hL (guarded_flatL hg.2 hf)]
  exact exists_congr fun toks' => C55_accepts hL h hg ind text toks toks'

/-! ### The other way round -/

/-- A grammar as a syntax.  The last expression is the start. -/
def grammar (G : List Peg) : Syntax := ⟨G.map ruleOf, G.map fun _ => []⟩

/-- Every parsing expression grammar can be written as rules, which accept its texts. -/
theorem C91_grammar {L : Lexer} (hL : L.Lawful) {G : List Peg} (hG : ∀ e ∈ G, e.Pure) {text : Str} {toks : List Tok} {ind : Indent} :
    (∃ toks', Parses L (grammar G) text toks ind (.ok toks')) ↔
      ∃ e, G.getLast? = some e ∧ Peg.Matches G e text (some text.length) := by
  rw [C91_accepted hL (by simpa [grammar] using fun e _ => ruleOf_flat e)]
  simp only [grammar, List.getLast?_map, List.map_map, Function.comp_def, Option.map_eq_some_iff]
  constructor
  · rintro ⟨_, ⟨e, he, rfl⟩, h⟩
    exact ⟨e, he, (ruleOf_matches hG (hG e (List.mem_of_getLast? he))).1 h⟩
  · rintro ⟨e, he, h⟩
    exact ⟨_, ⟨e, he, rfl⟩, (ruleOf_matches (L := L) hG (hG e (List.mem_of_getLast? he))).2 h⟩

/-- They reject the texts that the grammar fails on or reads a part of only, and run for ever on the rest. -/
theorem C91_grammar_rejected {L : Lexer} {G : List Peg} (hG : ∀ e ∈ G, e.Pure) {text : Str} {toks : List Tok} {ind : Indent} :
    (∃ e toks', Parses L (grammar G) text toks ind (.err e toks')) ↔ G = [] ∨
      ∃ e x, G.getLast? = some e ∧ Peg.Matches G e text x ∧ ∀ n, x = some n → n < text.length := by
  rw [C91_rejected (by simpa [grammar] using fun e _ => ruleOf_flat e)]
  simp only [grammar, List.getLast?_map, List.map_map, Function.comp_def, Option.map_eq_some_iff, List.map_eq_nil_iff]
  refine or_congr .rfl ?_
  constructor
  · rintro ⟨_, x, ⟨e, he, rfl⟩, h, hx⟩
    exact ⟨e, x, he, (ruleOf_matches hG (hG e (List.mem_of_getLast? he))).1 h, hx⟩
  · rintro ⟨e, x, he, h, hx⟩
    exact ⟨_, x, ⟨e, he, rfl⟩, (ruleOf_matches (L := L) hG (hG e (List.mem_of_getLast? he))).2 h, hx⟩

/-! ### A language that is not context free -/

/-- `x`, the rule itself or nothing, `y`. -/
def nestedRule (x y : Char) (ix : Nat) : Rule :=
  .sequence [.tag [x] false false none 1, .optional (.node c!"nested" none (some ix) 2) 3, .tag [y] false false none 4] 5

/-- Rules for as many `a` as `b` as `c`. -/
def abcSyntax : Syntax where
  rules := [nestedRule 'a' 'b' 0, nestedRule 'b' 'c' 1,
    .sequence [.not (.not (.sequence [.node c!"ab" none (some 0) 6, .tag c!"c" false false none 7] 8) 9) 10,
      .repeat_ (.tag c!"a" false false none 11) false 12, .node c!"bc" none (some 1) 13] 14]
  names := [c!"ab", c!"bc", c!"document"]

theorem abc_flat : ∀ q ∈ abcSyntax.rules, Bare q := by
  have : ∀ q ∈ abcSyntax.rules, flatB q = true := by decide
  exact fun q hq => flatB_flat (this q hq)

/-- The texts accepted are those with as many `a` as `b` as `c`, at least one of each. -/
theorem C91_abc {L : Lexer} (hL : L.Lawful) {text : Str} {toks : List Tok} {ind : Indent} :
    (∃ toks', Parses L abcSyntax text toks ind (.ok toks')) ↔
      ∃ n, n ≠ 0 ∧ text = List.replicate n 'a' ++ (List.replicate n 'b' ++ List.replicate n 'c') := by
  rw [C91_accepted hL abc_flat]
  have := abc_whole (G := abcSyntax.rules.map (pegOf L)) (e := pegOf L (abcSyntax.rules.getLast (by simp [abcSyntax]))) rfl rfl rfl
    (text := text)
  rw [← this]
  simp [abcSyntax]

example : Parses stdLexer abcSyntax c!"aabbcc" [] Indent.default (.ok []) ∧
    Parses stdLexer abcSyntax c!"aabbccc" [] Indent.default (.err ⟨⟨6, 0⟩, .expectedEnd⟩ []) :=
  ⟨⟨by simp, 20, by decide +kernel⟩, by simp, 20, by decide +kernel⟩

-- a list with a separator as an expression
example (L : Lexer) : pegOf L (.separateBy (.tag c!"x" false false none 1) (.tag c!"," false false none 2) false true 3) =
    .seq (.seq (.char (· == 'x')) .empty)
      (.seq (.star (.seq (.seq (.char (· == ',')) .empty) (.seq (.seq (.char (· == 'x')) .empty) .empty)))
        (.alt (.seq (.char (· == ',')) .empty) .empty)) := rfl

-- `[a-z]+ !.` and a text that goes on
example (L : Lexer) (hL : L.Lawful) :
    (∃ t, Parses L (grammar [.plus (.char Char.isLower)]) c!"abc" [] Indent.default (.ok t)) ∧
      ∃ e t, Parses L (grammar [.plus (.char Char.isLower)]) c!"ab1" [] Indent.default (.err e t) := by
  have hG : ∀ e ∈ [Peg.plus (.char Char.isLower)], e.Pure := by simp [Peg.plus, Peg.Pure]
  refine ⟨(C91_grammar hL hG).2 ⟨_, rfl, .seq (o := some 2) (.char_ok rfl) (.star_more (o := some 1) (.char_ok rfl)
    (.star_more (o := some 0) (.char_ok rfl) (.star_stop .char_end)))⟩, ?_⟩
  exact (C91_grammar_rejected hG).2 (.inr ⟨_, some 2, rfl, .seq (o := some 1) (.char_ok rfl) (.star_more (o := some 0) (.char_ok rfl)
    (.star_stop (.char_no rfl))), by simp⟩)

-- the optimizer takes alternatives at the end of the text away
example : ∃ syn', Optimizes exEnd syn' ∧
    ¬ (∃ t, Parses stdLexer syn' [] [] Indent.default (.ok t)) ∧
    Peg.Matches [] (pegOf stdLexer (exEnd.rules.getLast (by decide))) [] (some 0) := by
  have h : Optimizes exEnd ⟨[.fastSelect _ _ true _], _⟩ := ⟨5, rfl⟩
  refine ⟨_, h, ?_, .alt_next (word_no (by simp)) (.alt_next (word_no (by simp)) (.alt_first (.star_stop .char_end)))⟩
  rw [C91_optimized stdLexer_lawful (by exact fun q hq => flatB_flat ((by decide : ∀ q ∈ exEnd.rules, flatB q = true) q hq)) h exEnd_guarded]
  rintro ⟨r, hr, hm⟩
  cases hr
  have : Peg.Matches (exEndGuarded.rules.map (pegOf stdLexer)) (pegOf stdLexer (exEndGuarded.rules.getLast (by decide))) [] none :=
    .alt_next (word_no (by simp)) (.alt_next (word_no (by simp)) (.alt_next (.seq_no (.neg_no (.neg_ok (.seq_no .char_end)))) fail_matches))
  cases hm.det this

end Verif.Props
