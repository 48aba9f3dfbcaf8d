import Verif.Model.Eval
import Verif.Spec.Run
/-
The calls a user makes, without fuel, and what the documented meaning says about a whole parse.
-/
namespace Verif.Spec

/-- The fixed part of a parse with settings `ind`. -/
def envOf (L : Lexer) (refs : List Rule) (ind : Indent) : Env :=
  ⟨L, refs, ind.alignFirst, ind.tabSpaces⟩

/-- `parse_with_indent(syn, text, &mut toks, &ind)` returns (or panics) with this outcome: some cut
off is large enough to see it. -/
def Parses (L : Lexer) (syn : Syntax) (text : Str) (toks : List Tok) (ind : Indent) (o : POut) :
    Prop :=
  o ≠ .timeout ∧ ∃ n, parseWithIndent L n syn text toks ind = o

/-- `parse_with_indent` runs for ever: no cut off is large enough. -/
def ParseDiverges (L : Lexer) (syn : Syntax) (text : Str) (toks : List Tok) (ind : Indent) : Prop :=
  ∀ n, parseWithIndent L n syn text toks ind = .timeout

/-- The documented meaning of accepting a text: the last rule matches all of it, with data `ts`. -/
def Accepts (L : Lexer) (syn : Syntax) (text : Str) (ind : Indent) (ts : List Tok) : Prop :=
  ∃ r j tr, syn.rules.getLast? = some r ∧
    Run (envOf L syn.rules ind) (.rule r) ⟨text, 0⟩ ind.indent (some (text.length, ts)) j tr

/-- The elementary failures met while rejecting a text: those of the last rule if it fails, and
one more, `ExpectedEnd`, if it matches only the first `n` characters. -/
inductive Rejects (L : Lexer) (syn : Syntax) (text : Str) (ind : Indent) : List RErr → Prop
  | noRules (h : syn.rules = []) : Rejects L syn text ind [⟨⟨0, 0⟩, .noRules⟩]
  | fails {r j tr} (hr : syn.rules.getLast? = some r)
      (h : Run (envOf L syn.rules ind) (.rule r) ⟨text, 0⟩ ind.indent none j tr) :
      Rejects L syn text ind tr
  | short {r n ts j tr} (hr : syn.rules.getLast? = some r)
      (h : Run (envOf L syn.rules ind) (.rule r) ⟨text, 0⟩ ind.indent (some (n, ts)) j tr)
      (hn : n < text.length) :
      Rejects L syn text ind (tr ++ [⟨⟨n, 0⟩, .expectedEnd⟩])

/-- `Rule::parse` for rule `r` at `p`, with settings `ind`, returns Ok: `n` characters read, data
`ts` recorded after whatever the vector held up to the state, `ind'` the settings afterwards,
`err` the error kept for later.  Holds for every vector and state, and for every large cut off. -/
def Succeeds (L : Lexer) (refs : List Rule) (r : Rule) (p : Pos) (ind : Indent) (n : Nat)
    (ts : List Tok) (ind' : Indent) (err : Option RErr) : Prop :=
  ∀ toks s, s ≤ toks.length → ∃ N s' toks', s' ≤ toks'.length ∧
    toks'.take s' = toks.take s ++ ts ∧ ∀ m, N ≤ m →
      eval L refs m r ⟨toks, ind⟩ s p = .ret (.ok ⟨p.off, n⟩ s' err) ⟨toks', ind'⟩

/-- `Rule::parse` for rule `r` at `p`, with settings `ind`, returns Err(`e`), with settings `ind'`
afterwards and what the vector held up to the state untouched. -/
def Fails (L : Lexer) (refs : List Rule) (r : Rule) (p : Pos) (ind : Indent) (e : RErr)
    (ind' : Indent) : Prop :=
  ∀ toks s, s ≤ toks.length → ∃ N toks', s ≤ toks'.length ∧ toks'.take s = toks.take s ∧
    ∀ m, N ≤ m → eval L refs m r ⟨toks, ind⟩ s p = .ret (.err e) ⟨toks', ind'⟩

end Verif.Spec
