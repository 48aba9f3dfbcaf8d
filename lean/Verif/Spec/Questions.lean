import Verif.Model.Calls
import Verif.Spec.Cost
/-
The calls that a parse makes, and what they ask.
-/
namespace Verif.Spec

/-- All calls of `Rule::parse` that a call comes to, itself included, in the order in which they begin, cut off at
depth `n`. -/
def allCalls (L : Lexer) (refs : List Rule) : Nat → Call → List Call
  | 0, _ => []
  | n + 1, c => c :: (subcalls L refs (eval L refs n) n c).flatMap (allCalls L refs n)

/-- `parse_with_indent(syn, text, &mut toks, &ind)` comes to an end, and these are the calls of `Rule::parse` that it
makes. -/
def Makes (L : Lexer) (syn : Syntax) (text : Str) (toks : List Tok) (ind : Indent) (cs : List Call) : Prop :=
  ∃ n c, firstCall syn text toks ind = some c ∧ c.run (eval L syn.rules n) ≠ .timeout ∧ allCalls L syn.rules n c = cs

/-- What a call asks: does this rule stand here? -/
def asks (c : Call) : Rule × Nat := (c.rule, c.p.off)

/-- Two results are the same, apart from what the vector held before. -/
inductive SameAnswer (c c' : Call) : Out → Out → Prop
  | ok {range err ts s s' t t' ind} (h : t.take s = c.st.toks.take c.s ++ ts) (h' : t'.take s' = c'.st.toks.take c'.s ++ ts) :
      SameAnswer c c' (.ret (.ok range s err) ⟨t, ind⟩) (.ret (.ok range s' err) ⟨t', ind⟩)
  | err {e t t' ind} : SameAnswer c c' (.ret (.err e) ⟨t, ind⟩) (.ret (.err e) ⟨t', ind⟩)
  | panic : SameAnswer c c' .panic .panic
  | timeout : SameAnswer c c' .timeout .timeout

end Verif.Spec
