import Verif.Model.Writes
import Verif.Spec.Api
/-
The vector while a text is parsed.
-/
namespace Verif.Spec

/-- `parse_with_indent(syn, text, &mut toks, &ind)` tries its last rule, which succeeds or fails, and `w` is the list of
what the vector holds after each item that is pushed. -/
def Pushed (L : Lexer) (syn : Syntax) (text : Str) (toks : List Tok) (ind : Indent) (w : List (List Tok)) : Prop :=
  ∃ n c res st, firstCall syn text toks ind = some c ∧ c.run (eval L syn.rules n) = .ret res st ∧
    writes L syn.rules n c = w

/-- Each vector comes from the one before by cutting it off, or not, and pushing one item. -/
def OneByOne : List Tok → List (List Tok) → Prop
  | _, [] => True
  | t, v :: w => (∃ k x, k ≤ t.length ∧ v = t.take k ++ [x]) ∧ OneByOne v w

end Verif.Spec
