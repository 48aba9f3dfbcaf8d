import Verif.Model.Syntax
import Verif.Spec.Api
import Verif.Spec.Desc
/-
What `syntax` does, independent of the cut off.
-/
namespace Verif.Spec

/-- `syntax(text)` returns `r`. -/
def SyntaxReturns (L : Lexer) (text : Str) (r : Except RErr Syntax) : Prop :=
  ∃ n, readSyntax L n text = .ok r

/-- `syntax(text)` panics. -/
def SyntaxPanics (L : Lexer) (text : Str) : Prop := ∃ n, readSyntax L n text = .panic

/-- `syntax(text)` runs for ever. -/
def SyntaxRuns (L : Lexer) (text : Str) : Prop := ∀ n, readSyntax L n text = .timeout

/-- `syntax_errstr(text)` returns `r`. -/
def ErrstrReturns (L : Lexer) (E : ErrText) (text : Str) (r : Except Str Syntax) : Prop :=
  ∃ n, readSyntaxErrstr L E n text = .ok r

/-- `parse_errstr_with_indent` returns `r`, and leaves `toks'` in the vector. -/
def ParseErrstr (L : Lexer) (E : ErrText) (syn : Syntax) (text : Str) (toks : List Tok) (ind : Indent)
    (r : Except Str Unit) (toks' : List Tok) : Prop :=
  ∃ n, parseErrstrWithIndent L E n syn text toks ind = .ok (r, toks')

/-- `load_syntax_data` on files with texts `s` and `d` returns, or writes a message and panics. -/
def LoadReturns (L : Lexer) (E : ErrText) (s d : Str) (r : Except Str (List Tok)) : Prop :=
  ∃ n, loadSyntaxData L E n s d = .ok r

/-- `text` is a text in the meta language, that of the hard-coded rules, and stands for the
document. -/
def Writes (L : Lexer) (text : Str) (doc : Doc) : Prop :=
  ∃ toks, Parses L bootstrapRules text [] Indent.default (.ok toks) ∧ toks.map (·.data) = doc.data

/-- A node has a number so large that its ids may be too large: they are at most 1000 times the
number plus the number of items of its meta data. -/
def Doc.TooLarge (doc : Doc) : Prop :=
  ∃ n ∈ doc.nodes, 2 ^ 64 ≤ n.1.toUsize * 1000 + n.2.2.data.length

end Verif.Spec
