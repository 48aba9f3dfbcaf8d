import Verif.Spec.ByteCost
import Verif.Spec.RefsCost
import Verif.Spec.Unclosed
import Verif.Spec.Api
import Verif.Spec.Convert
import Verif.Model.SyntaxCalls
/-
What `syntax` costs.
-/
namespace Verif.Spec

/-- `syntax(text)` returns `r` and does the work `w` for it. -/
def SyntaxWorks (L : Lexer) (text : Str) (r : Except RErr Syntax) (w : Work) : Prop :=
  ∃ n, readSyntaxWork L n text = .ok (r, w)

/-- `syn` is what the text says, before it is optimized. -/
def SaysSyntax (L : Lexer) (text : Str) (syn : Syntax) : Prop :=
  ∃ data ignored, Parses L bootstrapRules text [] Indent.default (.ok data) ∧ Converts data [] (some syn) ignored

/-- `k` selects in each other: `{b b {b b .. b}}`. -/
def boxText : Nat → Str
  | 0 => c!"b"
  | k + 1 => c!"{b b " ++ (boxText k ++ c!"}")

/-- A rule file with these selects. -/
def boxFile (k : Nat) : Str := c!"0 a =" ++ boxText k

/-- The same as a description. -/
def boxDesc : Nat → Desc
  | 0 => .reference c!"b" none
  | k + 1 => .select [.reference c!"b" none, .reference c!"b" none, boxDesc k]

/-- The same as a rule; the ids begin after `i`. -/
def boxRule : Nat → DebugId → Rule
  | 0, i => .node c!"b" none none (i + 1)
  | k + 1, i => .select [.node c!"b" none none (i + 1), .node c!"b" none none (i + 2), boxRule k (i + 2)] (i + (3 * k + 4))

end Verif.Spec
