import Verif.Spec.Data
import Verif.Spec.Api
/-
A syntax for the texts of `json::write`, and the data that it gives.
-/
namespace Verif.Spec

namespace JsonRules

/-- `.w?`. -/
def w (id : DebugId) : Rule := .whitespace true id
/-- A character. -/
def c (x : Char) (id : DebugId) : Rule := .tag [x] false false none id
/-- Numbers, truth values, texts, and members between braces. -/
def value : Rule := .select [.number (some c!"num") false 1, .tag c!"true" false false (some c!"bool") 2,
  .tag c!"false" false true (some c!"bool") 3, .text true (some c!"text") 4,
  .sequence [c '{' 5, w 6, .node c!"members" none (some 2) 7, c '}' 8] 9] 10
/-- `[.t?:"name" ":" value .w?]`. -/
def member : Rule := .sequence [.text true (some c!"name") 11, c ':' 12, .node c!"value" none (some 0) 13, w 14] 15
/-- `member:"member"`. -/
def item : Rule := .node c!"member" (some c!"member") (some 1) 16
/-- `["," .w?]`. -/
def comma : Rule := .sequence [c ',' 17, w 18] 19
/-- `.s?.(comma item)`. -/
def members : Rule := .separateBy item comma true true 20
/-- `[.w? members]`. -/
def doc : Rule := .sequence [w 21, .node c!"members" none (some 2) 22] 23
def syn : Syntax := ⟨[value, member, members, doc], [c!"value", c!"member", c!"members", c!"doc"]⟩

end JsonRules

/-- What is read for an item that was written. -/
def readBack : MetaData → List MetaData
  | .startNode n => [.startNode c!"member", .string c!"name" n]
  | .endNode _ => [.endNode c!"member"]
  | .bool n b => [.startNode c!"member", .string c!"name" n, .bool c!"bool" b, .endNode c!"member"]
  | .f64 n x => [.startNode c!"member", .string c!"name" n, .f64 c!"num" x, .endNode c!"member"]
  | .string n s => [.startNode c!"member", .string c!"name" n, .string c!"text" s, .endNode c!"member"]

/-- The number is read as it was written, before a comma or a new line. -/
def NumberBack (L : Lexer) (fmt : F64 → Str) (x : F64) : Prop :=
  ∀ c rest, c = ',' ∨ c = '\n' → L.num false (fmt x ++ c :: rest) = some (fmt x).length ∧
    L.parseNum false (fmt x ++ c :: rest) (fmt x).length = .ok x

end Verif.Spec
