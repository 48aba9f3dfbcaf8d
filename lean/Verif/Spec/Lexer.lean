import Verif.Model.Lexer
/-
The contract of the parameters of the model (crate `read_token`, not part of /repo).
-/
namespace Verif

/-- A piece of a quoted string: a plain character or one of the escapes `\" \\ \n \r \t`. -/
inductive StrItem where
  | plain (c : Char) (h : c ≠ '"' ∧ c ≠ '\\' ∧ c ≠ '\n' ∧ c ≠ '\r' ∧ c ≠ '\t')
  | quote | backslash | newline | ret | tab

/-- How the piece is written. -/
def StrItem.text : StrItem → List Char
  | .plain c _ => [c]
  | .quote => ['\\', '"']
  | .backslash => ['\\', '\\']
  | .newline => ['\\', 'n']
  | .ret => ['\\', 'r']
  | .tab => ['\\', 't']

/-- The character it stands for. -/
def StrItem.char : StrItem → Char
  | .plain c _ => c
  | .quote => '"'
  | .backslash => '\\'
  | .newline => '\n'
  | .ret => '\r'
  | .tab => '\t'

/-- The first line of the text (up to the first new line) has a character that is not whitespace. -/
def NonBlankLine (cs : List Char) : Prop :=
  ∃ a c b, cs = a ++ c :: b ∧ isWs c = false ∧ ∀ x ∈ a, isWs x = true ∧ x ≠ '\n'

/-- What is assumed about the operations of `read_token` that are parameters of the model. -/
structure Lexer.Lawful (L : Lexer) : Prop where
  /-- `string()` reads a text that starts with a quote, at least two quotes long. -/
  str_some : ∀ {src n}, L.str src = some n → 2 ≤ n ∧ n ≤ src.length ∧ src.head? = some '"'
  /-- A format error lies inside the quoted string. -/
  str_err : ∀ {src n r e}, L.str src = some n → L.parseStr src n = .error (r, e) →
    r.offset + r.length ≤ n
  /-- Quoted strings made of plain characters and the escapes `\" \\ \n \r \t` are read up to the
  closing quote and decoded. -/
  str_items : ∀ (items : List StrItem) (rest : List Char),
    L.str ('"' :: items.flatMap StrItem.text ++ '"' :: rest)
        = some ((items.flatMap StrItem.text).length + 2) ∧
      L.parseStr ('"' :: items.flatMap StrItem.text ++ '"' :: rest)
        ((items.flatMap StrItem.text).length + 2) = .ok (items.map StrItem.char)
  /-- `number()` reads at least one character. -/
  num_some : ∀ {u src n}, L.num u src = some n → 1 ≤ n ∧ n ≤ src.length
  /-- `lines` calls its closure at the start of the first line that is not blank; after the first
  call there must have been a new line, in the item or in the text skipped. -/
  line_call : ∀ {first item rest k}, L.lineNext first item rest = .call k →
    k ≤ rest.length ∧ (∀ c ∈ rest.take k, isWs c = true) ∧
    (k = 0 ∨ (rest.take k).getLast? = some '\n') ∧ NonBlankLine (rest.drop k) ∧
    (first = false → '\n' ∈ item ++ rest.take k)
  /-- `lines` stops at the end of the text, when only whitespace is left. -/
  line_done : ∀ {first item rest k}, L.lineNext first item rest = .done k →
    k = rest.length ∧ ∀ c ∈ rest, isWs c = true
  /-- `lines` gives up only after an item, when something else follows on the same line. -/
  line_fail : ∀ {first item rest k}, L.lineNext first item rest = .fail k →
    first = false ∧ k ≤ rest.length ∧ (∀ c ∈ rest.take k, isWs c = true ∧ c ≠ '\n') ∧
    NonBlankLine (rest.drop k)

/-- Further assumptions, needed only to say which texts are *not* in the notation of the meta
language. -/
structure Lexer.Exact (L : Lexer) : Prop where
  /-- How a quoted string is read does not depend on what follows it. -/
  str_local : ∀ {src n}, L.str src = some n → ∀ rest,
    L.str (src.take n ++ rest) = some n ∧ L.parseStr (src.take n ++ rest) n = L.parseStr src n
  /-- It ends with a quote. -/
  str_last : ∀ {src n}, L.str src = some n → (src.take n).getLast? = some '"'
  /-- A number does not begin with whitespace, an underscore or a slash. -/
  num_head : ∀ {c s n}, L.num false (c :: s) = some n → isWs c = false ∧ c ≠ '_' ∧ c ≠ '/'
  /-- Between two lines there is a new line in the text skipped, or at the end of the item. -/
  line_newline : ∀ {item rest k}, L.lineNext false item rest = .call k →
    '\n' ∈ rest.take k ∨ ∃ x w, item = x ++ '\n' :: w ∧ ∀ c ∈ w, isWs c = true

end Verif
