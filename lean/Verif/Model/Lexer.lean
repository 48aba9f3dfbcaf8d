import Verif.Model.Basic
/-
Model of the external crate `read_token` 1.0, as far as the sources in /repo use it.

The crate itself is not in /repo.  The operations whose behaviour is fixed by their use and by
the unit tests in /repo (`new`, `consume`, `peek`, `start`, `subtract`, `tag`, `whitespace`,
`until_any`, `until_any_or_whitespace`, `raw_string`) are defined outright.  The operations with
behaviour of their own (`string`, `parse_string`, `number`, `parse_number` and the decisions of
`lines`) are the fields of a structure `Lexer`; every theorem about the parser holds for every
lexer that satisfies the laws `Lexer.Lawful`.  `Verif.Model.StdLexer` gives one concrete lexer
that satisfies the laws and reproduces the unit tests.
-/
namespace Verif

/-- `ReadToken { src, offset }`: the remaining text and the number of characters before it. -/
structure Pos where
  src : List Char
  off : Nat
deriving DecidableEq, Repr, Inhabited

/-- `char::is_whitespace`: Unicode property White_Space. -/
def isWs (c : Char) : Bool :=
  let n := c.toNat
  (9 ≤ n && n ≤ 13) || n == 32 || n == 0x85 || n == 0xA0 || n == 0x1680 ||
  (0x2000 ≤ n && n ≤ 0x200A) || n == 0x2028 || n == 0x2029 || n == 0x202F || n == 0x205F ||
  n == 0x3000

namespace Pos
/-- `ReadToken::new(text, offset)`. -/
def new (text : Str) (o : Nat) : Pos := ⟨text, o⟩
/-- `ReadToken::consume(n)`: drop `n` characters. -/
def consume (p : Pos) (n : Nat) : Pos := ⟨p.src.drop n, p.off + n⟩
/-- `ReadToken::peek(n)`: the range of the next `n` characters. -/
def peek (p : Pos) (n : Nat) : Range := ⟨p.off, n⟩
/-- `ReadToken::start()`: the empty range here. -/
def start (p : Pos) : Range := ⟨p.off, 0⟩
/-- `ReadToken::subtract(start)`: the range from `start` to here. -/
def subtract (p start : Pos) : Range := ⟨start.off, p.off - start.off⟩
/-- `ReadToken::raw_string(n)`: the next `n` characters. -/
def rawString (p : Pos) (n : Nat) : Str := p.src.take n
/-- `ReadToken::tag(text)`: the range of `text` if the source starts with it. -/
def tag (p : Pos) (t : Str) : Option Range :=
  if t.isPrefixOf p.src then some (p.peek t.length) else none
/-- `ReadToken::whitespace()`: the range of the longest whitespace prefix. -/
def whitespace (p : Pos) : Range := p.peek (p.src.takeWhile isWs).length
/-- `ReadToken::until_any(any)`: the range of the longest prefix without a character of `any`. -/
def untilAny (p : Pos) (any : Str) : Range :=
  p.peek (p.src.takeWhile fun c => !any.contains c).length
/-- `ReadToken::until_any_or_whitespace(any)`. -/
def untilAnyOrWs (p : Pos) (any : Str) : Range :=
  p.peek (p.src.takeWhile fun c => !(any.contains c || isWs c)).length
end Pos

/-- One decision of the driver `ReadToken::lines`, taken on the text that remains: call the
closure after skipping `k` characters, stop successfully after skipping `k` characters, or give
up because a new line is missing after `k` characters. -/
inductive LineStep where
  | call (k : Nat)
  | done (k : Nat)
  | fail (k : Nat)
deriving DecidableEq, Repr, Inhabited

/-- The operations of `read_token` that are left as parameters. -/
structure Lexer where
  /-- `ReadToken::string()`: number of characters of the quoted string at the start. -/
  str : List Char → Option Nat
  /-- `ReadToken::parse_string(n)`: content of the quoted string of `n` characters, or the place
  (relative offset and length) and kind of a format error. -/
  parseStr : List Char → Nat → Except (Range × StrErr) Str
  /-- `ReadToken::number(settings)`: number of characters of the number at the start. -/
  num : Bool → List Char → Option Nat
  /-- `ReadToken::parse_number(settings, n)`. -/
  parseNum : Bool → List Char → Nat → Except NumErr F64
  /-- The decision taken by `ReadToken::lines`: `first` tells whether the closure has not been
  called yet, `item` is the text read by the last call (empty before the first call) and the
  third argument the text that remains after it. -/
  lineNext : (first : Bool) → (item : List Char) → (rest : List Char) → LineStep

end Verif
