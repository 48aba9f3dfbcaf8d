/-
Basic data types of piston_meta.

Strings are lists of characters (Rust `String`/`&str`/`Arc<String>`; sharing through `Arc` is
not observable and is dropped).  `usize` is `Nat`: no property below is about texts of 2^64
characters; the one `u32` counter that the code increments (`IndentSettings::indent`) is checked
for overflow explicitly in `Verif.Model.Eval`.
-/
namespace Verif

/-- Rust `String`, `&str`, `Arc<String>`. -/
abbrev Str := List Char

open Lean in
/-- `c!"abc"` is the literal list `['a', 'b', 'c']`; it keeps `String` out of kernel reduction. -/
macro:max "c!" s:str : term => do
  let cs := s.getString.toList.map fun c => (Syntax.mkCharLit c : TSyntax `char)
  let cs : Array (TSyntax `term) := (cs.map fun c => ⟨c.raw⟩).toArray
  `(([ $cs,* ] : List Char))

/-- `DebugId` -- src/lib.rs:150. -/
abbrev DebugId := Nat

/-- `range::Range<()>` (external crate `range` 1.0): offset and length. -/
structure Range where
  offset : Nat
  length : Nat
deriving DecidableEq, Repr, Inhabited

namespace Range
/-- `Range::empty` (crate `range`). -/
def empty (o : Nat) : Range := ⟨o, 0⟩
/-- `Range::next_offset` (crate `range`). -/
def next (r : Range) : Nat := r.offset + r.length
/-- `Range::ends_intersect` (crate `range`): the common part of two ranges, touching ends
included; used only in src/parse_error_handler.rs:49, 93, 123. -/
def endsIntersect (a b : Range) : Option Range :=
  if a.offset ≤ b.next ∧ b.offset ≤ a.next then
    let o := max a.offset b.offset
    some ⟨o, min a.next b.next - o⟩
  else none
end Range

/-- An IEEE-754 double, Rust `f64`, kept as its bit pattern. -/
structure F64 where
  bits : BitVec 64
deriving DecidableEq, Repr, Inhabited

namespace F64
/-- Biased exponent field. -/
def expo (x : F64) : Nat := x.bits.toNat / 2 ^ 52 % 2 ^ 11
/-- Mantissa field. -/
def mant (x : F64) : Nat := x.bits.toNat % 2 ^ 52
/-- Sign bit. -/
def neg (x : F64) : Bool := x.bits.toNat / 2 ^ 63 == 1
/-- Not a number. -/
def isNaN (x : F64) : Bool := x.expo == 2047 && x.mant != 0
/-- Infinite. -/
def isInf (x : F64) : Bool := x.expo == 2047 && x.mant == 0
/-- Neither infinite nor NaN. -/
def isFinite (x : F64) : Bool := x.expo != 2047
/-- Plus or minus zero. -/
def isZero (x : F64) : Bool := x.expo == 0 && x.mant == 0
/-- Rust `==` on `f64`: NaN differs from everything, the two zeros are equal. -/
def feq (x y : F64) : Bool :=
  !x.isNaN && !y.isNaN && (x.bits == y.bits || (x.isZero && y.isZero))
/-- Rust `val as usize` on a 64-bit target: truncation toward zero, saturating, NaN to 0. -/
def toUsize (x : F64) : Nat :=
  if x.isNaN then 0
  else if x.neg then 0
  else if x.isInf then 2 ^ 64 - 1
  else
    -- value = m * 2 ^ (e - 1075), with the implicit bit for normal numbers
    let m := if x.expo = 0 then x.mant else x.mant + 2 ^ 52
    let e := if x.expo = 0 then 1 else x.expo
    let v := if e ≥ 1075 then m * 2 ^ (e - 1075) else m / 2 ^ (1075 - e)
    min v (2 ^ 64 - 1)
end F64

/-- `MetaData` -- src/lib.rs:172-183. -/
inductive MetaData where
  | startNode (name : Str)
  | endNode (name : Str)
  | bool (name : Str) (val : Bool)
  | f64 (name : Str) (val : F64)
  | string (name val : Str)
deriving DecidableEq, Repr, Inhabited

/-- `Range<MetaData>`: a token with its place in the source. -/
structure Tok where
  range : Range
  data : MetaData
deriving DecidableEq, Repr, Inhabited

/-- `read_token::ParseNumberError` (external crate): an opaque code. -/
structure NumErr where
  code : Nat
deriving DecidableEq, Repr, Inhabited

/-- `read_token::ParseStringError` (external crate): an opaque code. -/
structure StrErr where
  code : Nat
deriving DecidableEq, Repr, Inhabited

/-- The two messages of `ParseError::InvalidRule` used by the crate
(src/meta_rules/node.rs:49, src/meta_rules/select.rs:52). -/
inductive InvalidMsg where
  | nodeNotUpdated
  | selectEmpty
deriving DecidableEq, Repr, Inhabited

/-- `ParseError` -- src/parse_error.rs:10-39. -/
inductive ParseError where
  | expectedWhitespace (id : DebugId)
  | expectedNewLine (id : DebugId)
  | expectedSomething (id : DebugId)
  | expectedNumber (id : DebugId)
  | parseNumberError (e : NumErr) (id : DebugId)
  | expectedText (id : DebugId)
  | emptyTextNotAllowed (id : DebugId)
  | parseStringError (e : StrErr) (id : DebugId)
  | expectedTag (text : Str) (id : DebugId)
  | didNotExpectTag (text : Str) (id : DebugId)
  | invalidRule (msg : InvalidMsg) (id : DebugId)
  | noRules
  | expectedEnd
  | conversion (msg : Str)
deriving DecidableEq, Repr, Inhabited

/-- `Range<ParseError>`. -/
structure RErr where
  range : Range
  err : ParseError
deriving DecidableEq, Repr, Inhabited

/-- `Range<ParseError>::next_offset`: how deep in the text the error ends. -/
def RErr.depth (e : RErr) : Nat := e.range.next

/-- `IndentSettings` -- src/meta_rules/indent_settings.rs:3-10.  `indent` is a `u32`,
`tab_spaces` a `u8`; the parser checks `indent` against 2^32. -/
structure Indent where
  indent : Nat
  alignFirst : Bool
  tabSpaces : Nat
deriving DecidableEq, Repr, Inhabited

/-- `IndentSettings::default` -- src/meta_rules/indent_settings.rs:12-20. -/
def Indent.default : Indent := ⟨0, true, 4⟩

/-- `Rule` and the structures of its variants -- src/meta_rules/rule.rs:29-63 and
src/meta_rules/{whitespace,tag,until_any,until_any_or_whitespace,text,number,select,fast_select,
sequence,separate_by,repeat,lines,node,optional,not}.rs.  `Box` is dropped.  The `[u8; 256]`
table of `FastSelect` is a function on bytes. -/
inductive Rule where
  | whitespace (optional : Bool) (id : DebugId)
  | tag (text : Str) (not inverted : Bool) (property : Option Str) (id : DebugId)
  | untilAny (any : Str) (optional : Bool) (property : Option Str) (id : DebugId)
  | untilAnyOrWs (any : Str) (optional : Bool) (property : Option Str) (id : DebugId)
  | text (allowEmpty : Bool) (property : Option Str) (id : DebugId)
  | number (property : Option Str) (allowUnderscore : Bool) (id : DebugId)
  | select (args : List Rule) (id : DebugId)
  | fastSelect (table : UInt8 → UInt8) (args : List Rule) (tail : Bool) (id : DebugId)
  | sequence (args : List Rule) (id : DebugId)
  | separateBy (rule by_ : Rule) (optional allowTrail : Bool) (id : DebugId)
  | repeat_ (rule : Rule) (optional : Bool) (id : DebugId)
  | lines (rule : Rule) (indent : Bool) (id : DebugId)
  | node (name : Str) (property : Option Str) (index : Option Nat) (id : DebugId)
  | optional (rule : Rule) (id : DebugId)
  | not (rule : Rule) (id : DebugId)
deriving Inhabited

/-- `Syntax` -- src/lib.rs:187-192. -/
structure Syntax where
  rules : List Rule
  names : List Str
deriving Inhabited

/-- `Syntax::new` -- src/lib.rs:196-201. -/
def Syntax.new : Syntax := ⟨[], []⟩

/-- `Syntax::push` -- src/lib.rs:204-207. -/
def Syntax.push (s : Syntax) (name : Str) (rule : Rule) : Syntax :=
  ⟨s.rules ++ [rule], s.names ++ [name]⟩

example : c!"a\n\"" = ['a', '\n', '"'] := rfl

end Verif
