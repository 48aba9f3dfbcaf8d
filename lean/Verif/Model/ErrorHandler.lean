import Verif.Model.Comp
import Verif.Model.Lexer
/-
`ParseErrorHandler`, src/parse_error_handler.rs, and the text of errors, src/parse_error.rs.

The writer is a text that grows; for writers that report errors see `Model/Writer`.  `usize` is `Nat`.
-/
namespace Verif

/-- How the external crate `read_token` prints its errors. -/
structure ErrText where
  num : NumErr → Str
  str : StrErr → Str

/-- `{}` of a `usize`. -/
def dec (n : Nat) : Str := Nat.toDigits 10 n

/-- The messages at src/meta_rules/node.rs:49 and src/meta_rules/select.rs:52. -/
def InvalidMsg.text : InvalidMsg → Str
  | .nodeNotUpdated => c!"Node rule is not updated to reference"
  | .selectEmpty => c!"`Select` requires at least one sub rule"

/-- `Display for ParseError` -- src/parse_error.rs:41-75. -/
def ParseError.text (E : ErrText) : ParseError → Str
  | .expectedWhitespace id => '#' :: dec id ++ c!", Expected whitespace"
  | .expectedNewLine id => '#' :: dec id ++ c!", Expected new line"
  | .expectedSomething id => '#' :: dec id ++ c!", Expected something"
  | .expectedNumber id => '#' :: dec id ++ c!", Expected number"
  | .parseNumberError e id => '#' :: dec id ++ c!", Invalid number format: " ++ E.num e
  | .expectedTag t id => '#' :: dec id ++ c!", Expected: `" ++ t ++ c!"`"
  | .didNotExpectTag t id => '#' :: dec id ++ c!", Did not expect: `" ++ t ++ c!"`"
  | .expectedText id => '#' :: dec id ++ c!", Expected text"
  | .emptyTextNotAllowed id => '#' :: dec id ++ c!", Empty text not allowed"
  | .parseStringError e id => '#' :: dec id ++ c!", Invalid string format: " ++ E.str e
  | .invalidRule m id => '#' :: dec id ++ c!", Invalid rule: " ++ m.text
  | .noRules => c!"No rules are specified"
  | .expectedEnd => c!"Expected end"
  | .conversion m => c!"Conversion, " ++ m

/-- `str::split('\n')`: always at least one piece. -/
def splitLines : Str → List Str
  | [] => [[]]
  | c :: cs =>
    if c = '\n' then [] :: splitLines cs
    else
      match splitLines cs with
      | [] => [[c]]
      | l :: ls => (c :: l) :: ls

/-- `str::len`: bytes of UTF-8. -/
def byteLen (s : Str) : Nat := (s.map Char.utf8Size).sum

/-- The loop of `ParseErrorHandler::new` -- src/parse_error_handler.rs:25-32. -/
def numberLines (start : Nat) : List Str → List (Range × Str)
  | [] => []
  | l :: ls => (⟨start, byteLen l⟩, l) :: numberLines (start + (byteLen l + 1)) ls

/-- `ParseErrorHandler::new` -- src/parse_error_handler.rs:24-37. -/
def handlerLines (text : Str) : List (Range × Str) := numberLines 0 (splitLines text)

/-- `a - b` on `usize`. -/
def checkedSub (a b : Nat) : Comp Nat := if b ≤ a then .ok (a - b) else .panic

/-- The excerpt of one line, src/parse_error_handler.rs:49-75 and 123-149: `i` is the number of
the line counted from 0.  Gives what is written and the new value of `printed_pointer`. -/
def excerpt (range : Range) (i : Nat) (r : Range) (text : Str) (printed : Bool) : Comp (Str × Bool) :=
  match range.endsIntersect r with
  | none => .ok ([], printed)
  | some x =>
    if x.offset ≥ r.offset then do
      let j ← checkedSub x.offset r.offset
      let s ← if j > 75 then checkedSub j 50 else .ok 0
      let e := min (s + 100) r.length
      let n ← checkedSub e s
      let place := dec (i + 1) ++ [','] ++ dec (j + 1) ++ c!": "
      let out := place ++ (text.drop s).take n ++ ['\n']
      if printed then .ok (out, true)
      else do
        let m ← checkedSub j s
        .ok (out ++ place ++ ((text.drop s).take m).map (fun c => if c = '\t' then '\t' else ' ') ++ c!"^\n", true)
    else .ok ([], printed)

/-- The loop over the lines, src/parse_error_handler.rs:47-76 and 121-150. -/
def excerpts (range : Range) : (i : Nat) → List (Range × Str) → (printed : Bool) → Comp Str
  | _, [], _ => .ok []
  | i, (r, text) :: ls, printed => do
    let (out, printed) ← excerpt range i r text printed
    let rest ← excerpts range (i + 1) ls printed
    .ok (out ++ rest)

/-- `ParseErrorHandler::write_msg` -- src/parse_error_handler.rs:40-78. -/
def writeMsg (lines : List (Range × Str)) (range : Range) (msg : Str) : Comp Str := do
  let body ← excerpts range 0 lines false
  .ok (msg ++ ['\n'] ++ body)

/-- `first_line` -- src/parse_error_handler.rs:87-99; the intersection is not used. -/
def firstLine (range : Range) : List (Range × Str) → Option Nat
  | [] => none
  | (r, _) :: ls =>
    match range.endsIntersect r with
    | some _ => some 0
    | none => (firstLine range ls).map (· + 1)

/-- The loop at src/parse_error_handler.rs:108-114 over the lines before the error from the last
one: `n` is how many are left. -/
def prevLine (lines : List (Range × Str)) : Nat → Nat → Nat
  | 0, prev => prev
  | n + 1, _ =>
    match lines[n]? with
    | none => n
    | some (_, text) => if text.all isWs then prevLine lines n n else n

/-- Lines with their numbers, src/parse_error_handler.rs:115-118. -/
def plainLines : Nat → List (Range × Str) → Str
  | _, [] => []
  | i, (_, text) :: ls => dec (i + 1) ++ c!": " ++ text ++ ['\n'] ++ plainLines (i + 1) ls

/-- The lines before the error -- src/parse_error_handler.rs:104-120.  Slices panic when they are
out of range. -/
def linesBefore (lines : List (Range × Str)) (range : Range) (err : ParseError) : Comp Str :=
  match err with
  | .expectedTag _ _ =>
    match firstLine range lines with
    | none => .ok []
    | some n =>
      if n ≤ lines.length then
        let prev := prevLine lines n 0
        if prev ≤ n then .ok (plainLines prev ((lines.take n).drop prev))
        else .panic
      else .panic
  | _ => .ok []

/-- `ParseErrorHandler::write` -- src/parse_error_handler.rs:81-152. -/
def writeErr (E : ErrText) (lines : List (Range × Str)) (e : RErr) : Comp Str := do
  let before ← linesBefore lines e.range e.err
  let body ← excerpts e.range 0 lines false
  .ok (c!"Error " ++ e.err.text E ++ ['\n'] ++ before ++ body)

/-- What `stderr_unwrap` writes before it panics -- src/parse_error_handler.rs:7-15, 155-157. -/
def reportErr (E : ErrText) (source : Str) (e : RErr) : Comp Str := writeErr E (handlerLines source) e

end Verif
