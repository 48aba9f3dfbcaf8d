import Verif.Model.Basic
/-
Lines and columns of a text, counted in characters from 1.
-/
namespace Verif.Spec

/-- The number of the line that an offset is in. -/
def lineNo (text : Str) (off : Nat) : Nat := 1 + (text.take off).count '\n'

/-- The part of its line before an offset. -/
def lineBefore (text : Str) (off : Nat) : Str := ((text.take off).reverse.takeWhile (· != '\n')).reverse

/-- The lines before the line of an offset. -/
def linesAbove (text : Str) (off : Nat) : Str := ((text.take off).reverse.dropWhile (· != '\n')).reverse

/-- The part of its line after an offset. -/
def lineAfter (text : Str) (off : Nat) : Str := (text.drop off).takeWhile (· != '\n')

/-- The column of an offset. -/
def column (text : Str) (off : Nat) : Nat := 1 + (lineBefore text off).length

/-- Characters of one byte. -/
def Ascii (s : Str) : Prop := ∀ c ∈ s, c.utf8Size = 1

/-- The bytes of a text in UTF-8. -/
def utf8Len : Str → Nat
  | [] => 0
  | c :: s => c.utf8Size + utf8Len s

/-- The `b`-th byte of the text, or its end, is in `line` or directly after it; `above` is the lines
before that line. -/
structure AtByte (text : Str) (b : Nat) (above line after : Str) : Prop where
  eq : text = above ++ line ++ after
  oneLine : '\n' ∉ line
  wholeLines : above = [] ∨ above.getLast? = some '\n'
  atEnd : after = [] ∨ after.head? = some '\n'
  ge : utf8Len above ≤ b
  le : b ≤ utf8Len above + utf8Len line

/-- Text as wide as the given text: tabs stay, everything else is blank. -/
def blank (s : Str) : Str := s.map fun c => if c = '\t' then '\t' else ' '

/-- The debug id of an error. -/
def errorId : ParseError → Option DebugId
  | .expectedWhitespace id | .expectedNewLine id | .expectedSomething id | .expectedNumber id
  | .parseNumberError _ id | .expectedText id | .emptyTextNotAllowed id | .parseStringError _ id
  | .expectedTag _ id | .didNotExpectTag _ id | .invalidRule _ id => some id
  | .noRules | .expectedEnd | .conversion _ => none

end Verif.Spec
