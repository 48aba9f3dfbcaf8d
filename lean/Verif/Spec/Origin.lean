import Verif.Spec.Api
import Verif.Spec.WellFormed
import Verif.Spec.Lexer
/-
What an error and an item of meta data say about the text.
-/
namespace Verif.Spec

/-- The text from the character `off` on. -/
def from_ (text : Str) (off : Nat) : Pos := ⟨text.drop off, off⟩

/-- The rule matches the `n` characters from `off` on, with some indentation. -/
def ReadsAt (E : Env) (text : Str) (r : Rule) (off n : Nat) : Prop :=
  ∃ i ts j tr, Run E (.rule r) (from_ text off) i (some (n, ts)) j tr

/-- `Blames E text x e`: the error `e` carries the number of the rule `x`, is of the kind that such
a rule reports, and is true of the text: what it says was expected is not there, or what it says was
not expected is there. -/
inductive Blames (E : Env) (text : Str) : Rule → RErr → Prop
  | whitespace {id off} (h : ∀ c, (text.drop off).head? = some c → isWs c = false) :
      Blames E text (.whitespace false id) ⟨⟨off, 0⟩, .expectedWhitespace id⟩
  | tag {t inv prop id off} (h : ¬ t <+: text.drop off) :
      Blames E text (.tag t false inv prop id) ⟨⟨off, 0⟩, .expectedTag t id⟩
  | notTag {t inv prop id off} (h : t <+: text.drop off) :
      Blames E text (.tag t true inv prop id) ⟨⟨off, t.length⟩, .didNotExpectTag t id⟩
  | untilAny {any prop id off} (h : ∀ c, (text.drop off).head? = some c → c ∈ any) :
      Blames E text (.untilAny any false prop id) ⟨⟨off, 0⟩, .expectedSomething id⟩
  | untilAnyOrWs {any prop id off}
      (h : ∀ c, (text.drop off).head? = some c → c ∈ any ∨ isWs c = true) :
      Blames E text (.untilAnyOrWs any false prop id) ⟨⟨off, 0⟩, .expectedSomething id⟩
  | noText {empty prop id off} (h : E.L.str (text.drop off) = none) :
      Blames E text (.text empty prop id) ⟨⟨off, 0⟩, .expectedText id⟩
  | emptyText {prop id off} (h : E.L.str (text.drop off) = some 2) :
      Blames E text (.text false prop id) ⟨⟨off, 2⟩, .emptyTextNotAllowed id⟩
  | badText {empty prop id off n r err} (h : E.L.str (text.drop off) = some n)
      (hr : E.L.parseStr (text.drop off) n = .error (r, err)) :
      Blames E text (.text empty prop id) ⟨⟨off + r.offset, r.length⟩, .parseStringError err id⟩
  | noNumber {prop us id off} (h : E.L.num us (text.drop off) = none) :
      Blames E text (.number prop us id) ⟨⟨off, 0⟩, .expectedNumber id⟩
  | badNumber {prop us id off n err} (h : E.L.num us (text.drop off) = some n)
      (hv : E.L.parseNum us (text.drop off) n = .error err) :
      Blames E text (.number prop us id) ⟨⟨off, n⟩, .parseNumberError err id⟩
  | emptySelect {id off} :
      Blames E text (.select [] id) ⟨⟨off, 0⟩, .invalidRule .selectEmpty id⟩
  | fastEnd {tb args tail id off} (h : text.drop off = []) :
      Blames E text (.fastSelect tb args tail id) ⟨⟨off, 0⟩, .expectedSomething id⟩
  | fastMiss {tb args id off c cs b bs} (h : text.drop off = c :: cs)
      (hb : String.utf8EncodeChar c = b :: bs) (ht : tb b = 255) :
      Blames E text (.fastSelect tb args false id) ⟨⟨off, 0⟩, .expectedSomething id⟩
  | newLine {r ind id off} (h : NonBlankLine (text.drop off)) :
      Blames E text (.lines r ind id) ⟨⟨off, 0⟩, .expectedNewLine id⟩
  | unresolved {name prop id off} :
      Blames E text (.node name prop none id) ⟨⟨off, 0⟩, .invalidRule .nodeNotUpdated id⟩
  | not {r id off n} (h : ReadsAt E text r off n) :
      Blames E text (.not r id) ⟨⟨off, n⟩, .didNotExpectTag ((text.drop off).take n) id⟩

/-- `Records E text x t`: the rule `x` has the name of the item `t`, and at the range of the item
the text is what the rule reads and the item says. -/
inductive Records (E : Env) (text : Str) : Rule → Tok → Prop
  | tag {s inv n id off} (h : s <+: text.drop off) :
      Records E text (.tag s false inv (some n) id) ⟨⟨off, s.length⟩, .bool n (!inv)⟩
  | notTag {s inv n id off} (h : ¬ s <+: text.drop off) :
      Records E text (.tag s true inv (some n) id) ⟨⟨off, 0⟩, .bool n (!inv)⟩
  | untilAny {any opt n id off len} (h : Longest (fun c => c ∉ any) (text.drop off) len) :
      Records E text (.untilAny any opt (some n) id)
        ⟨⟨off, len⟩, .string n ((text.drop off).take len)⟩
  | untilAnyOrWs {any opt n id off len}
      (h : Longest (fun c => c ∉ any ∧ isWs c = false) (text.drop off) len) :
      Records E text (.untilAnyOrWs any opt (some n) id)
        ⟨⟨off, len⟩, .string n ((text.drop off).take len)⟩
  | text {empty n id off len s} (h : E.L.str (text.drop off) = some len)
      (hs : E.L.parseStr (text.drop off) len = .ok s) :
      Records E text (.text empty (some n) id) ⟨⟨off, len⟩, .string n s⟩
  | number {n us id off len v} (h : E.L.num us (text.drop off) = some len)
      (hv : E.L.parseNum us (text.drop off) len = .ok v) :
      Records E text (.number (some n) us id) ⟨⟨off, len⟩, .f64 n v⟩
  | startNode {name n ix id off} :
      Records E text (.node name (some n) (some ix) id) ⟨⟨off, 0⟩, .startNode n⟩
  | endNode {name n ix id off len r} (hr : E.refs[ix]? = some r) (h : ReadsAt E text r off len) :
      Records E text (.node name (some n) (some ix) id) ⟨⟨off, len⟩, .endNode n⟩

/-- What an error means: the syntax has no rules, or the last rule matched and stopped there, or
a rule of the syntax is to blame. -/
inductive Truthful (L : Lexer) (syn : Syntax) (text : Str) (ind : Indent) : RErr → Prop
  | noRules (h : syn.rules = []) : Truthful L syn text ind ⟨⟨0, 0⟩, .noRules⟩
  | stopped {r n} (hr : syn.rules.getLast? = some r) (hn : n < text.length)
      (h : ∃ ts j tr, Run (envOf L syn.rules ind) (.rule r) ⟨text, 0⟩ ind.indent (some (n, ts)) j tr) :
      Truthful L syn text ind ⟨⟨n, 0⟩, .expectedEnd⟩
  | rule {x e} (hx : Part syn.rules x) (h : Blames (envOf L syn.rules ind) text x e) :
      Truthful L syn text ind e

end Verif.Spec
