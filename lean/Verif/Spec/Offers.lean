import Verif.Spec.Viable
/-
Errors that tell what was expected.
-/
namespace Verif.Spec

/-- The error tells that the rule did not match. -/
inductive Misses : Rule → ParseError → Prop
  | whitespace {id} : Misses (.whitespace false id) (.expectedWhitespace id)
  | tag {t inv prop id} : Misses (.tag t false inv prop id) (.expectedTag t id)
  | untilAny {any prop id} : Misses (.untilAny any false prop id) (.expectedSomething id)
  | untilAnyOrWs {any prop id} : Misses (.untilAnyOrWs any false prop id) (.expectedSomething id)
  | text {empty prop id} : Misses (.text empty prop id) (.expectedText id)
  | emptyText {prop id} : Misses (.text false prop id) (.emptyTextNotAllowed id)
  | number {prop us id} : Misses (.number prop us id) (.expectedNumber id)
  | badNumber {prop us id err} : Misses (.number prop us id) (.parseNumberError err id)

end Verif.Spec
