import Verif.Spec.Run
/-
Changing debug ids and the names under which nodes are referred to.
-/
namespace Verif.Spec

mutual
/-- The rules are the same, but for debug ids, which `R` relates, and for the names of nodes whose
references are resolved. -/
inductive Renumbered (R : DebugId → DebugId → Prop) : Rule → Rule → Prop
  | whitespace {opt id id'} (h : R id id') : Renumbered R (.whitespace opt id) (.whitespace opt id')
  | tag {t neg inv prop id id'} (h : R id id') :
      Renumbered R (.tag t neg inv prop id) (.tag t neg inv prop id')
  | untilAny {any opt prop id id'} (h : R id id') :
      Renumbered R (.untilAny any opt prop id) (.untilAny any opt prop id')
  | untilAnyOrWs {any opt prop id id'} (h : R id id') :
      Renumbered R (.untilAnyOrWs any opt prop id) (.untilAnyOrWs any opt prop id')
  | text {empty prop id id'} (h : R id id') : Renumbered R (.text empty prop id) (.text empty prop id')
  | number {prop us id id'} (h : R id id') : Renumbered R (.number prop us id) (.number prop us id')
  | node {name name' prop ix id id'} (h : R id id') :
      Renumbered R (.node name prop ix id) (.node name' prop ix id')
  | select {rs rs' id id'} (h : R id id') (hs : RenumberedL R rs rs') :
      Renumbered R (.select rs id) (.select rs' id')
  | fastSelect {tb rs rs' tail id id'} (h : R id id') (hs : RenumberedL R rs rs') :
      Renumbered R (.fastSelect tb rs tail id) (.fastSelect tb rs' tail id')
  | sequence {rs rs' id id'} (h : R id id') (hs : RenumberedL R rs rs') :
      Renumbered R (.sequence rs id) (.sequence rs' id')
  | separateBy {r r' b b' opt trail id id'} (h : R id id') (hr : Renumbered R r r')
      (hb : Renumbered R b b') :
      Renumbered R (.separateBy r b opt trail id) (.separateBy r' b' opt trail id')
  | repeat_ {r r' opt id id'} (h : R id id') (hr : Renumbered R r r') :
      Renumbered R (.repeat_ r opt id) (.repeat_ r' opt id')
  | lines {r r' ind id id'} (h : R id id') (hr : Renumbered R r r') :
      Renumbered R (.lines r ind id) (.lines r' ind id')
  | optional {r r' id id'} (h : R id id') (hr : Renumbered R r r') :
      Renumbered R (.optional r id) (.optional r' id')
  | not {r r' id id'} (h : R id id') (hr : Renumbered R r r') : Renumbered R (.not r id) (.not r' id')
/-- The same for the rules of a list, one by one. -/
inductive RenumberedL (R : DebugId → DebugId → Prop) : List Rule → List Rule → Prop
  | nil : RenumberedL R [] []
  | cons {r r' rs rs'} (h : Renumbered R r r') (h' : RenumberedL R rs rs') :
      RenumberedL R (r :: rs) (r' :: rs')
end

/-- The errors are the same, but for their debug ids, which `R` relates. -/
inductive ErrorLike (R : DebugId → DebugId → Prop) : ParseError → ParseError → Prop
  | expectedWhitespace {id id'} (h : R id id') : ErrorLike R (.expectedWhitespace id) (.expectedWhitespace id')
  | expectedNewLine {id id'} (h : R id id') : ErrorLike R (.expectedNewLine id) (.expectedNewLine id')
  | expectedSomething {id id'} (h : R id id') : ErrorLike R (.expectedSomething id) (.expectedSomething id')
  | expectedNumber {id id'} (h : R id id') : ErrorLike R (.expectedNumber id) (.expectedNumber id')
  | parseNumberError {e id id'} (h : R id id') :
      ErrorLike R (.parseNumberError e id) (.parseNumberError e id')
  | expectedText {id id'} (h : R id id') : ErrorLike R (.expectedText id) (.expectedText id')
  | emptyTextNotAllowed {id id'} (h : R id id') :
      ErrorLike R (.emptyTextNotAllowed id) (.emptyTextNotAllowed id')
  | parseStringError {e id id'} (h : R id id') :
      ErrorLike R (.parseStringError e id) (.parseStringError e id')
  | expectedTag {t id id'} (h : R id id') : ErrorLike R (.expectedTag t id) (.expectedTag t id')
  | didNotExpectTag {t id id'} (h : R id id') :
      ErrorLike R (.didNotExpectTag t id) (.didNotExpectTag t id')
  | invalidRule {m id id'} (h : R id id') : ErrorLike R (.invalidRule m id) (.invalidRule m id')
  | noRules : ErrorLike R .noRules .noRules
  | expectedEnd : ErrorLike R .expectedEnd .expectedEnd

/-- The errors are at the same place, and the same but for their debug ids. -/
def RErrLike (R : DebugId → DebugId → Prop) (e e' : RErr) : Prop :=
  e.range = e'.range ∧ ErrorLike R e.err e'.err

mutual
/-- The rule with every debug id changed by `f`. -/
def renumber (f : DebugId → DebugId) : Rule → Rule
  | .whitespace a id => .whitespace a (f id)
  | .tag a b c d id => .tag a b c d (f id)
  | .untilAny a b c id => .untilAny a b c (f id)
  | .untilAnyOrWs a b c id => .untilAnyOrWs a b c (f id)
  | .text a b id => .text a b (f id)
  | .number a b id => .number a b (f id)
  | .node a b c id => .node a b c (f id)
  | .select rs id => .select (renumberAll f rs) (f id)
  | .fastSelect t rs tl id => .fastSelect t (renumberAll f rs) tl (f id)
  | .sequence rs id => .sequence (renumberAll f rs) (f id)
  | .separateBy r b o t id => .separateBy (renumber f r) (renumber f b) o t (f id)
  | .repeat_ r o id => .repeat_ (renumber f r) o (f id)
  | .lines r i id => .lines (renumber f r) i (f id)
  | .optional r id => .optional (renumber f r) (f id)
  | .not r id => .not (renumber f r) (f id)
/-- The same for all rules of a list. -/
def renumberAll (f : DebugId → DebugId) : List Rule → List Rule
  | [] => []
  | r :: rs => renumber f r :: renumberAll f rs
end

/-- The error with its debug id changed by `f`. -/
def renumberError (f : DebugId → DebugId) : ParseError → ParseError
  | .expectedWhitespace id => .expectedWhitespace (f id)
  | .expectedNewLine id => .expectedNewLine (f id)
  | .expectedSomething id => .expectedSomething (f id)
  | .expectedNumber id => .expectedNumber (f id)
  | .parseNumberError e id => .parseNumberError e (f id)
  | .expectedText id => .expectedText (f id)
  | .emptyTextNotAllowed id => .emptyTextNotAllowed (f id)
  | .parseStringError e id => .parseStringError e (f id)
  | .expectedTag t id => .expectedTag t (f id)
  | .didNotExpectTag t id => .didNotExpectTag t (f id)
  | .invalidRule m id => .invalidRule m (f id)
  | .noRules => .noRules
  | .expectedEnd => .expectedEnd
  | .conversion m => .conversion m

end Verif.Spec
