import Verif.Spec.Generates
import Verif.Spec.WellFormed
import Mathlib.Computability.ContextFreeGrammar
/-
Rules that read nothing but tags as productions of a context-free grammar.
-/
namespace Verif.Spec

/-- Nothing is read but tags, and nothing is looked for that must not be there. -/
def OnlyTags : Rule → Prop
  | .tag _ no _ _ _ => no = false
  | .whitespace _ _ | .untilAny _ _ _ _ | .untilAnyOrWs _ _ _ _ | .text _ _ _ | .number _ _ _ => False
  | .not _ _ | .fastSelect _ _ _ _ | .lines _ _ _ => False
  | _ => True

/-- What a goal may be replaced by. -/
def ways (refs : List Rule) : Goal → List (List (Symbol Char Goal))
  | .rule (.tag t _ _ _ _) => [t.map .terminal]
  | .rule (.select rs _) => rs.map fun r => [.nonterminal (.rule r)]
  | .rule (.sequence rs _) => [[.nonterminal (.seq rs)]]
  | .seq [] => [[]]
  | .seq (r :: rs) => [[.nonterminal (.rule r), .nonterminal (.seq rs)]]
  | .rule (.repeat_ r true _) => [[.nonterminal (.rep r)]]
  | .rule (.repeat_ r false _) => [[.nonterminal (.rule r), .nonterminal (.rep r)]]
  | .rep r => [[], [.nonterminal (.rule r), .nonterminal (.rep r)]]
  | .rule (.separateBy r b opt trail _) =>
    (if opt then [[]] else []) ++ [[.nonterminal (.rule r), .nonterminal (.sepTail r b trail)]]
  | .sepTail r b trail => (if trail then [[.nonterminal (.rule b)]] else []) ++
    [[], [.nonterminal (.rule b), .nonterminal (.rule r), .nonterminal (.sepTail r b trail)]]
  | .rule (.node _ _ (some ix) _) => (refs[ix]?).toList.map fun r => [.nonterminal (.rule r)]
  | .rule (.optional r _) => [[], [.nonterminal (.rule r)]]
  | _ => []

/-- The goals that are met. -/
def GoalOf (refs : List Rule) : Goal → Prop
  | .rule x => Part refs x
  | .seq rs => ∃ pre id, Part refs (.sequence (pre ++ rs) id)
  | .rep r => ∃ opt id, Part refs (.repeat_ r opt id)
  | .sepTail r b trail => ∃ opt id, Part refs (.separateBy r b opt trail id)
  | _ => False

end Verif.Spec
