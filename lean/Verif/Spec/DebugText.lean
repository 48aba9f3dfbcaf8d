import Verif.Model.Basic
/-
What `{:?}` does not show of a rule.
-/
namespace Verif

mutual
/-- The rule without what its tables hold. -/
def Rule.blank : Rule → Rule
  | .select rs i => .select (Rule.blankL rs) i
  | .fastSelect _ _ _ _ => .fastSelect (fun _ => 0) [] false 0
  | .sequence rs i => .sequence (Rule.blankL rs) i
  | .separateBy r b o t i => .separateBy r.blank b.blank o t i
  | .repeat_ r o i => .repeat_ r.blank o i
  | .lines r o i => .lines r.blank o i
  | .optional r i => .optional r.blank i
  | .not r i => .not r.blank i
  | r => r
/-- The rules without what their tables hold. -/
def Rule.blankL : List Rule → List Rule
  | [] => []
  | r :: rs => r.blank :: Rule.blankL rs
end

end Verif
