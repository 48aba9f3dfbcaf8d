import Verif.Spec.ByteCost
import Verif.Spec.Cost
import Verif.Spec.ConvertDepth
import Verif.Model.StackDepth
/-
How deep `syntax` calls itself.
-/
namespace Verif.Spec

/-- `syntax(text)` returns `r`, and the calls of none of its functions are more than `d` deep. -/
def SyntaxWithin (L : Lexer) (d : Nat) (text : Str) (r : Except RErr Syntax) : Prop :=
  ∃ n, readSyntaxTo L d n text = .ok r

mutual
/-- How many rules are one inside the other; a table is not looked into. -/
def outerDepth : Rule → Nat
  | .select args _ => outerDepths args + 1
  | .sequence args _ => outerDepths args + 1
  | .separateBy r b _ _ _ => max (outerDepth r) (outerDepth b) + 1
  | .repeat_ r _ _ => outerDepth r + 1
  | .lines r _ _ => outerDepth r + 1
  | .optional r _ => outerDepth r + 1
  | .not r _ => outerDepth r + 1
  | _ => 1
/-- The deepest of them. -/
def outerDepths : List Rule → Nat
  | [] => 0
  | r :: rs => max (outerDepth r) (outerDepths rs)
end

/-- The longest chain of calls of `unique_byte` for the table of a select. -/
noncomputable def tableDepth (refs args : List Rule) : Nat :=
  ((reached refs [] args).map (chainLength refs)).foldr max 0

mutual
/-- How deep the calls of `optimize_rule` and `unique_byte` for a rule are. -/
noncomputable def optDepth (refs : List Rule) : Rule → Nat
  | .select args _ => max (tableDepth refs args) (optDepths refs args) + 1
  | .sequence args _ => optDepths refs args + 1
  | .separateBy r b _ _ _ => max (optDepth refs r) (optDepth refs b) + 1
  | .repeat_ r _ _ => optDepth refs r + 1
  | .lines r _ _ => optDepth refs r + 1
  | .optional r _ => optDepth refs r + 1
  | .not r _ => optDepth refs r + 1
  | _ => 1
/-- The deepest of them. -/
noncomputable def optDepths (refs : List Rule) : List Rule → Nat
  | [] => 0
  | r :: rs => max (optDepth refs r) (optDepths refs rs)
end

end Verif.Spec
