import Verif.Spec.Dead
import Verif.Spec.Change
/-
A syntax without the alternatives that never match.
-/
namespace Verif.Spec

section
variable (T : Nat → Bool)

mutual
/-- The rule without alternatives that never match, if only the rules with these numbers match. -/
def leaveOut : Rule → Rule
  | .select rs id => .select (leaveOutOf rs) id
  | .fastSelect tb rs tail id => .fastSelect tb (leaveOutAll rs) tail id
  | .sequence rs id => .sequence (leaveOutAll rs) id
  | .separateBy r b opt trail id => .separateBy (leaveOut r) (leaveOut b) opt trail id
  | .repeat_ r opt id => .repeat_ (leaveOut r) opt id
  | .lines r ind id => .lines (leaveOut r) ind id
  | .optional r id => .optional (leaveOut r) id
  | .not r id => .not (leaveOut r) id
  | r => r
/-- All of them. -/
def leaveOutAll : List Rule → List Rule
  | [] => []
  | r :: rs => leaveOut r :: leaveOutAll rs
/-- Those of them that may match. -/
def leaveOutOf : List Rule → List Rule
  | [] => []
  | r :: rs => if canMatch T r then leaveOut r :: leaveOutOf rs else leaveOutOf rs
end

end

/-- The syntax without alternatives that never match. -/
def withoutDead (syn : Syntax) : Syntax :=
  ⟨leaveOutAll (textAt (findMatches syn.rules syn.rules.length)) syn.rules, syn.names⟩

end Verif.Spec
