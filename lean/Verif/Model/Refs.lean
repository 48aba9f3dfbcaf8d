import Verif.Model.Basic
/-
Resolving references by name.
-/
namespace Verif

/-- The search loop of `Rule::update_refs` -- src/meta_rules/rule.rs:135-141: the position of the
first entry equal to `name`, counted from `i`. -/
def findName (name : Str) : Nat → List Str → Option Nat
  | _, [] => none
  | i, r :: rs => if name = r then some i else findName name (i + 1) rs

mutual
/-- `Rule::update_refs` -- src/meta_rules/rule.rs:128-190. -/
def Rule.updateRefs (names : List Str) : Rule → Rule
  | .node name prop none id => .node name prop (findName name 0 names) id
  | .node name prop (some i) id => .node name prop (some i) id
  | .whitespace a b => .whitespace a b
  | .tag a b c d e => .tag a b c d e
  | .untilAny a b c d => .untilAny a b c d
  | .untilAnyOrWs a b c d => .untilAnyOrWs a b c d
  | .text a b c => .text a b c
  | .number a b c => .number a b c
  | .fastSelect t args tl id => .fastSelect t args tl id
  | .select args id => .select (Rule.updateRefsL names args) id
  | .sequence args id => .sequence (Rule.updateRefsL names args) id
  | .separateBy r b o t id => .separateBy (Rule.updateRefs names r) (Rule.updateRefs names b) o t id
  | .repeat_ r o id => .repeat_ (Rule.updateRefs names r) o id
  | .lines r i id => .lines (Rule.updateRefs names r) i id
  | .optional r id => .optional (Rule.updateRefs names r) id
  | .not r id => .not (Rule.updateRefs names r) id
/-- The loops over `args` -- src/meta_rules/rule.rs:165-172. -/
def Rule.updateRefsL (names : List Str) : List Rule → List Rule
  | [] => []
  | r :: rs => Rule.updateRefs names r :: Rule.updateRefsL names rs
end

/-- `update_refs` -- src/meta_rules/mod.rs:119-123. -/
def Syntax.updateRefs (syn : Syntax) : Syntax :=
  ⟨syn.rules.map (Rule.updateRefs syn.names), syn.names⟩

end Verif
