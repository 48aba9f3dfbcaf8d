import Verif.Spec.Tree
/-
How many numbers a tree has.
-/
namespace Verif.Spec

mutual
/-- The numbers of a tree. -/
def Tree.numbers : Tree → Nat
  | .node _ _ cs => 1 + Tree.numbersList cs
/-- The numbers of trees. -/
def Tree.numbersList : List Tree → Nat
  | [] => 0
  | t :: ts => t.numbers + Tree.numbersList ts
end

end Verif.Spec
