import Verif.Spec.Tree
/-
Short texts of indented numbers that take long to read.  Every level has a line of tabs that reaches
further right than the column it belongs to, and two numbers beside each other at the end.
-/
namespace Verif.Spec

/-- The levels from `a` on, `n` of them; `d` is the digit. -/
def levels (d : Char) : Nat → Nat → Str
  | 0, _ => []
  | n + 1, a =>
    '\n' :: (List.replicate (a + 1) '\t' ++ d ::
    '\n' :: (List.replicate (a + 1) '\t' ++ d ::
    '\n' :: (List.replicate (4 * a + 5) ' ' ++ d :: (levels d n (a + 1) ++
    '\n' :: (List.replicate (a + 1) '\t' ++ d :: (List.replicate (4 * a + 3) ' ' ++ [d]))))))

/-- A text of `n` levels. -/
def slowTree (d : Char) (n : Nat) : Str := d :: '\n' :: ' ' :: d :: levels d n 0

end Verif.Spec
