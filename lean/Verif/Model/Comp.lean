/-
Computations that may panic or not return.
-/
namespace Verif

/-- The outcome of a computation that may panic or be cut off. -/
inductive Comp (α : Type) where
  | ok (a : α)
  | panic
  | timeout
deriving DecidableEq, Repr

namespace Comp
/-- Sequencing. -/
def bind {α β : Type} (x : Comp α) (f : α → Comp β) : Comp β :=
  match x with
  | .ok a => f a
  | .panic => .panic
  | .timeout => .timeout
instance : Monad Comp where
  pure := .ok
  bind := bind
/-- `iter().map(..).collect()`: the results in order, or the first thing that goes wrong. -/
def all {α : Type} : List (Comp α) → Comp (List α)
  | [] => .ok []
  | x :: xs =>
    match x with
    | .ok a =>
      match all xs with
      | .ok as => .ok (a :: as)
      | .panic => .panic
      | .timeout => .timeout
    | .panic => .panic
    | .timeout => .timeout
end Comp

end Verif
