import Verif.Model.ByteCalls
import Verif.Spec.OptCost
/-
What the optimizer costs: calls of `unique_byte`.
-/
namespace Verif.Spec

/-- `syn.optimize()` returns `syn'` after `m` calls of `unique_byte`. -/
def OptimizesBytes (syn syn' : Syntax) (m : Nat) : Prop := ∃ n, syn.optimizeBytes n = .ok (syn', m)

/-- `unique_byte(r, refs)` returns `o` after `m` calls of `unique_byte`, itself included. -/
def UniqueByteIn (refs : List Rule) (r : Rule) (o : Option UInt8) (m : Nat) : Prop :=
  ∃ n, uniqueByteCounted refs n r = .ok (o, m)

/-- `m` rules, of which `r` is the first, each but the first is the one on which `unique_byte` calls itself for the one
before, and for the last it does not call itself. -/
inductive ByteChain (refs : List Rule) : Rule → Nat → Prop
  | last {r} (h : ∀ c, ¬ ByteCall refs c r) (hd : ¬ Dangling refs r) : ByteChain refs r 1
  | step {c r m} (h : ByteCall refs c r) (hc : ByteChain refs c m) : ByteChain refs r (m + 1)

open Classical in
/-- How long the chain is. -/
noncomputable def chainLength (refs : List Rule) (r : Rule) : Nat :=
  if h : ∃ m, ByteChain refs r m then h.choose else 0

open Classical in
/-- The alternatives to which `unique_table_from_select` comes, after those in `pre`. -/
noncomputable def reached (refs : List Rule) (pre : List Rule) : List Rule → List Rule
  | [] => []
  | a :: rest => if ComesAfter refs pre then a :: reached refs (pre ++ [a]) rest else []

/-- The calls of `unique_byte` for the table of a select. -/
noncomputable def tableCalls (refs args : List Rule) : Nat := ((reached refs [] args).map (chainLength refs)).sum

open Classical in
mutual
/-- The calls of `unique_byte` for a rule: those for the table of each select in it, but twice those in an alternative
of a select that is tried twice, apart from the first alternative.  A table is not looked into. -/
noncomputable def byteWork (refs : List Rule) : Rule → Nat
  | .select args _ => tableCalls refs args +
      (byteWorks refs args + if TriedTwice refs args then byteWorksRest refs args else 0)
  | .sequence args _ => byteWorks refs args
  | .separateBy r b _ _ _ => byteWork refs r + byteWork refs b
  | .repeat_ r _ _ => byteWork refs r
  | .lines r _ _ => byteWork refs r
  | .optional r _ => byteWork refs r
  | .not r _ => byteWork refs r
  | _ => 0
/-- For all of them. -/
noncomputable def byteWorks (refs : List Rule) : List Rule → Nat
  | [] => 0
  | r :: rs => byteWork refs r + byteWorks refs rs
/-- For all but the first. -/
noncomputable def byteWorksRest (refs : List Rule) : List Rule → Nat
  | [] => 0
  | _ :: rs => byteWorks refs rs
end

/-- `k` selects of one alternative in each other, with a tag in the innermost. -/
def boxed : Nat → Rule
  | 0 => .tag c!"a" false false none 0
  | k + 1 => .select [boxed k] 0

end Verif.Spec
