import Verif.Model.OptCalls
import Verif.Spec.Notation
import Verif.Spec.Optimize
/-
What the optimizer costs: calls of `optimize_rule`.
-/
namespace Verif.Spec

/-- `syn.optimize()` returns `syn'` after `m` calls of `optimize_rule`. -/
def OptimizesIn (syn syn' : Syntax) (m : Nat) : Prop := ∃ n, syn.optimizeCounted n = .ok (syn', m)

/-- `syntax(text)` returns `r`; `optimize_rule` is called `m` times on parts of the rules of the text. -/
def SyntaxReturnsIn (L : Lexer) (text : Str) (r : Except RErr Syntax) (m : Nat) : Prop :=
  ∃ n, readSyntaxCounted L n text = .ok (r, m)

/-- There are three alternatives or more, and the first two do not begin with different bytes, as far as can be seen
from the rules. -/
def TriedTwice (refs : List Rule) : List Rule → Prop
  | a :: a' :: _ :: _ => ¬ ∃ b b', BeginsWith refs a b ∧ BeginsWith refs a' b' ∧ b ≠ b'
  | _ => False

open Classical in
mutual
/-- The calls of `optimize_rule` for a rule: one for each of its parts, but two for those in an alternative of a
select that is tried twice, apart from the first alternative; so that they double with each such select around a part.
A table is not looked into. -/
noncomputable def optWork (refs : List Rule) : Rule → Nat
  | .select args _ => 1 + (optWorks refs args + if TriedTwice refs args then optWorksRest refs args else 0)
  | .sequence args _ => 1 + optWorks refs args
  | .separateBy r b _ _ _ => 1 + (optWork refs r + optWork refs b)
  | .repeat_ r _ _ => 1 + optWork refs r
  | .lines r _ _ => 1 + optWork refs r
  | .optional r _ => 1 + optWork refs r
  | .not r _ => 1 + optWork refs r
  | _ => 1
/-- For all of them. -/
noncomputable def optWorks (refs : List Rule) : List Rule → Nat
  | [] => 0
  | r :: rs => optWork refs r + optWorks refs rs
/-- For all but the first. -/
noncomputable def optWorksRest (refs : List Rule) : List Rule → Nat
  | [] => 0
  | _ :: rs => optWorks refs rs
end

open Classical in
mutual
/-- How many selects that are tried twice are around each other in the rule. -/
noncomputable def nesting (refs : List Rule) : Rule → Nat
  | .select args _ => (if TriedTwice refs args then 1 else 0) + nestings refs args
  | .sequence args _ => nestings refs args
  | .separateBy r b _ _ _ => max (nesting refs r) (nesting refs b)
  | .repeat_ r _ _ => nesting refs r
  | .lines r _ _ => nesting refs r
  | .optional r _ => nesting refs r
  | .not r _ => nesting refs r
  | _ => 0
/-- The largest of them. -/
noncomputable def nestings (refs : List Rule) : List Rule → Nat
  | [] => 0
  | r :: rs => max (nesting refs r) (nestings refs rs)
end

mutual
/-- The number of rules in a rule, itself included; a table counts as one. -/
def outerSize : Rule → Nat
  | .select args _ => 1 + outerSizes args
  | .sequence args _ => 1 + outerSizes args
  | .separateBy r b _ _ _ => 1 + (outerSize r + outerSize b)
  | .repeat_ r _ _ => 1 + outerSize r
  | .lines r _ _ => 1 + outerSize r
  | .optional r _ => 1 + outerSize r
  | .not r _ => 1 + outerSize r
  | _ => 1
/-- In all of them. -/
def outerSizes : List Rule → Nat
  | [] => 0
  | r :: rs => outerSize r + outerSizes rs
end

/-- `k` selects that are tried twice around each other, each but the innermost in an alternative of the one around it
that is not the first. -/
inductive TwiceChain (refs : List Rule) : Nat → Rule → Prop
  | zero {r} : TwiceChain refs 0 r
  | part {k c r} (h : Child c r) (h' : NotTable r) (hk : TwiceChain refs k c) : TwiceChain refs k r
  | twice {k a c l id} (h : TriedTwice refs (a :: l)) (hc : c ∈ l) (hk : TwiceChain refs k c) :
      TwiceChain refs (k + 1) (.select (a :: l) id)

/-- `k` selects in each other: `{.w? .w? {.w? .w? .. .w?}}`. -/
def nestText : Nat → Str
  | 0 => c!".w?"
  | k + 1 => c!"{.w? .w? " ++ (nestText k ++ c!"}")

/-- A rule file with these selects. -/
def nestFile (k : Nat) : Str := c!"1 a = " ++ nestText k

/-- The same as a description. -/
def nestDesc : Nat → Desc
  | 0 => .whitespace true
  | k + 1 => .select [.whitespace true, .whitespace true, nestDesc k]

/-- The same as a rule; the ids begin after `i`. -/
def nestRule : Nat → DebugId → Rule
  | 0, i => .whitespace true (i + 1)
  | k + 1, i => .select [.whitespace true (i + 1), .whitespace true (i + 2), nestRule k (i + 2)] (i + (3 * k + 4))

end Verif.Spec
