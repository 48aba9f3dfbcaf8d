import Verif.Model.Calls
import Verif.Spec.Api
import Verif.Spec.WellFormed
/-
What a parse costs: calls of `Rule::parse`, and levels of recursion.
-/
namespace Verif.Spec

/-- `parse_with_indent(syn, text, &mut toks, &ind)` comes to an end after `m` calls of `Rule::parse`, at most `d` of
them open at the same time. -/
def Costs (L : Lexer) (syn : Syntax) (text : Str) (toks : List Tok) (ind : Indent) (m d : Nat) : Prop :=
  ∃ n c, firstCall syn text toks ind = some c ∧ c.run (eval L syn.rules n) ≠ .timeout ∧
    callCount L syn.rules n c = m ∧ callDepth L syn.rules n c = d

mutual
/-- The number of rules in a rule, itself included. -/
def ruleSize : Rule → Nat
  | .select args _ => 1 + rulesSize args
  | .fastSelect _ args _ _ => 1 + rulesSize args
  | .sequence args _ => 1 + rulesSize args
  | .separateBy r b _ _ _ => 1 + (ruleSize r + ruleSize b)
  | .repeat_ r _ _ => 1 + ruleSize r
  | .lines r _ _ => 1 + ruleSize r
  | .optional r _ => 1 + ruleSize r
  | .not r _ => 1 + ruleSize r
  | _ => 1
/-- The number of rules in all of them. -/
def rulesSize : List Rule → Nat
  | [] => 0
  | r :: rs => ruleSize r + rulesSize rs
end

/-- `Leads refs c r`: `c` is a part of `r`, or what `r` refers to. -/
inductive Leads (refs : List Rule) : Rule → Rule → Prop
  | child {c r} (h : Child c r) : Leads refs c r
  | node {name prop ix id c} (h : refs[ix]? = some c) : Leads refs c (.node name prop (some ix) id)

/-- No rule of the syntax leads back to itself, whether something is read in between or not. -/
def NonRecursive (refs : List Rule) : Prop := ∀ x, Part refs x → ¬ Relation.TransGen (Leads refs) x x

/-- `/*` followed by a filler, again and again, and never a `*/`. -/
def openings : List Str → Str
  | [] => []
  | w :: ws => '/' :: '*' :: (w ++ openings ws)

end Verif.Spec
