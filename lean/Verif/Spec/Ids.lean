import Verif.Model.Basic
/-
The debug ids of a rule, and rules without them.
-/
namespace Verif.Spec

mutual
/-- All debug ids of a rule: those of its parts, then its own. -/
def Rule.ids : Rule → List Nat
  | .whitespace _ id => [id]
  | .tag _ _ _ _ id => [id]
  | .untilAny _ _ _ id => [id]
  | .untilAnyOrWs _ _ _ id => [id]
  | .text _ _ id => [id]
  | .number _ _ id => [id]
  | .select args id => Rule.idsL args ++ [id]
  | .fastSelect _ args _ id => Rule.idsL args ++ [id]
  | .sequence args id => Rule.idsL args ++ [id]
  | .separateBy r b _ _ id => Rule.ids b ++ Rule.ids r ++ [id]
  | .repeat_ r _ id => Rule.ids r ++ [id]
  | .lines r _ id => Rule.ids r ++ [id]
  | .node _ _ _ id => [id]
  | .optional r id => Rule.ids r ++ [id]
  | .not r id => Rule.ids r ++ [id]
def Rule.idsL : List Rule → List Nat
  | [] => []
  | r :: rs => Rule.ids r ++ Rule.idsL rs
end

mutual
/-- The rule without debug ids and resolved references. -/
def Rule.anon : Rule → Rule
  | .whitespace a _ => .whitespace a 0
  | .tag a b c d _ => .tag a b c d 0
  | .untilAny a b c _ => .untilAny a b c 0
  | .untilAnyOrWs a b c _ => .untilAnyOrWs a b c 0
  | .text a b _ => .text a b 0
  | .number a b _ => .number a b 0
  | .select args _ => .select (Rule.anonL args) 0
  | .fastSelect t args tl _ => .fastSelect t (Rule.anonL args) tl 0
  | .sequence args _ => .sequence (Rule.anonL args) 0
  | .separateBy r b o t _ => .separateBy (Rule.anon r) (Rule.anon b) o t 0
  | .repeat_ r o _ => .repeat_ (Rule.anon r) o 0
  | .lines r i _ => .lines (Rule.anon r) i 0
  | .node n p _ _ => .node n p none 0
  | .optional r _ => .optional (Rule.anon r) 0
  | .not r _ => .not (Rule.anon r) 0
def Rule.anonL : List Rule → List Rule
  | [] => []
  | r :: rs => Rule.anon r :: Rule.anonL rs
end

mutual
/-- No table look-up in the rule. -/
def Rule.NoTable : Rule → Prop
  | .fastSelect .. => False
  | .select args _ => Rule.NoTableL args
  | .sequence args _ => Rule.NoTableL args
  | .separateBy r b _ _ _ => Rule.NoTable r ∧ Rule.NoTable b
  | .repeat_ r _ _ => Rule.NoTable r
  | .lines r _ _ => Rule.NoTable r
  | .optional r _ => Rule.NoTable r
  | .not r _ => Rule.NoTable r
  | _ => True
def Rule.NoTableL : List Rule → Prop
  | [] => True
  | r :: rs => Rule.NoTable r ∧ Rule.NoTableL rs
end

/-- The rule has different ids after `1000 k`, at most `L` of them, where `k` is the number of a
node in the data, or zero for a node without number. -/
def NodeIds (L : Nat) (data : List Tok) (r : Rule) : Prop :=
  ∃ k, (k = 0 ∨ ∃ t ∈ data, ∃ v, t.data = .f64 c!"id" v ∧ k = v.toUsize) ∧
    (Rule.ids r).Nodup ∧ ∀ x ∈ Rule.ids r, 1000 * k < x ∧ x ≤ 1000 * k + L

end Verif.Spec
