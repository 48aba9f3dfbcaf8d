import Verif.Model.Basic
/-
`==` on rules, syntaxes and meta data: `derive(PartialEq)` compares the fields in order.
-/
namespace Verif

/-- `PartialEq for MetaData` -- src/lib.rs:171.  Numbers compare as floats. -/
def MetaData.peq : MetaData → MetaData → Bool
  | .startNode a, .startNode b => a == b
  | .endNode a, .endNode b => a == b
  | .bool a x, .bool b y => a == b && x == y
  | .f64 a x, .f64 b y => a == b && x.feq y
  | .string a x, .string b y => a == b && x == y
  | _, _ => false

mutual
/-- `PartialEq for Rule` -- src/meta_rules/rule.rs:28 and the `derive(PartialEq)` on the structures of
the variants; `PartialEq for FastSelect`, src/meta_rules/fast_select.rs:32-34, is always false. -/
def Rule.peq : Rule → Rule → Bool
  | .whitespace o i, .whitespace o' i' => o == o' && i == i'
  | .tag t n v p i, .tag t' n' v' p' i' => t == t' && n == n' && v == v' && p == p' && i == i'
  | .untilAny a o p i, .untilAny a' o' p' i' => a == a' && o == o' && p == p' && i == i'
  | .untilAnyOrWs a o p i, .untilAnyOrWs a' o' p' i' => a == a' && o == o' && p == p' && i == i'
  | .text e p i, .text e' p' i' => e == e' && p == p' && i == i'
  | .number p u i, .number p' u' i' => p == p' && u == u' && i == i'
  | .select rs i, .select rs' i' => Rule.peqL rs rs' && i == i'
  | .fastSelect _ _ _ _, .fastSelect _ _ _ _ => false
  | .sequence rs i, .sequence rs' i' => Rule.peqL rs rs' && i == i'
  | .separateBy r b o t i, .separateBy r' b' o' t' i' => Rule.peq r r' && Rule.peq b b' && o == o' && t == t' && i == i'
  | .repeat_ r o i, .repeat_ r' o' i' => Rule.peq r r' && o == o' && i == i'
  | .lines r o i, .lines r' o' i' => Rule.peq r r' && o == o' && i == i'
  | .node n p x i, .node n' p' x' i' => n == n' && p == p' && x == x' && i == i'
  | .optional r i, .optional r' i' => Rule.peq r r' && i == i'
  | .not r i, .not r' i' => Rule.peq r r' && i == i'
  | _, _ => false
/-- `Vec<Rule> == Vec<Rule>`. -/
def Rule.peqL : List Rule → List Rule → Bool
  | [], [] => true
  | r :: rs, r' :: rs' => Rule.peq r r' && Rule.peqL rs rs'
  | _, _ => false
end

/-- `PartialEq for Syntax` -- src/lib.rs:186. -/
def Syntax.peq (a b : Syntax) : Bool := Rule.peqL a.rules b.rules && a.names == b.names

end Verif
