import Verif.Spec.Peg
import Verif.Spec.Safe
/-
Syntaxes put together from others.
-/
namespace Verif.Spec

/-- An expression with its references renamed. -/
def Peg.rename (f : Nat → Nat) : Peg → Peg
  | .empty => .empty
  | .char C => .char C
  | .token g => .token g
  | .seq a b => .seq (a.rename f) (b.rename f)
  | .alt a b => .alt (a.rename f) (b.rename f)
  | .star a => .star (a.rename f)
  | .neg a => .neg (a.rename f)
  | .ref i => .ref (f i)

/-- All references are to the first `n` expressions. -/
def Peg.Closed (n : Nat) : Peg → Prop
  | .seq a b => a.Closed n ∧ b.Closed n
  | .alt a b => a.Closed n ∧ b.Closed n
  | .star a => a.Closed n
  | .neg a => a.Closed n
  | .ref i => i < n
  | _ => True

mutual
/-- A rule with its references renamed. -/
def renameRule (f : Nat → Nat) : Rule → Rule
  | .node name prop ix id => .node name prop (ix.map f) id
  | .select args id => .select (renameRules f args) id
  | .fastSelect t args tail id => .fastSelect t (renameRules f args) tail id
  | .sequence args id => .sequence (renameRules f args) id
  | .separateBy r b opt trail id => .separateBy (renameRule f r) (renameRule f b) opt trail id
  | .repeat_ r opt id => .repeat_ (renameRule f r) opt id
  | .lines r ind id => .lines (renameRule f r) ind id
  | .optional r id => .optional (renameRule f r) id
  | .not r id => .not (renameRule f r) id
  | .whitespace opt id => .whitespace opt id
  | .tag t not inv prop id => .tag t not inv prop id
  | .untilAny any opt prop id => .untilAny any opt prop id
  | .untilAnyOrWs any opt prop id => .untilAnyOrWs any opt prop id
  | .text empty prop id => .text empty prop id
  | .number prop us id => .number prop us id
def renameRules (f : Nat → Nat) : List Rule → List Rule
  | [] => []
  | r :: rs => renameRule f r :: renameRules f rs
end

/-- The end of the text: not at least one character. -/
def endRule : Rule := .not (.untilAny [] false none 0) 0

/-- All that is left of the text. -/
def restRule : Rule := .untilAny [] true none 0

/-- A reference to the last of the first `n` rules. -/
def lastRuleOf (n : Nat) : Rule := .node [] none (some (n - 1)) 0

/-- The other texts: not (the last rule and then the end), and then the text. -/
def others (syn : Syntax) : Syntax :=
  ⟨syn.rules ++ [.sequence [.not (.sequence [lastRuleOf syn.rules.length, endRule] 0) 0, restRule] 0], syn.names ++ [[]]⟩

/-- The rules of both, those of the second after those of the first. -/
def together (a b : Syntax) : List Rule := a.rules ++ b.rules.map (renameRule (a.rules.length + ·))

/-- The texts of both: not not (the first and then the end), and then the second. -/
def common (a b : Syntax) : Syntax :=
  ⟨together a b ++ [.sequence [.not (.not (.sequence [lastRuleOf a.rules.length, endRule] 0) 0) 0,
    lastRuleOf (together a b).length] 0], a.names ++ b.names ++ [[]]⟩

/-- The texts of either: the first and then the end, or the second. -/
def eitherOf (a b : Syntax) : Syntax :=
  ⟨together a b ++ [.select [.sequence [lastRuleOf a.rules.length, endRule] 0, lastRuleOf (together a b).length] 0],
    a.names ++ b.names ++ [[]]⟩

end Verif.Spec
