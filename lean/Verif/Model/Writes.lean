import Verif.Model.Calls
/-
What the vector `tokens` holds after each time `read_data` has pushed an item.

`read_data` (src/tokenizer.rs:9-20) is the only place where a rule changes the vector: it cuts it off at
the length in the state and pushes one item.  `writes` lists the vector after each of these, in order.
The calls are those of Model/Calls.lean.
-/
namespace Verif

/-- The name under which a rule records an item itself: `property` in src/meta_rules/tag.rs:49 and 65,
until_any.rs:40, until_any_or_whitespace.rs:41, text.rs:45, number.rs:44 and node.rs:56 and 78. -/
def Rule.records : Rule → Option Str
  | .whitespace .. => none
  | .tag _ _ _ prop _ => prop
  | .untilAny _ _ prop _ => prop
  | .untilAnyOrWs _ _ prop _ => prop
  | .text _ prop _ => prop
  | .number prop _ _ => prop
  | .select .. => none
  | .fastSelect .. => none
  | .sequence .. => none
  | .separateBy .. => none
  | .repeat_ .. => none
  | .lines .. => none
  | .node _ prop _ _ => prop
  | .optional .. => none
  | .not .. => none

/-- The item that `Node::parse` pushes before it calls its rule -- src/meta_rules/node.rs:56-64. -/
def startWrite (c : Call) : List (List Tok) :=
  match c.rule with
  | .node _ (some name) (some _) _ => [(pushOpt (some name) .startNode c.p.start c.st c.s).1.toks]
  | _ => []

/-- The item that a rule pushes last, if it does not fail -- src/meta_rules/tag.rs:49-61 and 65-78,
until_any.rs:40-50, until_any_or_whitespace.rs:41-51, text.rs:45-54, number.rs:44-52, node.rs:78-86. -/
def endWrite (c : Call) (out : Out) : List (List Tok) :=
  match c.rule.records, out with
  | some _, .ret (.ok ..) st => [st.toks]
  | _, _ => []

/-- The vector after each item that is pushed while a call runs, cut off at depth `n`. -/
def writes (L : Lexer) (refs : List Rule) : Nat → Call → List (List Tok)
  | 0, _ => []
  | n + 1, c =>
    startWrite c ++ (subcalls L refs (eval L refs n) n c).flatMap (writes L refs n) ++
      endWrite c (c.run (eval L refs (n + 1)))

end Verif
