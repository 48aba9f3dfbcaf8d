import Verif.Model.ConvertDepth
import Verif.Model.Calls
import Verif.Model.Syntax
/-
`syntax` with a bound on how deep its functions call themselves: src/lib.rs:217-230.

A call inside `d` others is cut off.  `convert` is bounded in Model/ConvertDepth.lean, and the depth of the calls of
`Rule::parse` is counted in Model/Calls.lean.
-/
namespace Verif

/-- `Rule::update_refs` -- src/meta_rules/rule.rs:128-190, at most `d` calls one inside the other. -/
def Rule.updateRefsTo (names : List Str) : Nat → Rule → Comp Rule
  | 0, _ => .timeout
  | d + 1, rule =>
    match rule with
    | .whitespace a b => .ok (.whitespace a b)
    | .tag a b c d e => .ok (.tag a b c d e)
    | .untilAny a b c d => .ok (.untilAny a b c d)
    | .untilAnyOrWs a b c d => .ok (.untilAnyOrWs a b c d)
    | .text a b c => .ok (.text a b c)
    | .number a b c => .ok (.number a b c)
    | .node name prop none id => .ok (.node name prop (findName name 0 names) id)
    | .node name prop (some i) id => .ok (.node name prop (some i) id)
    | .fastSelect t args tl id => .ok (.fastSelect t args tl id)
    | .sequence args id => do
      let args' ← Comp.all (args.map (Rule.updateRefsTo names d))
      return .sequence args' id
    | .select args id => do
      let args' ← Comp.all (args.map (Rule.updateRefsTo names d))
      return .select args' id
    | .separateBy r b o t id => do
      let r' ← Rule.updateRefsTo names d r
      let b' ← Rule.updateRefsTo names d b
      return .separateBy r' b' o t id
    | .repeat_ r o id => do
      let r' ← Rule.updateRefsTo names d r
      return .repeat_ r' o id
    | .lines r i id => do
      let r' ← Rule.updateRefsTo names d r
      return .lines r' i id
    | .optional r id => do
      let r' ← Rule.updateRefsTo names d r
      return .optional r' id
    | .not r id => do
      let r' ← Rule.updateRefsTo names d r
      return .not r' id

/-- `update_refs` -- src/meta_rules/mod.rs:119-123. -/
def Syntax.updateRefsTo (d : Nat) (syn : Syntax) : Comp Syntax := do
  let rules ← Comp.all (syn.rules.map (Rule.updateRefsTo syn.names d))
  return ⟨rules, syn.names⟩

/-- `optimize_rule` -- src/optimize.rs:78-184, at most `d` calls of it and of `unique_byte` one inside the other. -/
def optimizeRuleTo (refs : List Rule) : Nat → Rule → Comp Rule
  | 0, _ => .timeout
  | d + 1, rule =>
    match rule with
    | .whitespace a b => .ok (.whitespace a b)
    | .tag a b c d e => .ok (.tag a b c d e)
    | .untilAny a b c d => .ok (.untilAny a b c d)
    | .untilAnyOrWs a b c d => .ok (.untilAnyOrWs a b c d)
    | .text a b c => .ok (.text a b c)
    | .number a b c => .ok (.number a b c)
    | .node a b c d => .ok (.node a b c d)
    | .fastSelect t args tl id => .ok (.fastSelect t args tl id)
    | .sequence args id => do
      let args' ← Comp.all (args.map (optimizeRuleTo refs d))
      return .sequence args' id
    | .select args id => optimizeSelect refs d args (args.map (optimizeRuleTo refs d)) id
    | .separateBy r b o t id => do
      let r' ← optimizeRuleTo refs d r
      let b' ← optimizeRuleTo refs d b
      return .separateBy r' b' o t id
    | .repeat_ r o id => do
      let r' ← optimizeRuleTo refs d r
      return .repeat_ r' o id
    | .lines r i id => do
      let r' ← optimizeRuleTo refs d r
      return .lines r' i id
    | .optional r id => do
      let r' ← optimizeRuleTo refs d r
      return .optional r' id
    | .not r id => do
      let r' ← optimizeRuleTo refs d r
      return .not r' id

/-- `Syntax::optimize` -- src/lib.rs:210-213. -/
def Syntax.optimizeTo (d : Nat) (syn : Syntax) : Comp Syntax := do
  let rules ← Comp.all (syn.rules.map (optimizeRuleTo syn.rules d))
  return ⟨rules, syn.names⟩

/-- `convert` up to the call of `update_refs` -- src/bootstrap/convert.rs:142-899. -/
def rawToM (d n : Nat) (data : List Tok) : CM Syntax := do
  let (c, strings) ← Convert.stringsLoop n n (.new data) []
  Convert.nodesLoopTo strings d n n c .new

/-- `convert` -- src/bootstrap/convert.rs:142-901, with `update_refs` bounded as well. -/
def convertAllTo (d n : Nat) (data : List Tok) : Comp (Option Syntax) :=
  match rawToM d n data ⟨0, []⟩ with
  | .ok (some syn, _) => do
    let syn ← syn.updateRefsTo d
    return some syn
  | .ok (none, _) => .ok none
  | .panic => .panic
  | .timeout => .timeout

/-- How deep `Rule::parse` calls itself in `parse(rules, text)`. -/
def parseDepth (L : Lexer) (n : Nat) (rules : Syntax) (text : Str) : Nat :=
  match firstCall rules text [] Indent.default with
  | some c => callDepth L rules.rules n c
  | none => 0

/-- `syntax` -- src/lib.rs:217-230, in which the calls of each function are at most `d` deep. -/
def readSyntaxTo (L : Lexer) (d n : Nat) (rules : Str) : Comp (Except RErr Syntax) := do
  let bootstrap ← bootstrapRules.optimize n
  if d < parseDepth L n bootstrap rules then .timeout else
  match Verif.parse L n bootstrap rules [] with
  | .timeout => .timeout
  | .panic => .panic
  | .err e _ => return .error e
  | .ok tokens =>
    match ← convertAllTo d n tokens with
    | some res =>
      let syn ← res.optimizeTo d
      return .ok syn
    | none => return .error conversionError

end Verif
