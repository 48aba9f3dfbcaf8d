import Verif.Model.Syntax
/-
The calls of `optimize_rule`, counted: src/optimize.rs:78-184, src/lib.rs:210-230.

These are the definitions of `Model/Optimize` and of `readSyntax` once more, where each result comes with the
number of calls of `optimize_rule` that were made for it.
-/
namespace Verif

/-- `iter().map(..).collect()`, with the calls of all. -/
def Comp.allCounted {α : Type} (xs : List (Comp (α × Nat))) : Comp (List α × Nat) := do
  let as ← Comp.all xs
  return (as.map (·.1), (as.map (·.2)).sum)

/-- The `Rule::Select` case of `optimize_rule` -- src/optimize.rs:131-181, with the number of calls
of `optimize_rule` it makes.  `opts` are the calls `optimize_rule(arg, refs)`, in the order of the arguments; those
that are made twice are counted twice. -/
def optimizeSelectCounted (refs : List Rule) (n : Nat) (args : List Rule) (opts : List (Comp (Rule × Nat)))
    (id : DebugId) : Comp (Rule × Nat) :=
  match uniqueTable refs n args with
  | .panic => .panic
  | .timeout => .timeout
  | .ok (table, upTo) =>
    if upTo < 2 then
      -- lines 149-152
      let plain : Comp (Rule × Nat) := do
        let (args', k) ← Comp.allCounted opts
        return (.select args' id, k)
      if args.length > 2 then do
        -- lines 135-138
        let (rest, k) ← Comp.allCounted (opts.drop 1)
        let tryOpt : Rule := .select rest id
        match tryOpt with
        | .fastSelect _ _ _ _ =>
          -- lines 139-147
          let (first, k') ← Comp.allCounted (opts.take 1)
          return (.select (first ++ [tryOpt]) id, k + k')
        | _ =>
          let (r, k') ← plain
          return (r, k + k')
      else plain
    else do
      let (args', k) ← Comp.allCounted (opts.take upTo)
      if upTo < args.length then do
        let (rest, k') ← Comp.allCounted (opts.drop upTo)
        return (.fastSelect table (args' ++ [.select rest id]) true id, k + k')
      else return (.fastSelect table args' false id, k)

mutual
/-- `optimize_rule` -- src/optimize.rs:78-184, with the number of its calls, the first one included. -/
def optimizeRuleCounted (refs : List Rule) (n : Nat) : Rule → Comp (Rule × Nat)
  | .whitespace a b => .ok (.whitespace a b, 1)
  | .tag a b c d e => .ok (.tag a b c d e, 1)
  | .untilAny a b c d => .ok (.untilAny a b c d, 1)
  | .untilAnyOrWs a b c d => .ok (.untilAnyOrWs a b c d, 1)
  | .text a b c => .ok (.text a b c, 1)
  | .number a b c => .ok (.number a b c, 1)
  | .node a b c d => .ok (.node a b c d, 1)
  | .fastSelect t args tl id => .ok (.fastSelect t args tl id, 1)
  | .sequence args id => do
    let (args', k) ← Comp.allCounted (optimizeRulesCounted refs n args)
    return (.sequence args' id, 1 + k)
  | .separateBy r b o t id => do
    let (r', k) ← optimizeRuleCounted refs n r
    let (b', k') ← optimizeRuleCounted refs n b
    return (.separateBy r' b' o t id, 1 + (k + k'))
  | .repeat_ r o id => do
    let (r', k) ← optimizeRuleCounted refs n r
    return (.repeat_ r' o id, 1 + k)
  | .lines r i id => do
    let (r', k) ← optimizeRuleCounted refs n r
    return (.lines r' i id, 1 + k)
  | .optional r id => do
    let (r', k) ← optimizeRuleCounted refs n r
    return (.optional r' id, 1 + k)
  | .not r id => do
    let (r', k) ← optimizeRuleCounted refs n r
    return (.not r' id, 1 + k)
  | .select args id => do
    let (r', k) ← optimizeSelectCounted refs n args (optimizeRulesCounted refs n args) id
    return (r', 1 + k)
/-- The calls on the arguments of a rule. -/
def optimizeRulesCounted (refs : List Rule) (n : Nat) : List Rule → List (Comp (Rule × Nat))
  | [] => []
  | r :: rs => optimizeRuleCounted refs n r :: optimizeRulesCounted refs n rs
end

/-- `Syntax::optimize` -- src/lib.rs:210-213. -/
def Syntax.optimizeCounted (n : Nat) (syn : Syntax) : Comp (Syntax × Nat) := do
  let (rules, k) ← Comp.allCounted (syn.rules.map (optimizeRuleCounted syn.rules n))
  return (⟨rules, syn.names⟩, k)

/-- `syntax` -- src/lib.rs:217-230, with the number of calls of `optimize_rule` at line 226, that is without those for
`BOOTSTRAP_RULES`, which is computed once. -/
def readSyntaxCounted (L : Lexer) (n : Nat) (rules : Str) : Comp (Except RErr Syntax × Nat) := do
  let bootstrap ← bootstrapRules.optimize n
  match parse L n bootstrap rules [] with
  | .timeout => .timeout
  | .panic => .panic
  | .err e _ => return (.error e, 0)
  | .ok tokens =>
    let (res, _) ← convert n tokens []
    match res with
    | some res =>
      let (syn, k) ← res.optimizeCounted n
      return (.ok syn, k)
    | none => return (.error conversionError, 0)

end Verif
