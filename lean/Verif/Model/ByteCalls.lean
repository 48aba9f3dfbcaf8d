import Verif.Model.OptCalls
/-
The calls of `unique_byte`, counted: src/optimize.rs:13-184, src/lib.rs:210-213.

These are the definitions of `Model/Optimize` once more, where each result comes with the number of calls of
`unique_byte` that were made for it.
-/
namespace Verif

/-- One call more. -/
def Comp.oneMore {α : Type} (x : Comp (α × Nat)) : Comp (α × Nat) := do
  let (a, k) ← x
  return (a, k + 1)

/-- `unique_byte` -- src/optimize.rs:30-75, with the number of its calls, the first one included. -/
def uniqueByteCounted (refs : List Rule) : Nat → Rule → Comp (Option UInt8 × Nat)
  | 0, _ => .timeout
  | n + 1, rule =>
    match rule with
    | .whitespace _ _ => .ok (none, 1)
    | .untilAny _ _ _ _ => .ok (none, 1)
    | .untilAnyOrWs _ _ _ _ => .ok (none, 1)
    | .number _ _ _ => .ok (none, 1)
    | .lines _ _ _ => .ok (none, 1)
    | .optional _ _ => .ok (none, 1)
    | .fastSelect _ _ _ _ => .ok (none, 1)
    | .not (.not r _) _ => (uniqueByteCounted refs n r).oneMore
    | .not _ _ => .ok (none, 1)
    | .text _ _ _ => .ok (some 0x22, 1)
    | .select [a] _ => (uniqueByteCounted refs n a).oneMore
    | .select _ _ => .ok (none, 1)
    | .separateBy r _ optional _ _ => if optional then .ok (none, 1) else (uniqueByteCounted refs n r).oneMore
    | .sequence [] _ => .ok (none, 1)
    | .sequence (a :: _) _ => (uniqueByteCounted refs n a).oneMore
    | .repeat_ r optional _ => if optional then .ok (none, 1) else (uniqueByteCounted refs n r).oneMore
    | .node _ _ none _ => .ok (none, 1)
    | .node _ _ (some i) _ =>
      match refs[i]? with
      | none => .panic
      | some q => (uniqueByteCounted refs n q).oneMore
    | .tag text not _ _ _ =>
      if not then .ok (none, 1)
      else
        match text with
        | ch :: _ => .ok (some (firstByte ch), 1)
        | [] => .ok (none, 1)

/-- The loop of `unique_table_from_select` -- src/optimize.rs:16-24, from argument `i` on, with the calls of
`unique_byte` at line 18 and those in them. -/
def uniqueLoopCounted (refs : List Rule) (n : Nat) : Nat → List Rule → Table → Nat → Comp ((Table × Nat) × Nat)
  | _, [], data, upTo => .ok ((data, upTo), 0)
  | i, r :: rs, data, upTo =>
    if 255 ≤ i then .ok ((data, upTo), 0)
    else
      match uniqueByteCounted refs n r with
      | .ok (some b, k) =>
        if data b = 255 then do
          let (x, k') ← uniqueLoopCounted refs n (i + 1) rs (data.set b (UInt8.ofNat i)) (i + 1)
          return (x, k + k')
        else .ok ((data, upTo), k)
      | .ok (none, k) => .ok ((data, upTo), k)
      | .panic => .panic
      | .timeout => .timeout

/-- `unique_table_from_select` -- src/optimize.rs:13-26. -/
def uniqueTableCounted (refs : List Rule) (n : Nat) (args : List Rule) : Comp ((Table × Nat) × Nat) :=
  uniqueLoopCounted refs n 0 args (fun _ => 255) 0

/-- The `Rule::Select` case of `optimize_rule` -- src/optimize.rs:131-181, with the number of calls of `unique_byte`:
those for the table and those in the calls `optimize_rule(arg, refs)`, which are `opts`. -/
def optimizeSelectBytes (refs : List Rule) (n : Nat) (args : List Rule) (opts : List (Comp (Rule × Nat)))
    (id : DebugId) : Comp (Rule × Nat) :=
  match uniqueTableCounted refs n args with
  | .panic => .panic
  | .timeout => .timeout
  | .ok ((table, upTo), k0) =>
    if upTo < 2 then
      -- lines 149-152
      let plain : Comp (Rule × Nat) := do
        let (args', k) ← Comp.allCounted opts
        return (.select args' id, k)
      if args.length > 2 then do
        -- lines 135-138
        let (rest, k) ← Comp.allCounted (opts.drop 1)
        let tryOpt : Rule := .select rest id
        match tryOpt with
        | .fastSelect _ _ _ _ =>
          -- lines 139-147
          let (first, k') ← Comp.allCounted (opts.take 1)
          return (.select (first ++ [tryOpt]) id, k0 + (k + k'))
        | _ =>
          let (r, k') ← plain
          return (r, k0 + (k + k'))
      else do
        let (r, k) ← plain
        return (r, k0 + k)
    else do
      let (args', k) ← Comp.allCounted (opts.take upTo)
      if upTo < args.length then do
        let (rest, k') ← Comp.allCounted (opts.drop upTo)
        return (.fastSelect table (args' ++ [.select rest id]) true id, k0 + (k + k'))
      else return (.fastSelect table args' false id, k0 + k)

mutual
/-- `optimize_rule` -- src/optimize.rs:78-184, with the number of calls of `unique_byte`. -/
def optimizeRuleBytes (refs : List Rule) (n : Nat) : Rule → Comp (Rule × Nat)
  | .whitespace a b => .ok (.whitespace a b, 0)
  | .tag a b c d e => .ok (.tag a b c d e, 0)
  | .untilAny a b c d => .ok (.untilAny a b c d, 0)
  | .untilAnyOrWs a b c d => .ok (.untilAnyOrWs a b c d, 0)
  | .text a b c => .ok (.text a b c, 0)
  | .number a b c => .ok (.number a b c, 0)
  | .node a b c d => .ok (.node a b c d, 0)
  | .fastSelect t args tl id => .ok (.fastSelect t args tl id, 0)
  | .sequence args id => do
    let (args', k) ← Comp.allCounted (optimizeRulesBytes refs n args)
    return (.sequence args' id, k)
  | .separateBy r b o t id => do
    let (r', k) ← optimizeRuleBytes refs n r
    let (b', k') ← optimizeRuleBytes refs n b
    return (.separateBy r' b' o t id, k + k')
  | .repeat_ r o id => do
    let (r', k) ← optimizeRuleBytes refs n r
    return (.repeat_ r' o id, k)
  | .lines r i id => do
    let (r', k) ← optimizeRuleBytes refs n r
    return (.lines r' i id, k)
  | .optional r id => do
    let (r', k) ← optimizeRuleBytes refs n r
    return (.optional r' id, k)
  | .not r id => do
    let (r', k) ← optimizeRuleBytes refs n r
    return (.not r' id, k)
  | .select args id => optimizeSelectBytes refs n args (optimizeRulesBytes refs n args) id
/-- The calls on the arguments of a rule. -/
def optimizeRulesBytes (refs : List Rule) (n : Nat) : List Rule → List (Comp (Rule × Nat))
  | [] => []
  | r :: rs => optimizeRuleBytes refs n r :: optimizeRulesBytes refs n rs
end

/-- `Syntax::optimize` -- src/lib.rs:210-213. -/
def Syntax.optimizeBytes (n : Nat) (syn : Syntax) : Comp (Syntax × Nat) := do
  let (rules, k) ← Comp.allCounted (syn.rules.map (optimizeRuleBytes syn.rules n))
  return (⟨rules, syn.names⟩, k)

end Verif
