import Verif.Model.Comp
import Verif.Model.Eval
/-
The optimizer, src/optimize.rs.

`unique_byte` follows references and does not return on left recursive syntaxes; it is cut off at
depth `n` here.  `optimize_rule` recurses on the rule only.
-/
namespace Verif

/-- `unique_byte` -- src/optimize.rs:30-75, cut off at depth `n`.  `refs[index]` panics when out of
range (line 62). -/
def uniqueByte (refs : List Rule) : Nat → Rule → Comp (Option UInt8)
  | 0, _ => .timeout
  | n + 1, rule =>
    match rule with
    | .whitespace _ _ => .ok none
    | .untilAny _ _ _ _ => .ok none
    | .untilAnyOrWs _ _ _ _ => .ok none
    | .number _ _ _ => .ok none
    | .lines _ _ _ => .ok none
    | .optional _ _ => .ok none
    | .fastSelect _ _ _ _ => .ok none
    | .not (.not r _) _ => uniqueByte refs n r
    | .not _ _ => .ok none
    | .text _ _ _ => .ok (some 0x22)
    | .select [a] _ => uniqueByte refs n a
    | .select _ _ => .ok none
    | .separateBy r _ optional _ _ => if optional then .ok none else uniqueByte refs n r
    | .sequence [] _ => .ok none
    | .sequence (a :: _) _ => uniqueByte refs n a
    | .repeat_ r optional _ => if optional then .ok none else uniqueByte refs n r
    | .node _ _ none _ => .ok none
    | .node _ _ (some i) _ =>
      match refs[i]? with
      | none => .panic
      | some q => uniqueByte refs n q
    | .tag text not _ _ _ =>
      if not then .ok none
      else
        match text with
        | ch :: _ => .ok (some (firstByte ch))
        | [] => .ok none

/-- `[u8; 256]`. -/
abbrev Table := UInt8 → UInt8

/-- `data[b as usize] = v`. -/
def Table.set (t : Table) (b v : UInt8) : Table := fun x => if x = b then v else t x

/-- The loop of `unique_table_from_select` -- src/optimize.rs:16-24, from argument `i` on.
`i as u8` with `i < 255`. -/
def uniqueLoop (refs : List Rule) (n : Nat) : Nat → List Rule → Table → Nat → Comp (Table × Nat)
  | _, [], data, upTo => .ok (data, upTo)
  | i, r :: rs, data, upTo =>
    if 255 ≤ i then .ok (data, upTo)
    else
      match uniqueByte refs n r with
      | .ok (some b) =>
        if data b = 255 then uniqueLoop refs n (i + 1) rs (data.set b (UInt8.ofNat i)) (i + 1)
        else .ok (data, upTo)
      | .ok none => .ok (data, upTo)
      | .panic => .panic
      | .timeout => .timeout

/-- `unique_table_from_select` -- src/optimize.rs:13-26. -/
def uniqueTable (refs : List Rule) (n : Nat) (args : List Rule) : Comp (Table × Nat) :=
  uniqueLoop refs n 0 args (fun _ => 255) 0

/-- The `Rule::Select` case of `optimize_rule` -- src/optimize.rs:131-181.  `opts` are the calls
`optimize_rule(arg, refs)`, in the order of the arguments. -/
def optimizeSelect (refs : List Rule) (n : Nat) (args : List Rule) (opts : List (Comp Rule))
    (id : DebugId) : Comp Rule :=
  match uniqueTable refs n args with
  | .panic => .panic
  | .timeout => .timeout
  | .ok (table, upTo) =>
    if upTo < 2 then
      -- lines 149-152
      let plain : Comp Rule := do
        let args' ← Comp.all opts
        return .select args' id
      if args.length > 2 then do
        -- lines 135-138
        let rest ← Comp.all (opts.drop 1)
        let tryOpt : Rule := .select rest id
        match tryOpt with
        | .fastSelect _ _ _ _ =>
          -- lines 139-147
          let first ← Comp.all (opts.take 1)
          return .select (first ++ [tryOpt]) id
        | _ => plain
      else plain
    else do
      let args' ← Comp.all (opts.take upTo)
      if upTo < args.length then do
        let rest ← Comp.all (opts.drop upTo)
        return .fastSelect table (args' ++ [.select rest id]) true id
      else return .fastSelect table args' false id

mutual
/-- `optimize_rule` -- src/optimize.rs:78-184. -/
def optimizeRule (refs : List Rule) (n : Nat) : Rule → Comp Rule
  | .whitespace a b => .ok (.whitespace a b)
  | .tag a b c d e => .ok (.tag a b c d e)
  | .untilAny a b c d => .ok (.untilAny a b c d)
  | .untilAnyOrWs a b c d => .ok (.untilAnyOrWs a b c d)
  | .text a b c => .ok (.text a b c)
  | .number a b c => .ok (.number a b c)
  | .node a b c d => .ok (.node a b c d)
  | .fastSelect t args tl id => .ok (.fastSelect t args tl id)
  | .sequence args id => do
    let args' ← Comp.all (optimizeRules refs n args)
    return .sequence args' id
  | .separateBy r b o t id => do
    let r' ← optimizeRule refs n r
    let b' ← optimizeRule refs n b
    return .separateBy r' b' o t id
  | .repeat_ r o id => do
    let r' ← optimizeRule refs n r
    return .repeat_ r' o id
  | .lines r i id => do
    let r' ← optimizeRule refs n r
    return .lines r' i id
  | .optional r id => do
    let r' ← optimizeRule refs n r
    return .optional r' id
  | .not r id => do
    let r' ← optimizeRule refs n r
    return .not r' id
  | .select args id => optimizeSelect refs n args (optimizeRules refs n args) id
/-- The calls on the arguments of a rule. -/
def optimizeRules (refs : List Rule) (n : Nat) : List Rule → List (Comp Rule)
  | [] => []
  | r :: rs => optimizeRule refs n r :: optimizeRules refs n rs
end

/-- `Syntax::optimize` -- src/lib.rs:210-213. -/
def Syntax.optimize (n : Nat) (syn : Syntax) : Comp Syntax := do
  let rules ← Comp.all (syn.rules.map (optimizeRule syn.rules n))
  return ⟨rules, syn.names⟩

end Verif
