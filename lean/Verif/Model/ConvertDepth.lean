import Verif.Model.Convert
/-
`bootstrap::convert` with a bound on how often `read_rule` is inside itself: a call of `read_rule`
inside `d` others is cut off.  Apart from this bound the definitions are those of Model/Convert.lean,
and the rounds of the loops are bounded by `n` as there.
-/
namespace Verif
open CM

namespace Convert

/-- `read_rule` -- src/bootstrap/convert.rs:746-835, at most `d` calls one inside the other. -/
def readRuleTo (strings : List (Str × Str)) (n : Nat) : Nat → Str → Convert → CM (Range × Rule)
  | 0, _, _ => timeout
  | d + 1, property, c => readRuleStep strings (readRuleTo strings n d) n property c

/-- The loop body of `read_node` -- src/bootstrap/convert.rs:849-869. -/
def nodeBodyTo (strings : List (Str × Str)) (d n : Nat) (c : Convert)
    (s : Option Nat × Option Str × Option Rule) :
    CM (Option (Range × (Option Nat × Option Str × Option Rule))) :=
  tryRead (ofOption (c.metaF64 c!"id")) (fun v => (some v.toUsize, s.2)) <|
  tryRead (ofOption (c.metaString c!"name")) (fun v => (s.1, some v, s.2.2)) <|
  tryRead (do setId (s.1.getD 0); readRuleTo strings n d c!"rule" c) (fun v => (s.1, s.2.1, some v)) noRead

/-- `read_node` -- src/bootstrap/convert.rs:837-877. -/
def readNodeTo (strings : List (Str × Str)) (d n : Nat) (c : Convert) : CM (Range × Str × Rule) := do
  let start := c
  let node := c!"node"
  let r ← ofOption (c.startNode node)
  let c ← c.upd r
  let (c, _, name, rule) ← loop node (nodeBodyTo strings d n) n c (none, none, none)
  let name ← ofOption name
  let rule ← ofOption rule
  return (← c.sub start, name, rule)

/-- The second loop of `convert` -- src/bootstrap/convert.rs:889-898, at most `k` rounds. -/
def nodesLoopTo (strings : List (Str × Str)) (d n : Nat) : Nat → Convert → Syntax → CM Syntax
  | 0, _, _ => timeout
  | k + 1, c, res => do
    match ← attempt (readNodeTo strings d n c) with
    | some (r, val) =>
      let c ← c.upd r
      nodesLoopTo strings d n k c (res.push val.1 val.2)
    | none => if 0 < c.remaining then err else return res

end Convert

/-- `convert` -- src/bootstrap/convert.rs:142-901. -/
def convertToM (d n : Nat) (data : List Tok) : CM Syntax := do
  let (c, strings) ← Convert.stringsLoop n n (.new data) []
  let res ← Convert.nodesLoopTo strings d n n c .new
  return res.updateRefs

/-- `convert(data, ignored)` with at most `d` calls of `read_rule` one inside the other. -/
def convertTo (d n : Nat) (data : List Tok) (ignored : List Range) : Comp (Option Syntax × List Range) :=
  match convertToM d n data ⟨0, ignored⟩ with
  | .ok (r, st) => .ok (r, st.ignored)
  | .panic => .panic
  | .timeout => .timeout

end Verif
