import Verif.Model.Convert
/-
The work of `convert`, counted: src/bootstrap/convert.rs:142-901.

These are the readers of `Model/Convert` once more, where each result comes with a number: the calls of methods of
`Convert` that were made for it, with one more for each item that `ignore` moves over and for each string that
`find_string` looks at.
-/
namespace Verif

/-- A reader that counts. -/
def CCM (α : Type) : Type := CSt → Comp (Option α × CSt × Nat)

namespace CCM
/-- `Ok(a)`. -/
def pure {α : Type} (a : α) : CCM α := fun st => .ok (some a, st, 0)
/-- The operator `?`: what both take, together. -/
def bind {α β : Type} (m : CCM α) (f : α → CCM β) : CCM β := fun st =>
  match m st with
  | .ok (some a, st', k) =>
    match f a st' with
    | .ok (r, st'', k') => .ok (r, st'', k + k')
    | .panic => .panic
    | .timeout => .timeout
  | .ok (none, st', k) => .ok (none, st', k)
  | .panic => .panic
  | .timeout => .timeout
instance : Monad CCM where
  pure := pure
  bind := bind
/-- Something that takes `k`. -/
def costs {α : Type} (k : Nat) (m : CM α) : CCM α := fun st =>
  match m st with
  | .ok (r, st') => .ok (r, st', k)
  | .panic => .panic
  | .timeout => .timeout
/-- `Err(())`. -/
def err {α : Type} : CCM α := costs 0 CM.err
/-- Cut off. -/
def timeout {α : Type} : CCM α := costs 0 CM.timeout
/-- A result that is already there. -/
def ofOption {α : Type} (x : Option α) : CCM α := costs 0 (CM.ofOption x)
/-- The result of a method of `Convert`, with `?`. -/
def call {α : Type} (x : Option α) : CCM α := costs 1 (CM.ofOption x)
/-- The result of a method of `Convert`, which is looked at. -/
def ask {α : Type} (x : α) : CCM α := costs 1 (CM.pure x)
/-- `if let Ok(x) = m`: run `m` and look at the result. -/
def attempt {α : Type} (m : CCM α) : CCM (Option α) := fun st =>
  match m st with
  | .ok (r, st', k) => .ok (some r, st', k)
  | .panic => .panic
  | .timeout => .timeout
/-- `ignored.push(range)`. -/
def push (r : Range) : CCM Unit := costs 0 (CM.push r)
/-- `*debug_id += 1` and the new value. -/
def nextId : CCM Nat := costs 0 CM.nextId
/-- `&mut (k * 1000)` as the new counter. -/
def setId (k : Nat) : CCM Unit := costs 0 (CM.setId k)
end CCM

namespace Counted
open CCM

/-- `convert.update(range)` in a reader. -/
def upd (c : Convert) (r : Range) : CCM Convert := costs 1 (c.upd r)

/-- `convert.subtract(start)` in a reader. -/
def sub (c start : Convert) : CCM Range := costs 1 (c.sub start)

/-- `convert.ignore()` in a reader: one for each item that is moved over. -/
def ignore (c : Convert) : CCM Range := fun st =>
  match c.ignore with
  | .ok r => .ok (some r, st, 1 + r.length)
  | .panic => .panic
  | .timeout => .timeout

/-- `find_string` -- src/bootstrap/convert.rs:212-214: one for each string that is compared. -/
def findString (val : Str) (strings : List (Str × Str)) : CCM (Option Str) :=
  costs (min strings.length (strings.findIdx (fun s => s.1 = val) + 1)) (CM.pure (Convert.findString val strings))

/-- One `if let Ok((range, val)) = m { convert.update(range); .. } else ..` of a loop: the range to
move over and the new variables. -/
def tryRead {α σ : Type} (m : CCM (Range × α)) (put : α → σ) (other : CCM (Option (Range × σ))) :
    CCM (Option (Range × σ)) := do
  match ← attempt m with
  | some (r, v) => return some (r, put v)
  | none => other

/-- The last `else` of a loop: nothing could be read. -/
def noRead {σ : Type} : CCM (Option (Range × σ)) := return none

/-- The loop shared by the readers: stop at the end of `node`, read what `body` can read, ignore
the rest; at most `n` rounds.  For example src/bootstrap/convert.rs:190-204. -/
def loop {σ : Type} (node : Str) (body : Convert → σ → CCM (Option (Range × σ))) :
    Nat → Convert → σ → CCM (Convert × σ)
  | 0, _, _ => timeout
  | n + 1, c, s => do
    match ← ask (c.endNode node) with
    | some r =>
      let c ← upd c r
      return (c, s)
    | none =>
      match ← body c s with
      | some (r, s') =>
        let c ← upd c r
        loop node body n c s'
      | none =>
        let r ← ignore c
        let c ← upd c r
        push r
        loop node body n c s

/-- The loop of `read_string` -- src/bootstrap/convert.rs:154-167. -/
def stringLoop : Nat → Convert → Option Str → Option Str → CCM (Convert × Option Str × Option Str)
  | 0, _, _, _ => timeout
  | n + 1, c, name, text => do
    match ← ask (c.metaString c!"name") with
    | some (r, val) =>
      let c ← upd c r
      stringLoop n c (some val) text
    | none =>
      match ← ask (c.metaString c!"text") with
      | some (r, val) =>
        let c ← upd c r
        stringLoop n c name (some val)
      | none =>
        match ← ask (c.endNode c!"string") with
        | some r =>
          let c ← upd c r
          return (c, name, text)
        | none => err

/-- `read_string` -- src/bootstrap/convert.rs:147-177. -/
def readString (n : Nat) (c : Convert) : CCM (Range × Str × Str) := do
  let start := c
  let r ← call (c.startNode c!"string")
  let c ← upd c r
  let (c, name, text) ← stringLoop n c none none
  let name ← ofOption name
  let text ← ofOption text
  return (← sub c start, name, text)

/-- The loop of `read_set` -- src/bootstrap/convert.rs:225-238. -/
def setLoop (property : Str) (strings : List (Str × Str)) :
    Nat → Convert → Option Str → CCM (Convert × Option Str)
  | 0, _, _ => timeout
  | n + 1, c, text => do
    match ← ask (c.endNode property) with
    | some r =>
      let c ← upd c r
      return (c, text)
    | none =>
      match ← ask (c.metaString c!"ref") with
      | some (r, val) =>
        let c ← upd c r
        let found ← findString val strings
        setLoop property strings n c found
      | none =>
        match ← ask (c.metaString c!"value") with
        | some (r, val) =>
          let c ← upd c r
          setLoop property strings n c (some val)
        | none => err

/-- `read_set` -- src/bootstrap/convert.rs:216-243. -/
def readSet (strings : List (Str × Str)) (n : Nat) (property : Str) (c : Convert) :
    CCM (Range × Str) := do
  let start := c
  let r ← call (c.startNode property)
  let c ← upd c r
  let (c, text) ← setLoop property strings n c none
  let text ← ofOption text
  return (← sub c start, text)

section
variable (strings : List (Str × Str))

/-- The loop body of `read_until_any_or_whitespace` and `read_until_any` --
src/bootstrap/convert.rs:262-275, 310-323: `any_characters`, `optional`, `property`. -/
def untilBody (n : Nat) (c : Convert) (s : Option Str × Option Bool × Option Str) :
    CCM (Option (Range × (Option Str × Option Bool × Option Str))) :=
  tryRead (readSet strings n c!"any_characters" c) (fun v => (some v, s.2.1, s.2.2)) <|
  tryRead (call (c.metaBool c!"optional")) (fun v => (s.1, some v, s.2.2)) <|
  tryRead (readSet strings n c!"property" c) (fun v => (s.1, s.2.1, some v)) noRead

/-- `read_until_any_or_whitespace` -- src/bootstrap/convert.rs:245-291. -/
def readUntilAnyOrWs (n : Nat) (c : Convert) : CCM (Range × Rule) := do
  let start := c
  let node := c!"until_any_or_whitespace"
  let r ← call (c.startNode node)
  let c ← upd c r
  let (c, any, optional, property) ← loop node (untilBody strings n) n c (none, none, none)
  let optional := optional.getD false
  let any ← ofOption any
  let id ← nextId
  return (← sub c start, .untilAnyOrWs any optional property id)

/-- `read_until_any` -- src/bootstrap/convert.rs:293-339. -/
def readUntilAny (n : Nat) (c : Convert) : CCM (Range × Rule) := do
  let start := c
  let node := c!"until_any"
  let r ← call (c.startNode node)
  let c ← upd c r
  let (c, any, optional, property) ← loop node (untilBody strings n) n c (none, none, none)
  let optional := optional.getD false
  let any ← ofOption any
  let id ← nextId
  return (← sub c start, .untilAny any optional property id)

/-- The loop body of `read_tag` -- src/bootstrap/convert.rs:360-376: `text`, `property`, `not`,
`inverted`. -/
def tagBody (n : Nat) (c : Convert) (s : Option Str × Option Str × Option Bool × Option Bool) :
    CCM (Option (Range × (Option Str × Option Str × Option Bool × Option Bool))) :=
  tryRead (readSet strings n c!"text" c) (fun v => (some v, s.2)) <|
  tryRead (readSet strings n c!"property" c) (fun v => (s.1, some v, s.2.2)) <|
  tryRead (call (c.metaBool c!"not")) (fun v => (s.1, s.2.1, some v, s.2.2.2)) <|
  tryRead (call (c.metaBool c!"inverted")) (fun v => (s.1, s.2.1, s.2.2.1, some v)) noRead

/-- `read_tag` -- src/bootstrap/convert.rs:341-394. -/
def readTag (n : Nat) (c : Convert) : CCM (Range × Rule) := do
  let start := c
  let node := c!"tag"
  let r ← call (c.startNode node)
  let c ← upd c r
  let (c, text, property, not, inverted) ← loop node (tagBody strings n) n c (none, none, none, none)
  let not := not.getD false
  let inverted := inverted.getD false
  let text ← ofOption text
  let id ← nextId
  return (← sub c start, .tag text not inverted property id)

/-- `read_whitespace` -- src/bootstrap/convert.rs:396-411. -/
def readWhitespace (c : Convert) : CCM (Range × Rule) := do
  let start := c
  let r ← call (c.startNode c!"whitespace")
  let c ← upd c r
  let (r, optional) ← call (c.metaBool c!"optional")
  let c ← upd c r
  let r ← call (c.endNode c!"whitespace")
  let c ← upd c r
  let id ← nextId
  return (← sub c start, .whitespace optional id)

/-- The loop body of `read_text` -- src/bootstrap/convert.rs:426-439: `allow_empty`, `property`. -/
def textBody (n : Nat) (c : Convert) (s : Option Bool × Option Str) :
    CCM (Option (Range × (Option Bool × Option Str))) :=
  tryRead (call (c.metaBool c!"allow_empty")) (fun v => (some v, s.2)) <|
  tryRead (readSet strings n c!"property" c) (fun v => (s.1, some v)) noRead

/-- `read_text` -- src/bootstrap/convert.rs:413-449. -/
def readText (n : Nat) (c : Convert) : CCM (Range × Rule) := do
  let start := c
  let node := c!"text"
  let r ← call (c.startNode node)
  let c ← upd c r
  let (c, allowEmpty, property) ← loop node (textBody strings n) n c (none, none)
  let allowEmpty := allowEmpty.getD true
  let id ← nextId
  return (← sub c start, .text allowEmpty property id)

/-- The loop body of `read_number` -- src/bootstrap/convert.rs:465-478: `property`,
`underscore`. -/
def numberBody (n : Nat) (c : Convert) (s : Option Str × Option Bool) :
    CCM (Option (Range × (Option Str × Option Bool))) :=
  tryRead (readSet strings n c!"property" c) (fun v => (some v, s.2)) <|
  tryRead (call (c.metaBool c!"underscore")) (fun v => (s.1, some v)) noRead

/-- `read_number` -- src/bootstrap/convert.rs:451-488. -/
def readNumber (n : Nat) (c : Convert) : CCM (Range × Rule) := do
  let start := c
  let node := c!"number"
  let r ← call (c.startNode node)
  let c ← upd c r
  let (c, property, underscore) ← loop node (numberBody strings n) n c (none, none)
  let underscore := underscore.getD false
  let id ← nextId
  return (← sub c start, .number property underscore id)

/-- The loop body of `read_reference` -- src/bootstrap/convert.rs:504-517: `name`, `property`. -/
def referenceBody (n : Nat) (c : Convert) (s : Option Str × Option Str) :
    CCM (Option (Range × (Option Str × Option Str))) :=
  tryRead (call (c.metaString c!"name")) (fun v => (some v, s.2)) <|
  tryRead (readSet strings n c!"property" c) (fun v => (s.1, some v)) noRead

/-- `read_reference` -- src/bootstrap/convert.rs:490-532. -/
def readReference (n : Nat) (c : Convert) : CCM (Range × Rule) := do
  let start := c
  let node := c!"reference"
  let r ← call (c.startNode node)
  let c ← upd c r
  let (c, name, property) ← loop node (referenceBody strings n) n c (none, none)
  let name ← ofOption name
  let id ← nextId
  return (← sub c start, .node name property none id)

/-! The remaining readers call `read_rule`, which is the parameter `rr`: property, data. -/

variable (rr : Str → Convert → CCM (Range × Rule))

/-- The loop body of `read_sequence` and `read_select` -- src/bootstrap/convert.rs:190-204,
545-559. -/
def argsBody (c : Convert) (args : List Rule) : CCM (Option (Range × List Rule)) :=
  tryRead (rr c!"rule" c) (fun v => args ++ [v]) noRead

/-- `read_sequence` -- src/bootstrap/convert.rs:179-210. -/
def readSequence (n : Nat) (c : Convert) : CCM (Range × Rule) := do
  let start := c
  let node := c!"sequence"
  let r ← call (c.startNode node)
  let c ← upd c r
  let (c, args) ← loop node (argsBody rr) n c []
  let id ← nextId
  return (← sub c start, .sequence args id)

/-- `read_select` -- src/bootstrap/convert.rs:534-566. -/
def readSelect (n : Nat) (c : Convert) : CCM (Range × Rule) := do
  let start := c
  let node := c!"select"
  let r ← call (c.startNode node)
  let c ← upd c r
  let (c, args) ← loop node (argsBody rr) n c []
  let id ← nextId
  return (← sub c start, .select args id)

/-- `read_optional` -- src/bootstrap/convert.rs:568-590. -/
def readOptional (c : Convert) : CCM (Range × Rule) := do
  let start := c
  let node := c!"optional"
  let r ← call (c.startNode node)
  let c ← upd c r
  let (r, rule) ← rr c!"rule" c
  let c ← upd c r
  let r ← call (c.endNode node)
  let c ← upd c r
  let id ← nextId
  return (← sub c start, .optional rule id)

/-- `read_not` -- src/bootstrap/convert.rs:592-614. -/
def readNot (c : Convert) : CCM (Range × Rule) := do
  let start := c
  let node := c!"not"
  let r ← call (c.startNode node)
  let c ← upd c r
  let (r, rule) ← rr c!"rule" c
  let c ← upd c r
  let r ← call (c.endNode node)
  let c ← upd c r
  let id ← nextId
  return (← sub c start, .not rule id)

/-- The loop body of `read_separated_by` -- src/bootstrap/convert.rs:631-654: `optional`,
`allow_trail`, `by`, `rule`. -/
def separatedBody (c : Convert) (s : Option Bool × Option Bool × Option Rule × Option Rule) :
    CCM (Option (Range × (Option Bool × Option Bool × Option Rule × Option Rule))) :=
  tryRead (call (c.metaBool c!"optional")) (fun v => (some v, s.2)) <|
  tryRead (call (c.metaBool c!"allow_trail")) (fun v => (s.1, some v, s.2.2)) <|
  tryRead (rr c!"by" c) (fun v => (s.1, s.2.1, some v, s.2.2.2)) <|
  tryRead (rr c!"rule" c) (fun v => (s.1, s.2.1, s.2.2.1, some v)) noRead

/-- `read_separated_by` -- src/bootstrap/convert.rs:616-672. -/
def readSeparatedBy (n : Nat) (c : Convert) : CCM (Range × Rule) := do
  let start := c
  let node := c!"separated_by"
  let r ← call (c.startNode node)
  let c ← upd c r
  let (c, optional, allowTrail, by_, rule) ← loop node (separatedBody rr) n c (none, none, none, none)
  let optional := optional.getD true
  let allowTrail := allowTrail.getD true
  let by_ ← ofOption by_
  let rule ← ofOption rule
  let id ← nextId
  return (← sub c start, .separateBy rule by_ optional allowTrail id)

/-- The optional `indent` of `read_lines` -- src/bootstrap/convert.rs:683-686. -/
def readIndent (c : Convert) : CCM (Convert × Bool) := do
  match ← ask (c.metaBool c!"indent") with
  | some (r, val) =>
    let c ← upd c r
    return (c, val)
  | none => return (c, false)

/-- `read_lines` -- src/bootstrap/convert.rs:674-700. -/
def readLines (c : Convert) : CCM (Range × Rule) := do
  let start := c
  let r ← call (c.startNode c!"lines")
  let c ← upd c r
  let (c, indent) ← readIndent c
  let (r, rule) ← rr c!"rule" c
  let c ← upd c r
  let r ← call (c.endNode c!"lines")
  let c ← upd c r
  let id ← nextId
  return (← sub c start, .lines rule indent id)

/-- The loop body of `read_repeat` -- src/bootstrap/convert.rs:715-730: `rule`, `optional`. -/
def repeatBody (c : Convert) (s : Option Rule × Option Bool) :
    CCM (Option (Range × (Option Rule × Option Bool))) :=
  tryRead (rr c!"rule" c) (fun v => (some v, s.2)) <|
  tryRead (call (c.metaBool c!"optional")) (fun v => (s.1, some v)) noRead

/-- `read_repeat` -- src/bootstrap/convert.rs:702-744. -/
def readRepeat (n : Nat) (c : Convert) : CCM (Range × Rule) := do
  let start := c
  let node := c!"repeat"
  let r ← call (c.startNode node)
  let c ← upd c r
  let (c, rule, optional) ← loop node (repeatBody rr) n c (none, none)
  let rule ← ofOption rule
  let optional ← ofOption optional
  let id ← nextId
  return (← sub c start, .repeat_ rule optional id)

/-- The chain of `if let Ok((range, val)) = ..` in `read_rule`. -/
def firstRule : List (CCM (Range × Rule)) → CCM (Range × Rule)
  | [] => err
  | m :: ms => do
    match ← attempt m with
    | some x => return x
    | none => firstRule ms

/-- `read_rule` -- src/bootstrap/convert.rs:746-835, with `rr` for the recursive calls. -/
def readRuleStep (n : Nat) (property : Str) (c : Convert) : CCM (Range × Rule) := do
  let start := c
  let r ← call (c.startNode property)
  let c ← upd c r
  let (r, rule) ← firstRule [
    readSequence rr n c,
    readUntilAnyOrWs strings n c,
    readUntilAny strings n c,
    readTag strings n c,
    readWhitespace c,
    readText strings n c,
    readNumber strings n c,
    readReference strings n c,
    readSelect rr n c,
    readOptional rr c,
    readNot rr c,
    readSeparatedBy rr n c,
    readLines rr c,
    readRepeat rr n c]
  let c ← upd c r
  let r ← call (c.endNode property)
  let c ← upd c r
  return (← sub c start, rule)

end

/-- `read_rule` -- src/bootstrap/convert.rs:746-835, cut off at depth `n`. -/
def readRule (strings : List (Str × Str)) : Nat → Str → Convert → CCM (Range × Rule)
  | 0, _, _ => timeout
  | n + 1, property, c => readRuleStep strings (readRule strings n) n property c

/-- The loop body of `read_node` -- src/bootstrap/convert.rs:849-869: `id`, `name`, `rule`.
The counter for the debug ids is new in every round. -/
def nodeBody (strings : List (Str × Str)) (n : Nat) (c : Convert)
    (s : Option Nat × Option Str × Option Rule) :
    CCM (Option (Range × (Option Nat × Option Str × Option Rule))) :=
  tryRead (call (c.metaF64 c!"id")) (fun v => (some v.toUsize, s.2)) <|
  tryRead (call (c.metaString c!"name")) (fun v => (s.1, some v, s.2.2)) <|
  tryRead (do setId (s.1.getD 0); readRule strings n c!"rule" c) (fun v => (s.1, s.2.1, some v)) noRead

/-- `read_node` -- src/bootstrap/convert.rs:837-877. -/
def readNode (strings : List (Str × Str)) (n : Nat) (c : Convert) : CCM (Range × Str × Rule) := do
  let start := c
  let node := c!"node"
  let r ← call (c.startNode node)
  let c ← upd c r
  let (c, _, name, rule) ← loop node (nodeBody strings n) n c (none, none, none)
  let name ← ofOption name
  let rule ← ofOption rule
  return (← sub c start, name, rule)

/-- The first loop of `convert` -- src/bootstrap/convert.rs:880-887, at most `k` rounds. -/
def stringsLoop (n : Nat) : Nat → Convert → List (Str × Str) → CCM (Convert × List (Str × Str))
  | 0, _, _ => timeout
  | k + 1, c, strings => do
    match ← attempt (readString n c) with
    | some (r, val) =>
      let c ← upd c r
      stringsLoop n k c (strings ++ [val])
    | none => return (c, strings)

/-- The second loop of `convert` -- src/bootstrap/convert.rs:889-898, at most `k` rounds. -/
def nodesLoop (strings : List (Str × Str)) (n : Nat) : Nat → Convert → Syntax → CCM Syntax
  | 0, _, _ => timeout
  | k + 1, c, res => do
    match ← attempt (readNode strings n c) with
    | some (r, val) =>
      let c ← upd c r
      nodesLoop strings n k c (res.push val.1 val.2)
    | none =>
      let left ← ask c.remaining
      if 0 < left then err else return res

/-- `convert` -- src/bootstrap/convert.rs:142-901. -/
def convertM (n : Nat) (data : List Tok) : CCM Syntax := do
  let (c, strings) ← stringsLoop n n (.new data) []
  let res ← nodesLoop strings n n c .new
  return res.updateRefs

/-- `convert(data, ignored)`, with the number. -/
def convert (n : Nat) (data : List Tok) (ignored : List Range) : Comp (Option Syntax × List Range × Nat) :=
  match convertM n data ⟨0, ignored⟩ with
  | .ok (r, st, k) => .ok (r, st.ignored, k)
  | .panic => .panic
  | .timeout => .timeout

end Counted

end Verif
