import Verif.Model.Comp
import Verif.Model.Refs
/-
`bootstrap::convert`, src/bootstrap/convert.rs: from meta data to rules.

Additions and subtractions on `usize` that could leave the range are checked, as in a build with
overflow checks, and panic.  The loops run for ever on data that ends too early; they are cut off
after `n` rounds here.  `Result<_, ()>` is `Option`.
-/
namespace Verif

/-- `Convert` -- src/bootstrap/convert.rs:26-29. -/
structure Convert where
  data : List Tok
  off : Nat
deriving DecidableEq, Repr, Inhabited

namespace Convert

/-- `Convert::new` -- src/bootstrap/convert.rs:33-38. -/
def new (data : List Tok) : Convert := ⟨data, 0⟩

/-- `Convert::remaining_data_len` -- src/bootstrap/convert.rs:42-44. -/
def remaining (c : Convert) : Nat := c.data.length

/-- `Convert::subtract` -- src/bootstrap/convert.rs:48-50. -/
def subtract (c rhs : Convert) : Comp Range :=
  if c.off < rhs.off then .panic else .ok ⟨rhs.off, c.off - rhs.off⟩

/-- `Convert::source` -- src/bootstrap/convert.rs:53-58. -/
def source (c rhs : Convert) : Comp (Option Range) :=
  match rhs.data with
  | [] => .ok none
  | first :: _ =>
    if c.off ≤ rhs.off then .ok none
    else
      match rhs.data[c.off - rhs.off - 1]? with
      | none => .panic
      | some last =>
        if last.range.next < first.range.offset then .panic
        else .ok (some ⟨first.range.offset, last.range.next - first.range.offset⟩)

/-- `Convert::update` -- src/bootstrap/convert.rs:61-65. -/
def update (c : Convert) (range : Range) : Comp Convert :=
  if range.next < c.off then .panic
  else if c.data.length < range.next - c.off then .panic
  else .ok ⟨c.data.drop (range.next - c.off), range.next⟩

/-- `Convert::start_node` -- src/bootstrap/convert.rs:68-76. -/
def startNode (c : Convert) (name : Str) : Option Range :=
  match c.data with
  | ⟨_, .startNode n⟩ :: _ => if n = name then some ⟨c.off, 1⟩ else none
  | _ => none

/-- `Convert::end_node` -- src/bootstrap/convert.rs:79-87. -/
def endNode (c : Convert) (name : Str) : Option Range :=
  match c.data with
  | ⟨_, .endNode n⟩ :: _ => if n = name then some ⟨c.off, 1⟩ else none
  | _ => none

/-- The loop of `Convert::ignore` -- src/bootstrap/convert.rs:94-102: the final `len`, or none on
underflow of `acc`. -/
def ignoreLoop : List Tok → (acc len : Nat) → Comp Nat
  | [], _, len => .ok len
  | t :: ts, acc, len =>
    match t.data with
    | .startNode _ => ignoreLoop ts (acc + 1) (len + 1)
    | .endNode _ =>
      if acc = 0 then .panic
      else if acc = 1 then .ok (len + 1)
      else ignoreLoop ts (acc - 1) (len + 1)
    | _ => if acc = 0 then .ok (len + 1) else ignoreLoop ts acc (len + 1)

/-- `Convert::ignore` -- src/bootstrap/convert.rs:91-104. -/
def ignore (c : Convert) : Comp Range := do
  let len ← ignoreLoop c.data 0 0
  return ⟨c.off, len⟩

/-- `Convert::meta_string` -- src/bootstrap/convert.rs:107-115. -/
def metaString (c : Convert) (name : Str) : Option (Range × Str) :=
  match c.data with
  | ⟨_, .string n val⟩ :: _ => if n = name then some (⟨c.off, 1⟩, val) else none
  | _ => none

/-- `Convert::meta_f64` -- src/bootstrap/convert.rs:118-126. -/
def metaF64 (c : Convert) (name : Str) : Option (Range × F64) :=
  match c.data with
  | ⟨_, .f64 n val⟩ :: _ => if n = name then some (⟨c.off, 1⟩, val) else none
  | _ => none

/-- `Convert::meta_bool` -- src/bootstrap/convert.rs:129-137. -/
def metaBool (c : Convert) (name : Str) : Option (Range × Bool) :=
  match c.data with
  | ⟨_, .bool n val⟩ :: _ => if n = name then some (⟨c.off, 1⟩, val) else none
  | _ => none

end Convert

/-- What the readers can change besides their results: `*debug_id` and `ignored`.  Changes stay
when a reader returns Err. -/
structure CSt where
  id : Nat
  ignored : List Range
deriving DecidableEq, Repr, Inhabited

/-- A reader: it can panic, be cut off, or return Ok or Err (`none`). -/
def CM (α : Type) : Type := CSt → Comp (Option α × CSt)

namespace CM
/-- `Ok(a)`. -/
def pure {α : Type} (a : α) : CM α := fun st => .ok (some a, st)
/-- The operator `?`. -/
def bind {α β : Type} (m : CM α) (f : α → CM β) : CM β := fun st =>
  match m st with
  | .ok (some a, st') => f a st'
  | .ok (none, st') => .ok (none, st')
  | .panic => .panic
  | .timeout => .timeout
instance : Monad CM where
  pure := pure
  bind := bind
/-- `Err(())`. -/
def err {α : Type} : CM α := fun st => .ok (none, st)
/-- Cut off. -/
def timeout {α : Type} : CM α := fun _ => .timeout
/-- Something that returns, unless it panics. -/
def lift {α : Type} (x : Comp α) : CM α := fun st =>
  match x with
  | .ok a => .ok (some a, st)
  | .panic => .panic
  | .timeout => .timeout
/-- A result that is already there. -/
def ofOption {α : Type} (x : Option α) : CM α := fun st => .ok (x, st)
/-- `if let Ok(x) = m`: run `m` and look at the result. -/
def attempt {α : Type} (m : CM α) : CM (Option α) := fun st =>
  match m st with
  | .ok (r, st') => .ok (some r, st')
  | .panic => .panic
  | .timeout => .timeout
/-- `ignored.push(range)`. -/
def push (r : Range) : CM Unit := fun st => .ok (some (), { st with ignored := st.ignored ++ [r] })
/-- `*debug_id += 1` and the new value. -/
def nextId : CM Nat := fun st =>
  if st.id + 1 < 2 ^ 64 then .ok (some (st.id + 1), { st with id := st.id + 1 }) else .panic
/-- `&mut (k * 1000)` as the new counter. -/
def setId (k : Nat) : CM Unit := fun st =>
  if k * 1000 < 2 ^ 64 then .ok (some (), { st with id := k * 1000 }) else .panic
end CM

namespace Convert
open CM

/-- `convert.update(range)` in a reader. -/
def upd (c : Convert) (r : Range) : CM Convert := lift (c.update r)

/-- `convert.subtract(start)` in a reader. -/
def sub (c start : Convert) : CM Range := lift (c.subtract start)

/-- One `if let Ok((range, val)) = m { convert.update(range); .. } else ..` of a loop: the range to
move over and the new variables. -/
def tryRead {α σ : Type} (m : CM (Range × α)) (put : α → σ) (other : CM (Option (Range × σ))) :
    CM (Option (Range × σ)) := do
  match ← attempt m with
  | some (r, v) => return some (r, put v)
  | none => other

/-- The last `else` of a loop: nothing could be read. -/
def noRead {σ : Type} : CM (Option (Range × σ)) := return none

/-- The loop shared by the readers: stop at the end of `node`, read what `body` can read, ignore
the rest; at most `n` rounds.  For example src/bootstrap/convert.rs:190-204. -/
def loop {σ : Type} (node : Str) (body : Convert → σ → CM (Option (Range × σ))) :
    Nat → Convert → σ → CM (Convert × σ)
  | 0, _, _ => timeout
  | n + 1, c, s =>
    match c.endNode node with
    | some r => do
      let c ← c.upd r
      return (c, s)
    | none => do
      match ← body c s with
      | some (r, s') =>
        let c ← c.upd r
        loop node body n c s'
      | none =>
        let r ← lift c.ignore
        let c ← c.upd r
        push r
        loop node body n c s

/-- The loop of `read_string` -- src/bootstrap/convert.rs:154-167. -/
def stringLoop : Nat → Convert → Option Str → Option Str → CM (Convert × Option Str × Option Str)
  | 0, _, _, _ => timeout
  | n + 1, c, name, text =>
    match c.metaString c!"name" with
    | some (r, val) => do
      let c ← c.upd r
      stringLoop n c (some val) text
    | none =>
      match c.metaString c!"text" with
      | some (r, val) => do
        let c ← c.upd r
        stringLoop n c name (some val)
      | none =>
        match c.endNode c!"string" with
        | some r => do
          let c ← c.upd r
          return (c, name, text)
        | none => err

/-- `read_string` -- src/bootstrap/convert.rs:147-177. -/
def readString (n : Nat) (c : Convert) : CM (Range × Str × Str) := do
  let start := c
  let r ← ofOption (c.startNode c!"string")
  let c ← c.upd r
  let (c, name, text) ← stringLoop n c none none
  let name ← ofOption name
  let text ← ofOption text
  return (← c.sub start, name, text)

/-- `find_string` -- src/bootstrap/convert.rs:212-214. -/
def findString (val : Str) (strings : List (Str × Str)) : Option Str :=
  (strings.find? fun s => s.1 = val).map (·.2)

/-- The loop of `read_set` -- src/bootstrap/convert.rs:225-238. -/
def setLoop (property : Str) (strings : List (Str × Str)) :
    Nat → Convert → Option Str → CM (Convert × Option Str)
  | 0, _, _ => timeout
  | n + 1, c, text =>
    match c.endNode property with
    | some r => do
      let c ← c.upd r
      return (c, text)
    | none =>
      match c.metaString c!"ref" with
      | some (r, val) => do
        let c ← c.upd r
        setLoop property strings n c (findString val strings)
      | none =>
        match c.metaString c!"value" with
        | some (r, val) => do
          let c ← c.upd r
          setLoop property strings n c (some val)
        | none => err

/-- `read_set` -- src/bootstrap/convert.rs:216-243. -/
def readSet (strings : List (Str × Str)) (n : Nat) (property : Str) (c : Convert) :
    CM (Range × Str) := do
  let start := c
  let r ← ofOption (c.startNode property)
  let c ← c.upd r
  let (c, text) ← setLoop property strings n c none
  let text ← ofOption text
  return (← c.sub start, text)

section
variable (strings : List (Str × Str))

/-- The loop body of `read_until_any_or_whitespace` and `read_until_any` --
src/bootstrap/convert.rs:262-275, 310-323: `any_characters`, `optional`, `property`. -/
def untilBody (n : Nat) (c : Convert) (s : Option Str × Option Bool × Option Str) :
    CM (Option (Range × (Option Str × Option Bool × Option Str))) :=
  tryRead (readSet strings n c!"any_characters" c) (fun v => (some v, s.2.1, s.2.2)) <|
  tryRead (ofOption (c.metaBool c!"optional")) (fun v => (s.1, some v, s.2.2)) <|
  tryRead (readSet strings n c!"property" c) (fun v => (s.1, s.2.1, some v)) noRead

/-- `read_until_any_or_whitespace` -- src/bootstrap/convert.rs:245-291. -/
def readUntilAnyOrWs (n : Nat) (c : Convert) : CM (Range × Rule) := do
  let start := c
  let node := c!"until_any_or_whitespace"
  let r ← ofOption (c.startNode node)
  let c ← c.upd r
  let (c, any, optional, property) ← loop node (untilBody strings n) n c (none, none, none)
  let optional := optional.getD false
  let any ← ofOption any
  let id ← nextId
  return (← c.sub start, .untilAnyOrWs any optional property id)

/-- `read_until_any` -- src/bootstrap/convert.rs:293-339. -/
def readUntilAny (n : Nat) (c : Convert) : CM (Range × Rule) := do
  let start := c
  let node := c!"until_any"
  let r ← ofOption (c.startNode node)
  let c ← c.upd r
  let (c, any, optional, property) ← loop node (untilBody strings n) n c (none, none, none)
  let optional := optional.getD false
  let any ← ofOption any
  let id ← nextId
  return (← c.sub start, .untilAny any optional property id)

/-- The loop body of `read_tag` -- src/bootstrap/convert.rs:360-376: `text`, `property`, `not`,
`inverted`. -/
def tagBody (n : Nat) (c : Convert) (s : Option Str × Option Str × Option Bool × Option Bool) :
    CM (Option (Range × (Option Str × Option Str × Option Bool × Option Bool))) :=
  tryRead (readSet strings n c!"text" c) (fun v => (some v, s.2)) <|
  tryRead (readSet strings n c!"property" c) (fun v => (s.1, some v, s.2.2)) <|
  tryRead (ofOption (c.metaBool c!"not")) (fun v => (s.1, s.2.1, some v, s.2.2.2)) <|
  tryRead (ofOption (c.metaBool c!"inverted")) (fun v => (s.1, s.2.1, s.2.2.1, some v)) noRead

/-- `read_tag` -- src/bootstrap/convert.rs:341-394. -/
def readTag (n : Nat) (c : Convert) : CM (Range × Rule) := do
  let start := c
  let node := c!"tag"
  let r ← ofOption (c.startNode node)
  let c ← c.upd r
  let (c, text, property, not, inverted) ← loop node (tagBody strings n) n c (none, none, none, none)
  let not := not.getD false
  let inverted := inverted.getD false
  let text ← ofOption text
  let id ← nextId
  return (← c.sub start, .tag text not inverted property id)

/-- `read_whitespace` -- src/bootstrap/convert.rs:396-411. -/
def readWhitespace (c : Convert) : CM (Range × Rule) := do
  let start := c
  let r ← ofOption (c.startNode c!"whitespace")
  let c ← c.upd r
  let (r, optional) ← ofOption (c.metaBool c!"optional")
  let c ← c.upd r
  let r ← ofOption (c.endNode c!"whitespace")
  let c ← c.upd r
  let id ← nextId
  return (← c.sub start, .whitespace optional id)

/-- The loop body of `read_text` -- src/bootstrap/convert.rs:426-439: `allow_empty`, `property`. -/
def textBody (n : Nat) (c : Convert) (s : Option Bool × Option Str) :
    CM (Option (Range × (Option Bool × Option Str))) :=
  tryRead (ofOption (c.metaBool c!"allow_empty")) (fun v => (some v, s.2)) <|
  tryRead (readSet strings n c!"property" c) (fun v => (s.1, some v)) noRead

/-- `read_text` -- src/bootstrap/convert.rs:413-449. -/
def readText (n : Nat) (c : Convert) : CM (Range × Rule) := do
  let start := c
  let node := c!"text"
  let r ← ofOption (c.startNode node)
  let c ← c.upd r
  let (c, allowEmpty, property) ← loop node (textBody strings n) n c (none, none)
  let allowEmpty := allowEmpty.getD true
  let id ← nextId
  return (← c.sub start, .text allowEmpty property id)

/-- The loop body of `read_number` -- src/bootstrap/convert.rs:465-478: `property`,
`underscore`. -/
def numberBody (n : Nat) (c : Convert) (s : Option Str × Option Bool) :
    CM (Option (Range × (Option Str × Option Bool))) :=
  tryRead (readSet strings n c!"property" c) (fun v => (some v, s.2)) <|
  tryRead (ofOption (c.metaBool c!"underscore")) (fun v => (s.1, some v)) noRead

/-- `read_number` -- src/bootstrap/convert.rs:451-488. -/
def readNumber (n : Nat) (c : Convert) : CM (Range × Rule) := do
  let start := c
  let node := c!"number"
  let r ← ofOption (c.startNode node)
  let c ← c.upd r
  let (c, property, underscore) ← loop node (numberBody strings n) n c (none, none)
  let underscore := underscore.getD false
  let id ← nextId
  return (← c.sub start, .number property underscore id)

/-- The loop body of `read_reference` -- src/bootstrap/convert.rs:504-517: `name`, `property`. -/
def referenceBody (n : Nat) (c : Convert) (s : Option Str × Option Str) :
    CM (Option (Range × (Option Str × Option Str))) :=
  tryRead (ofOption (c.metaString c!"name")) (fun v => (some v, s.2)) <|
  tryRead (readSet strings n c!"property" c) (fun v => (s.1, some v)) noRead

/-- `read_reference` -- src/bootstrap/convert.rs:490-532. -/
def readReference (n : Nat) (c : Convert) : CM (Range × Rule) := do
  let start := c
  let node := c!"reference"
  let r ← ofOption (c.startNode node)
  let c ← c.upd r
  let (c, name, property) ← loop node (referenceBody strings n) n c (none, none)
  let name ← ofOption name
  let id ← nextId
  return (← c.sub start, .node name property none id)

/-! The remaining readers call `read_rule`, which is the parameter `rr`: property, data. -/

variable (rr : Str → Convert → CM (Range × Rule))

/-- The loop body of `read_sequence` and `read_select` -- src/bootstrap/convert.rs:190-204,
545-559. -/
def argsBody (c : Convert) (args : List Rule) : CM (Option (Range × List Rule)) :=
  tryRead (rr c!"rule" c) (fun v => args ++ [v]) noRead

/-- `read_sequence` -- src/bootstrap/convert.rs:179-210. -/
def readSequence (n : Nat) (c : Convert) : CM (Range × Rule) := do
  let start := c
  let node := c!"sequence"
  let r ← ofOption (c.startNode node)
  let c ← c.upd r
  let (c, args) ← loop node (argsBody rr) n c []
  let id ← nextId
  return (← c.sub start, .sequence args id)

/-- `read_select` -- src/bootstrap/convert.rs:534-566. -/
def readSelect (n : Nat) (c : Convert) : CM (Range × Rule) := do
  let start := c
  let node := c!"select"
  let r ← ofOption (c.startNode node)
  let c ← c.upd r
  let (c, args) ← loop node (argsBody rr) n c []
  let id ← nextId
  return (← c.sub start, .select args id)

/-- `read_optional` -- src/bootstrap/convert.rs:568-590. -/
def readOptional (c : Convert) : CM (Range × Rule) := do
  let start := c
  let node := c!"optional"
  let r ← ofOption (c.startNode node)
  let c ← c.upd r
  let (r, rule) ← rr c!"rule" c
  let c ← c.upd r
  let r ← ofOption (c.endNode node)
  let c ← c.upd r
  let id ← nextId
  return (← c.sub start, .optional rule id)

/-- `read_not` -- src/bootstrap/convert.rs:592-614. -/
def readNot (c : Convert) : CM (Range × Rule) := do
  let start := c
  let node := c!"not"
  let r ← ofOption (c.startNode node)
  let c ← c.upd r
  let (r, rule) ← rr c!"rule" c
  let c ← c.upd r
  let r ← ofOption (c.endNode node)
  let c ← c.upd r
  let id ← nextId
  return (← c.sub start, .not rule id)

/-- The loop body of `read_separated_by` -- src/bootstrap/convert.rs:631-654: `optional`,
`allow_trail`, `by`, `rule`. -/
def separatedBody (c : Convert) (s : Option Bool × Option Bool × Option Rule × Option Rule) :
    CM (Option (Range × (Option Bool × Option Bool × Option Rule × Option Rule))) :=
  tryRead (ofOption (c.metaBool c!"optional")) (fun v => (some v, s.2)) <|
  tryRead (ofOption (c.metaBool c!"allow_trail")) (fun v => (s.1, some v, s.2.2)) <|
  tryRead (rr c!"by" c) (fun v => (s.1, s.2.1, some v, s.2.2.2)) <|
  tryRead (rr c!"rule" c) (fun v => (s.1, s.2.1, s.2.2.1, some v)) noRead

/-- `read_separated_by` -- src/bootstrap/convert.rs:616-672. -/
def readSeparatedBy (n : Nat) (c : Convert) : CM (Range × Rule) := do
  let start := c
  let node := c!"separated_by"
  let r ← ofOption (c.startNode node)
  let c ← c.upd r
  let (c, optional, allowTrail, by_, rule) ← loop node (separatedBody rr) n c (none, none, none, none)
  let optional := optional.getD true
  let allowTrail := allowTrail.getD true
  let by_ ← ofOption by_
  let rule ← ofOption rule
  let id ← nextId
  return (← c.sub start, .separateBy rule by_ optional allowTrail id)

/-- The optional `indent` of `read_lines` -- src/bootstrap/convert.rs:683-686. -/
def readIndent (c : Convert) : CM (Convert × Bool) :=
  match c.metaBool c!"indent" with
  | some (r, val) => do
    let c ← c.upd r
    return (c, val)
  | none => return (c, false)

/-- `read_lines` -- src/bootstrap/convert.rs:674-700. -/
def readLines (c : Convert) : CM (Range × Rule) := do
  let start := c
  let r ← ofOption (c.startNode c!"lines")
  let c ← c.upd r
  let (c, indent) ← readIndent c
  let (r, rule) ← rr c!"rule" c
  let c ← c.upd r
  let r ← ofOption (c.endNode c!"lines")
  let c ← c.upd r
  let id ← nextId
  return (← c.sub start, .lines rule indent id)

/-- The loop body of `read_repeat` -- src/bootstrap/convert.rs:715-730: `rule`, `optional`. -/
def repeatBody (c : Convert) (s : Option Rule × Option Bool) :
    CM (Option (Range × (Option Rule × Option Bool))) :=
  tryRead (rr c!"rule" c) (fun v => (some v, s.2)) <|
  tryRead (ofOption (c.metaBool c!"optional")) (fun v => (s.1, some v)) noRead

/-- `read_repeat` -- src/bootstrap/convert.rs:702-744. -/
def readRepeat (n : Nat) (c : Convert) : CM (Range × Rule) := do
  let start := c
  let node := c!"repeat"
  let r ← ofOption (c.startNode node)
  let c ← c.upd r
  let (c, rule, optional) ← loop node (repeatBody rr) n c (none, none)
  let rule ← ofOption rule
  let optional ← ofOption optional
  let id ← nextId
  return (← c.sub start, .repeat_ rule optional id)

/-- The chain of `if let Ok((range, val)) = ..` in `read_rule`. -/
def firstRule : List (CM (Range × Rule)) → CM (Range × Rule)
  | [] => err
  | m :: ms => do
    match ← attempt m with
    | some x => return x
    | none => firstRule ms

/-- `read_rule` -- src/bootstrap/convert.rs:746-835, with `rr` for the recursive calls. -/
def readRuleStep (n : Nat) (property : Str) (c : Convert) : CM (Range × Rule) := do
  let start := c
  let r ← ofOption (c.startNode property)
  let c ← c.upd r
  let (r, rule) ← firstRule [
    readSequence rr n c,
    readUntilAnyOrWs strings n c,
    readUntilAny strings n c,
    readTag strings n c,
    readWhitespace c,
    readText strings n c,
    readNumber strings n c,
    readReference strings n c,
    readSelect rr n c,
    readOptional rr c,
    readNot rr c,
    readSeparatedBy rr n c,
    readLines rr c,
    readRepeat rr n c]
  let c ← c.upd r
  let r ← ofOption (c.endNode property)
  let c ← c.upd r
  return (← c.sub start, rule)

end

/-- `read_rule` -- src/bootstrap/convert.rs:746-835, cut off at depth `n`. -/
def readRule (strings : List (Str × Str)) : Nat → Str → Convert → CM (Range × Rule)
  | 0, _, _ => timeout
  | n + 1, property, c => readRuleStep strings (readRule strings n) n property c

/-- The loop body of `read_node` -- src/bootstrap/convert.rs:849-869: `id`, `name`, `rule`.
The counter for the debug ids is new in every round. -/
def nodeBody (strings : List (Str × Str)) (n : Nat) (c : Convert)
    (s : Option Nat × Option Str × Option Rule) :
    CM (Option (Range × (Option Nat × Option Str × Option Rule))) :=
  tryRead (ofOption (c.metaF64 c!"id")) (fun v => (some v.toUsize, s.2)) <|
  tryRead (ofOption (c.metaString c!"name")) (fun v => (s.1, some v, s.2.2)) <|
  tryRead (do setId (s.1.getD 0); readRule strings n c!"rule" c) (fun v => (s.1, s.2.1, some v)) noRead

/-- `read_node` -- src/bootstrap/convert.rs:837-877. -/
def readNode (strings : List (Str × Str)) (n : Nat) (c : Convert) : CM (Range × Str × Rule) := do
  let start := c
  let node := c!"node"
  let r ← ofOption (c.startNode node)
  let c ← c.upd r
  let (c, _, name, rule) ← loop node (nodeBody strings n) n c (none, none, none)
  let name ← ofOption name
  let rule ← ofOption rule
  return (← c.sub start, name, rule)

/-- The first loop of `convert` -- src/bootstrap/convert.rs:880-887, at most `k` rounds. -/
def stringsLoop (n : Nat) : Nat → Convert → List (Str × Str) → CM (Convert × List (Str × Str))
  | 0, _, _ => timeout
  | k + 1, c, strings => do
    match ← attempt (readString n c) with
    | some (r, val) =>
      let c ← c.upd r
      stringsLoop n k c (strings ++ [val])
    | none => return (c, strings)

/-- The second loop of `convert` -- src/bootstrap/convert.rs:889-898, at most `k` rounds. -/
def nodesLoop (strings : List (Str × Str)) (n : Nat) : Nat → Convert → Syntax → CM Syntax
  | 0, _, _ => timeout
  | k + 1, c, res => do
    match ← attempt (readNode strings n c) with
    | some (r, val) =>
      let c ← c.upd r
      nodesLoop strings n k c (res.push val.1 val.2)
    | none => if 0 < c.remaining then err else return res

end Convert

/-- `convert` -- src/bootstrap/convert.rs:142-901. -/
def convertM (n : Nat) (data : List Tok) : CM Syntax := do
  let (c, strings) ← Convert.stringsLoop n n (.new data) []
  let res ← Convert.nodesLoop strings n n c .new
  return res.updateRefs

/-- `convert(data, ignored)`: Ok or Err and the new `ignored`. -/
def convert (n : Nat) (data : List Tok) (ignored : List Range) : Comp (Option Syntax × List Range) :=
  match convertM n data ⟨0, ignored⟩ with
  | .ok (r, st) => .ok (r, st.ignored)
  | .panic => .panic
  | .timeout => .timeout

end Verif
