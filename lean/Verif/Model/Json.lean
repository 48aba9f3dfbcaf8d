import Verif.Model.Comp
import Verif.Model.Basic
/-
`json`, src/json.rs: meta data as JSON.

The writer is a text that grows; for writers that report errors see `Model/Writer`.  How Rust prints a number (`{}` of an `f64`) is the parameter `fmt`.
-/
namespace Verif

/-- One character inside a JSON string -- src/json.rs:76-88. -/
def escapeChar (c : Char) : Str :=
  if c = '\\' then ['\\', '\\']
  else if c = '"' then ['\\', '"']
  else if c = '\n' then ['\\', 'n']
  else if c = '\r' then ['\\', 'r']
  else if c = '\t' then ['\\', 't']
  else [c]

/-- `write_string` -- src/json.rs:71-92. -/
def writeString (val : Str) : Str := '"' :: (val.flatMap escapeChar ++ ['"'])

/-- `if let MetaData::StartNode(_)` -- src/json.rs:18. -/
def MetaData.isStart : MetaData → Bool
  | .startNode _ => true
  | _ => false

/-- `if let MetaData::EndNode(_)` -- src/json.rs:21, 27. -/
def MetaData.isEnd : MetaData → Bool
  | .endNode _ => true
  | _ => false

/-- The text of one item -- src/json.rs:43-63. -/
def writeItem (fmt : F64 → Str) : MetaData → Str
  | .startNode name => writeString name ++ [':', '{']
  | .endNode _ => ['}']
  | .bool name val => writeString name ++ ':' :: (if val then c!"true" else c!"false")
  | .f64 name val => writeString name ++ ':' :: fmt val
  | .string name val => writeString name ++ ':' :: writeString val

/-- The loop of `write` -- src/json.rs:25-65: `started` is `i != 0`, `indent` is a `u32`. -/
def writeLoop (fmt : F64 → Str) : List MetaData → (started first : Bool) → (indent : Nat) → Comp Str
  | [], _, _, _ => .ok ['\n']
  | d :: ds, started, first, indent =>
    if d.isEnd && indent == 0 then .panic
    else
      let indent := if d.isEnd then indent - 1 else indent
      let sep := if !first && !d.isEnd then [',', '\n'] else if started then ['\n'] else []
      let text := sep ++ List.replicate indent ' ' ++ writeItem fmt d
      if d.isStart && !(indent + 1 < 2 ^ 32) then .panic
      else
        match writeLoop fmt ds true d.isStart (if d.isStart then indent + 1 else indent) with
        | .ok rest => .ok (text ++ rest)
        | .panic => .panic
        | .timeout => .timeout

/-- `write` -- src/json.rs:9-68.  The counts are cast to `u32`. -/
def writeJson (fmt : F64 → Str) (data : List Tok) : Comp Str :=
  let ds := data.map (·.data)
  let starts := ds.countP (·.isStart) % 2 ^ 32
  let ends := ds.countP (·.isEnd) % 2 ^ 32
  writeLoop fmt ds false true (max starts ends - min starts ends)

end Verif
