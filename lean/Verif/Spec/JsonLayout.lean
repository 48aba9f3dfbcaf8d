import Verif.Proofs.Depth
/-
The layout of the JSON text: one line for each item.
-/
namespace Verif.Spec

/-- A character between quotes. -/
def jsonChar (c : Char) : Str :=
  match [('\\', '\\'), ('"', '"'), ('\n', 'n'), ('\r', 'r'), ('\t', 't')].lookup c with
  | some e => ['\\', e]
  | none => [c]

/-- A string in quotes. -/
def inQuotes (s : Str) : Str := ['"'] ++ s.flatMap jsonChar ++ ['"']

/-- The text of an item. -/
def itemText (fmt : F64 → Str) : MetaData → Str
  | .startNode n => inQuotes n ++ c!":{"
  | .endNode _ => c!"}"
  | .bool n true => inQuotes n ++ c!":true"
  | .bool n false => inQuotes n ++ c!":false"
  | .f64 n x => inQuotes n ++ c!":" ++ fmt x
  | .string n s => inQuotes n ++ c!":" ++ inQuotes s

/-- How far the line of the item `k` is indented: as deep as the item lies in nodes. A node's own two lines are not inside of it. -/
def lineDepth (data : List Tok) (k : Nat) : Nat :=
  ((depth data).natAbs + min (depth (data.take k)) (depth (data.take (k + 1)))).toNat

/-- There is a comma between two items, but not behind the opening of a node and not before its end. -/
def lineComma (data : List Tok) (k : Nat) : Str :=
  match (data[k]?).map Tok.data, (data[k + 1]?).map Tok.data with
  | some (.startNode _), _ => []
  | some _, some (.endNode _) => []
  | some _, some _ => c!","
  | _, _ => []

/-- The line of the item `k`. -/
def jsonLine (fmt : F64 → Str) (data : List Tok) (k : Nat) : Str :=
  List.replicate (lineDepth data k) ' ' ++ ((data[k]?).map fun t => itemText fmt t.data).getD [] ++ lineComma data k ++ c!"\n"

/-- All lines; one empty line if there is no data. -/
def jsonLayout (fmt : F64 → Str) (data : List Tok) : Str :=
  if data = [] then c!"\n" else (List.range data.length).flatMap (jsonLine fmt data)

end Verif.Spec
