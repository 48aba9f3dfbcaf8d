import Verif.Model.Basic
/-
`Search`, src/search/src/lib.rs (the crate `piston_meta_search`).

A closure is a function on searches; the functions with `&mut self` give back the new search.  How
Rust prints a number with `{}` and an item with `{:?}` are the parameters `fmt` and `dbg`.
-/
namespace Verif

/-- `Search` -- src/search/src/lib.rs:11-17. -/
structure Search where
  range : Option Range
  data : List Tok
deriving DecidableEq, Repr, Inhabited

/-- `Result<T, Range<ParseError>>`. -/
abbrev SRes (α : Type) := Except RErr α

namespace Search

/-- `Search::new` -- src/search/src/lib.rs:21-26. -/
def new (data : List Tok) : Search := ⟨none, data⟩

/-- `self.range.unwrap_or(Range::empty(0))`. -/
def place (s : Search) : Range := s.range.getD (Range.empty 0)

/-- The loops of the `for_` functions, for example src/search/src/lib.rs:45-57: the first item that
fits and the data after it. -/
def first (p : MetaData → Bool) : List Tok → Option (Range × List Tok)
  | [] => none
  | d :: ds => if p d.data then some (d.range, ds) else first p ds

/-- `Search::for_string` -- src/search/src/lib.rs:30-63.  An empty slice takes an early return with the
error at the end of the function. -/
def forString {α : Type} (s : Search) (name val : Str) (f : Search → SRes α) : SRes α :=
  match first (fun | .string n v => n == name && v == val | _ => false) s.data with
  | some (r, rest) => f ⟨some r, rest⟩
  | none => .error ⟨s.place, .conversion (c!"Could not find string `" ++ name ++ c!"`:`" ++ val ++ c!"`")⟩

/-- `Search::for_f64` -- src/search/src/lib.rs:67-100. -/
def forF64 {α : Type} (fmt : F64 → Str) (s : Search) (name : Str) (val : F64) (f : Search → SRes α) : SRes α :=
  match first (fun | .f64 n v => n == name && v.feq val | _ => false) s.data with
  | some (r, rest) => f ⟨some r, rest⟩
  | none => .error ⟨s.place, .conversion (c!"Could not find f64 `" ++ name ++ c!"`:`" ++ fmt val ++ c!"`")⟩

/-- `{}` of a `bool`. -/
def boolText (b : Bool) : Str := if b then c!"true" else c!"false"

/-- `Search::for_bool` -- src/search/src/lib.rs:104-137. -/
def forBool {α : Type} (s : Search) (name : Str) (val : Bool) (f : Search → SRes α) : SRes α :=
  match first (fun | .bool n v => n == name && v == val | _ => false) s.data with
  | some (r, rest) => f ⟨some r, rest⟩
  | none => .error ⟨s.place, .conversion (c!"Could not find bool `" ++ name ++ c!"`:`" ++ boolText val ++ c!"`")⟩

/-- `Search::for_node` -- src/search/src/lib.rs:141-171. -/
def forNode {α : Type} (s : Search) (name : Str) (f : Search → SRes α) : SRes α :=
  match first (fun | .startNode n => n == name | _ => false) s.data with
  | some (r, rest) => f ⟨some r, rest⟩
  | none => .error ⟨s.place, .conversion (c!"Could not find node `" ++ name ++ c!"`")⟩

/-- `Search::for_end_node` -- src/search/src/lib.rs:175-205. -/
def forEndNode {α : Type} (s : Search) (name : Str) (f : Search → SRes α) : SRes α :=
  match first (fun | .endNode n => n == name | _ => false) s.data with
  | some (r, rest) => f ⟨some r, rest⟩
  | none => .error ⟨s.place, .conversion (c!"Could not find end node `" ++ name ++ c!"`")⟩

/-- "Expected name `..`, found `..`". -/
def nameMsg (name n : Str) : Str := c!"Expected name `" ++ name ++ c!"`, found `" ++ n ++ c!"`"

/-- "Expected .. `..`, found `..`". -/
def kindMsg (dbg : MetaData → Str) (kind name : Str) (d : MetaData) : Str :=
  c!"Expected " ++ kind ++ c!" `" ++ name ++ c!"`, found `" ++ dbg d ++ c!"`"

/-- "Expected .. `..`". -/
def noneMsg (kind name : Str) : Str := c!"Expected " ++ kind ++ c!" `" ++ name ++ c!"`"

/-- `Search::bool` -- src/search/src/lib.rs:208-231.  One message has no comma (line 223). -/
def bool (dbg : MetaData → Str) (s : Search) (name : Str) : SRes Bool × Search :=
  match s.data with
  | [] => (.error ⟨s.place, .conversion (noneMsg c!"bool" name)⟩, s)
  | d :: ds =>
    match d.data with
    | .bool n v =>
      if n = name then (.ok v, ⟨some d.range, ds⟩)
      else (.error ⟨d.range, .conversion (c!"Expected name `" ++ name ++ c!"` found `" ++ n ++ c!"`")⟩, s)
    | x => (.error ⟨d.range, .conversion (kindMsg dbg c!"bool" name x)⟩, s)

/-- `Search::f64` -- src/search/src/lib.rs:234-257. -/
def f64 (dbg : MetaData → Str) (s : Search) (name : Str) : SRes F64 × Search :=
  match s.data with
  | [] => (.error ⟨s.place, .conversion (noneMsg c!"f64" name)⟩, s)
  | d :: ds =>
    match d.data with
    | .f64 n v =>
      if n = name then (.ok v, ⟨some d.range, ds⟩)
      else (.error ⟨d.range, .conversion (nameMsg name n)⟩, s)
    | x => (.error ⟨d.range, .conversion (kindMsg dbg c!"f64" name x)⟩, s)

/-- `Search::string` -- src/search/src/lib.rs:260-286. -/
def string (dbg : MetaData → Str) (s : Search) (name : Str) : SRes Str × Search :=
  match s.data with
  | [] => (.error ⟨s.place, .conversion (noneMsg c!"string" name)⟩, s)
  | d :: ds =>
    match d.data with
    | .string n v =>
      if n = name then (.ok v, ⟨some d.range, ds⟩)
      else (.error ⟨d.range, .conversion (nameMsg name n)⟩, s)
    | x => (.error ⟨d.range, .conversion (kindMsg dbg c!"string" name x)⟩, s)

/-- `Search::node` -- src/search/src/lib.rs:289-312. -/
def node (dbg : MetaData → Str) (s : Search) (name : Str) : SRes Unit × Search :=
  match s.data with
  | [] => (.error ⟨s.place, .conversion (noneMsg c!"node" name)⟩, s)
  | d :: ds =>
    match d.data with
    | .startNode n =>
      if n = name then (.ok (), ⟨some d.range, ds⟩)
      else (.error ⟨d.range, .conversion (nameMsg name n)⟩, s)
    | x => (.error ⟨d.range, .conversion (kindMsg dbg c!"node" name x)⟩, s)

/-- `Search::end_node` -- src/search/src/lib.rs:315-338. -/
def endNode (dbg : MetaData → Str) (s : Search) (name : Str) : SRes Unit × Search :=
  match s.data with
  | [] => (.error ⟨s.place, .conversion (noneMsg c!"end node" name)⟩, s)
  | d :: ds =>
    match d.data with
    | .endNode n =>
      if n = name then (.ok (), ⟨some d.range, ds⟩)
      else (.error ⟨d.range, .conversion (nameMsg name n)⟩, s)
    | x => (.error ⟨d.range, .conversion (kindMsg dbg c!"end node" name x)⟩, s)

end Search
end Verif
