import Verif.Model.Search
import Verif.Model.Syntax
import Verif.Model.StdLexer
/-
Unit tests of the crate `piston_meta_search`, src/search/src/lib.rs:341-458, replayed on the model.
-/
namespace Verif.Tests

/-- `stderr_unwrap(rules, syntax(rules))` and `stderr_unwrap(text, parse(&rules, text, &mut data))`. -/
private def load (rules text : Str) : Option (List Tok) :=
  match loadSyntaxData stdLexer ⟨fun _ => [], fun _ => []⟩ 60 rules text with
  | .ok (.ok data) => some data
  | _ => none

private def dbg (_ : MetaData) : Str := []
private def num (_ : F64) : Str := []
private def one : F64 := ⟨0x3FF0000000000000⟩
private def two : F64 := ⟨0x4000000000000000⟩

/-! search_for_string (345-362), search_for_f64 (364-376) -/
private def named : Str := c!"\n            0 document = .r?([..\"\"!:\"name\" .w? .$:\"val\" .w?])\n        "
private theorem named_data : load named c!"a 1 b 2" = some
    [⟨⟨0, 1⟩, .string c!"name" c!"a"⟩, ⟨⟨2, 1⟩, .f64 c!"val" one⟩, ⟨⟨4, 1⟩, .string c!"name" c!"b"⟩,
     ⟨⟨6, 1⟩, .f64 c!"val" two⟩] := by decide +kernel
example : (load named c!"a 1 b 2").map (fun data =>
    ((((Search.new data).forString c!"name" c!"a" fun s => (s.f64 dbg c!"val").1).toOption,
      ((Search.new data).forString c!"name" c!"b" fun s => (s.f64 dbg c!"val").1).toOption,
      ((Search.new data).forString c!"name" c!"c" fun s => (s.f64 dbg c!"val").1).toOption))) =
    some (some one, some two, none) := by rw [named_data]; decide +kernel
example : (load named c!"a 1 b 2").map (fun data =>
    ((Search.new data).forF64 num c!"val" one fun s => (s.string dbg c!"name").1).toOption) =
    some (some c!"b") := by rw [named_data]; decide +kernel

/-! search_for_bool (378-390) -/
private def bools : Str :=
  c!"\n            0 document = .r?([..\"\"!:\"name\" .w? {\"true\":\"val\" \"false\":!\"val\"} .w?])\n        "
example : (load bools c!"a true b false").map (fun data =>
    ((Search.new data).forBool c!"val" true fun s => (s.string dbg c!"name").1).toOption) =
    some (some c!"b") := by decide +kernel

/-! search_for_end_node (392-411), node (440-457) -/
private def nodes : Str :=
  c!"\n            0 proposition = {\"true\":\"val\" \"false\":!\"val\"}\n            0 document = .r?([proposition:\"proposition\" .w?])\n        "
private theorem nodes_data : load nodes c!"true false" = some
    [⟨⟨0, 0⟩, .startNode c!"proposition"⟩, ⟨⟨0, 4⟩, .bool c!"val" true⟩, ⟨⟨0, 4⟩, .endNode c!"proposition"⟩,
     ⟨⟨5, 0⟩, .startNode c!"proposition"⟩, ⟨⟨5, 5⟩, .bool c!"val" false⟩, ⟨⟨5, 5⟩, .endNode c!"proposition"⟩] := by
  decide +kernel
example : (load nodes c!"true false").map (fun data =>
    let (r1, s) := (Search.new data).node dbg c!"proposition"
    (r1.toOption, (s.forEndNode c!"proposition" fun s =>
      let (r2, s) := s.node dbg c!"proposition"
      let (r3, s) := s.bool dbg c!"val"
      let (r4, _) := s.endNode dbg c!"proposition"
      .ok (r2.toOption, r3.toOption, r4.toOption)).toOption)) =
    some (some (), some (some (), some false, some ())) := by rw [nodes_data]; decide +kernel
example : (load nodes c!"true false").map (fun data =>
    let (r1, s) := (Search.new data).node dbg c!"proposition"
    let (r2, s) := s.bool dbg c!"val"
    let (r3, s) := s.endNode dbg c!"proposition"
    let (r4, s) := s.node dbg c!"proposition"
    let (r5, s) := s.bool dbg c!"val"
    let (r6, _) := s.endNode dbg c!"proposition"
    (r1.toOption, r2.toOption, r3.toOption, r4.toOption, r5.toOption, r6.toOption)) =
    some (some (), some true, some (), some (), some false, some ()) := by rw [nodes_data]; rfl

/-! f64 (413-424), bool (426-438) -/
example : (load c!"\n            0 document = .r?([.$:\"val\" .w?])\n        " c!"1 2").map (fun data =>
    let (r1, s) := (Search.new data).f64 dbg c!"val"
    let (r2, _) := s.f64 dbg c!"val"
    (r1.toOption, r2.toOption)) = some (some one, some two) := by decide +kernel
example : (load c!"\n            0 document = .r?([{\"true\":\"val\" \"false\":!\"val\"} .w?])\n        " c!"true false").map
    (fun data =>
    let (r1, s) := (Search.new data).bool dbg c!"val"
    let (r2, _) := s.bool dbg c!"val"
    (r1.toOption, r2.toOption)) = some (some true, some false) := by decide +kernel

end Verif.Tests
