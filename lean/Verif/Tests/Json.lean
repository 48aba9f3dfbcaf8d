import Verif.Model.Json
/-
Unit tests of /repo/src/json.rs replayed on the model.
-/
namespace Verif.Tests

private def fmt (x : F64) : Str :=
  if x = ⟨0x3FF0000000000000⟩ then ['1'] else if x = ⟨0x4000000000000000⟩ then ['2'] else ['3']
private def tok (d : MetaData) : Tok := ⟨⟨0, 0⟩, d⟩
private def xyz : List Tok :=
  [tok (.f64 c!"x" ⟨0x3FF0000000000000⟩), tok (.f64 c!"y" ⟨0x4000000000000000⟩), tok (.f64 c!"z" ⟨0x4008000000000000⟩)]
private def pos : List Tok :=
  [tok (.startNode c!"pos"), tok (.f64 c!"x" ⟨0x3FF0000000000000⟩), tok (.endNode c!"pos")]

/-! src/json.rs:108-157 -/
example : writeJson fmt xyz = .ok c!"\"x\":1,\n\"y\":2,\n\"z\":3\n" := by decide
example : writeJson fmt (tok (.startNode c!"pos") :: xyz ++ [tok (.endNode c!"pos")]) =
    .ok c!"\"pos\":{\n \"x\":1,\n \"y\":2,\n \"z\":3\n}\n" := by decide
example : writeJson fmt (pos ++ pos) = .ok c!"\"pos\":{\n \"x\":1\n},\n\"pos\":{\n \"x\":1\n}\n" := by decide
example : writeString c!"\n\r\t" = c!"\"\\n\\r\\t\"" := by decide

end Verif.Tests
