import Verif.Model.Eval
import Verif.Model.StdLexer
import Verif.Model.Refs
import Verif.Model.Optimize
/-
Unit tests of /repo replayed on the model.  These are checks of the model, not proofs of
properties.
-/
namespace Verif.Tests

private def run (r : Rule) (text : Str) (off : Nat := 0) : Out :=
  eval stdLexer [] 60 r ⟨[], Indent.default⟩ 0 ⟨text.drop off, off⟩

private def st0 (toks : List Tok := []) : St := ⟨toks, Indent.default⟩

private def f64 (e m : Nat) : F64 := ⟨BitVec.ofNat 64 (e * 2 ^ 52 + m)⟩
private def one : F64 := f64 1023 0
private def two : F64 := f64 1024 0
private def three : F64 := f64 1024 (2 ^ 51)
private def four : F64 := f64 1025 0

/-! src/meta_rules/number.rs:72-120 -/
private def number (p : Option Str) (u : Bool) : Rule := .number p u 0
example : run (number none false) c!"foo" = .ret (.err ⟨⟨0, 0⟩, .expectedNumber 0⟩) st0 := by decide +kernel
private def numText : Str := c!"foo 1 1.1 10e1 10.0E1 10_000"
example : run (number none true) numText 4 = .ret (.ok ⟨4, 1⟩ 0 none) st0 := by decide +kernel
example : run (number none true) numText 6 = .ret (.ok ⟨6, 3⟩ 0 none) st0 := by decide +kernel
example : run (number none true) numText 10 = .ret (.ok ⟨10, 4⟩ 0 none) st0 := by decide +kernel
example : run (number none true) numText 22 = .ret (.ok ⟨22, 6⟩ 0 none) st0 := by decide +kernel
-- 10.0e1 = 100.0 = 0x4059000000000000
example : run (number (some c!"val") false) numText 15 =
    .ret (.ok ⟨15, 6⟩ 1 none) (st0 [⟨⟨15, 6⟩, .f64 c!"val" ⟨0x4059000000000000⟩⟩]) := by decide +kernel

/-! src/meta_rules/tag.rs:97-182 -/
example : run (.tag c!"(" false false none 0) c!")" =
    .ret (.err ⟨⟨0, 0⟩, .expectedTag c!"(" 0⟩) st0 := by decide +kernel
example : run (.tag c!")" true false none 0) c!")" =
    .ret (.err ⟨⟨0, 1⟩, .didNotExpectTag c!")" 0⟩) st0 := by decide +kernel
example : run (.tag c!"fn " false false none 0) c!"fn foo()" =
    .ret (.ok ⟨0, 3⟩ 0 none) st0 := by decide +kernel
example : run (.tag c!"(" false false (some c!"has_arguments") 0) c!"fn foo()" 6 =
    .ret (.ok ⟨6, 1⟩ 1 none) (st0 [⟨⟨6, 1⟩, .bool c!"has_arguments" true⟩]) := by decide +kernel
example : run (.tag c!"(" false true (some c!"has_no_arguments") 0) c!"fn foo()" 6 =
    .ret (.ok ⟨6, 1⟩ 1 none) (st0 [⟨⟨6, 1⟩, .bool c!"has_no_arguments" false⟩]) := by decide +kernel

/-! src/meta_rules/text.rs:74-119 -/
example : run (.text true none 0) c!"23" = .ret (.err ⟨⟨0, 0⟩, .expectedText 0⟩) st0 := by decide +kernel
example : run (.text false none 0) c!"\"\"" =
    .ret (.err ⟨⟨0, 2⟩, .emptyTextNotAllowed 0⟩) st0 := by decide +kernel
example : run (.text true (some c!"foo") 0) c!"foo \"hello\"" 4 =
    .ret (.ok ⟨4, 7⟩ 1 none) (st0 [⟨⟨4, 7⟩, .string c!"foo" c!"hello"⟩]) := by decide +kernel

/-! src/meta_rules/separate_by.rs:95-315 -/
private def sep (p : Option Str) (optional trail : Bool) : Rule :=
  .separateBy (.untilAnyOrWs c!",)" false p 1) (.tag c!"," false false none 2) optional trail 0
private def abc : List Tok :=
  [⟨⟨4, 1⟩, .string c!"arg" c!"a"⟩, ⟨⟨6, 1⟩, .string c!"arg" c!"b"⟩,
   ⟨⟨8, 1⟩, .string c!"arg" c!"c"⟩]
example : run (sep none false false) c!"foo()" 4 =
    .ret (.err ⟨⟨4, 0⟩, .expectedSomething 1⟩) st0 := by decide +kernel
example : run (sep none true false) c!"foo()" 4 =
    .ret (.ok ⟨4, 0⟩ 0 (some ⟨⟨4, 0⟩, .expectedSomething 1⟩)) st0 := by decide +kernel
example : run (sep (some c!"arg") true false) c!"foo(a,b,c,)" 4 =
    .ret (.err ⟨⟨10, 0⟩, .expectedSomething 1⟩) (st0 abc) := by decide +kernel
example : run (sep (some c!"arg") true true) c!"foo(a,b,c,)" 4 =
    .ret (.ok ⟨4, 6⟩ 3 (some ⟨⟨10, 0⟩, .expectedSomething 1⟩)) (st0 abc) := by decide +kernel
example : run (sep (some c!"arg") true false) c!"foo(a,b,c)" 4 =
    .ret (.ok ⟨4, 5⟩ 3 (some ⟨⟨9, 0⟩, .expectedTag c!"," 2⟩)) (st0 abc) := by decide +kernel

/-! src/meta_rules/lines.rs:150-425 -/
private def linesNum (indent : Bool) (p : Option Str) : Rule := .lines (.number p false 1) indent 0
private def v (o : Nat) (x : F64) : Tok := ⟨⟨o, 1⟩, .f64 c!"val" x⟩
example : run (linesNum false none) c!"\n1\n2\n\n3\n\n\n\"error\"\n4\n        " =
    .ret (.ok ⟨0, 10⟩ 0 (some ⟨⟨10, 0⟩, .expectedNumber 1⟩)) st0 := by decide +kernel
example : run (.lines (.sequence [.number (some c!"val") false 1, .whitespace true 2] 1) false 0)
      c!"\n1\n2\n\n3 4\n\n5\n " =
    .ret (.err ⟨⟨8, 0⟩, .expectedNewLine 0⟩) (st0 [v 1 one, v 3 two, v 6 three]) := by decide +kernel
example : run (linesNum false (some c!"val")) c!"\n1\n2\n\n3\n\n\n4\n " =
    .ret (.ok ⟨0, 13⟩ 4 none) (st0 [v 1 one, v 3 two, v 6 three, v 10 four]) := by decide +kernel
example : run (linesNum true (some c!"val")) c!"\n1\n2\n\n3\n\n\n4\n " =
    .ret (.ok ⟨0, 13⟩ 4 none) (st0 [v 1 one, v 3 two, v 6 three, v 10 four]) := by decide +kernel
example : run (linesNum true (some c!"val")) c!"\n1\n2\n 3\n4\n " =
    .ret (.ok ⟨0, 5⟩ 2 none) (st0 [v 1 one, v 3 two]) := by decide +kernel
-- the aligned indentation stays in force after the rule (not visible in the unit tests)
example : run (linesNum true (some c!"val")) c!"\n    1\n    2\n" =
    .ret (.ok ⟨0, 13⟩ 2 none) ⟨[v 5 one, v 11 two], ⟨4, true, 4⟩⟩ := by decide +kernel
example : run (linesNum true (some c!"val")) c!"\n\t1\n    2\n" =
    .ret (.ok ⟨0, 10⟩ 2 none) ⟨[v 2 one, v 8 two], ⟨4, true, 4⟩⟩ := by decide +kernel
example : run (linesNum true (some c!"val")) c!"\n    1\n\t2\n" =
    .ret (.ok ⟨0, 10⟩ 2 none) ⟨[v 5 one, v 8 two], ⟨4, true, 4⟩⟩ := by decide +kernel

/-- src/meta_rules/lines.rs:245-297 -/
example : parse stdLexer 60 (Syntax.new.push c!"" (.sequence [.lines (.number (some c!"num") true 2) false 1,
      .lines (.text false (some c!"tex") 4) false 3] 0)) c!"\n1\n2\n3\n\"one\"\n\"two\"\n\"three\"\n        " [] =
    .ok [⟨⟨1, 1⟩, .f64 c!"num" one⟩, ⟨⟨3, 1⟩, .f64 c!"num" two⟩, ⟨⟨5, 1⟩, .f64 c!"num" three⟩,
      ⟨⟨7, 5⟩, .string c!"tex" c!"one"⟩, ⟨⟨13, 5⟩, .string c!"tex" c!"two"⟩, ⟨⟨19, 7⟩, .string c!"tex" c!"three"⟩] := by
  decide +kernel

/-! src/meta_rules/separate_by.rs:263-314 -/
example : run (.separateBy (.separateBy (.untilAnyOrWs c!",;" false (some c!"arg") 2) (.tag c!"," false false none 3) false true 1)
      (.tag c!";" false false none 4) false true 0) c!"a,b,c;d,e,f;" =
    .ret (.ok ⟨0, 12⟩ 6 (some ⟨⟨12, 0⟩, .expectedSomething 2⟩)) (st0 [⟨⟨0, 1⟩, .string c!"arg" c!"a"⟩,
      ⟨⟨2, 1⟩, .string c!"arg" c!"b"⟩, ⟨⟨4, 1⟩, .string c!"arg" c!"c"⟩, ⟨⟨6, 1⟩, .string c!"arg" c!"d"⟩,
      ⟨⟨8, 1⟩, .string c!"arg" c!"e"⟩, ⟨⟨10, 1⟩, .string c!"arg" c!"f"⟩]) := by decide +kernel

/-! src/meta_rules/whitespace.rs:41-60 -/
example : run (.whitespace true 0) c!"a,b, c" = .ret (.ok ⟨0, 0⟩ 0 none) st0 := by decide +kernel
example : run (.whitespace true 0) c!"a,b, c" 4 = .ret (.ok ⟨4, 1⟩ 0 none) st0 := by decide +kernel
example : run (.whitespace false 0) c!"a,   b,c" 2 = .ret (.ok ⟨2, 3⟩ 0 none) st0 := by decide +kernel
example : run (.whitespace false 0) c!"a,   b,c" 7 = .ret (.err ⟨⟨7, 0⟩, .expectedWhitespace 0⟩) st0 := by decide +kernel

/-! src/meta_rules/select.rs:65-115 -/
example : parse stdLexer 60 (Syntax.new.push c!"" (.select [] 0)) c!"" [] =
    .err ⟨⟨0, 0⟩, .invalidRule .selectEmpty 0⟩ [] := by decide +kernel
example : parse stdLexer 60 (Syntax.new.push c!"" (.select [.text true none 1, .number (some c!"num") false 2] 0)) c!"2" [] =
    .ok [⟨⟨0, 1⟩, .f64 c!"num" two⟩] := by decide +kernel

/-! src/meta_rules/node.rs:99-158 -/
private def nodeRef : Syntax :=
  ((Syntax.new.push c!"foo" (.sequence [.number (some c!"num") false 2, .optional (.sequence [.whitespace false 3,
    .node c!"foo" (some c!"foo") none 3] 4) 3] 1)).push c!"" (.node c!"foo" (some c!"foo") none 0)).updateRefs
example : (match parse stdLexer 60 nodeRef c!"1 2 3" [] with | .ok toks => some (toks.map (·.data)) | _ => none) =
    some [.startNode c!"foo", .f64 c!"num" one, .startNode c!"foo", .f64 c!"num" two, .startNode c!"foo", .f64 c!"num" three,
      .endNode c!"foo", .endNode c!"foo", .endNode c!"foo"] := by decide +kernel

/-! src/meta_rules/until_any_or_whitespace.rs:65-99 -/
example : run (.untilAnyOrWs c!"(" false none 0) c!"fn ()" 3 =
    .ret (.err ⟨⟨3, 0⟩, .expectedSomething 0⟩) st0 := by decide +kernel
example : run (.untilAnyOrWs c!"(" false (some c!"function_name") 0) c!"fn foo()" 3 =
    .ret (.ok ⟨3, 3⟩ 1 none) (st0 [⟨⟨3, 3⟩, .string c!"function_name" c!"foo"⟩]) := by decide +kernel

/-! src/meta_rules/until_any.rs:64-97 -/
example : run (.untilAny c!"(" false none 0) c!"fn ()" 3 = .ret (.err ⟨⟨3, 0⟩, .expectedSomething 0⟩) st0 := by decide +kernel
example : run (.untilAny c!"(" false (some c!"function_name") 0) c!"fn foo()" 3 =
    .ret (.ok ⟨3, 3⟩ 1 none) (st0 [⟨⟨3, 3⟩, .string c!"function_name" c!"foo"⟩]) := by decide +kernel

/-! src/meta_rules/mod.rs:183-187 -/
example : parse stdLexer 60 Syntax.new c!"" [] = .err ⟨Range.empty 0, .noRules⟩ [] := by decide +kernel

/-! src/meta_rules/optional.rs:66-97 -/
example : run (.optional (.sequence [.text true none 2, .number (some c!"num") false 3] 1) 0) c!"2" =
    .ret (.ok ⟨0, 0⟩ 0 (some ⟨⟨0, 0⟩, .expectedText 2⟩)) st0 := by decide +kernel

/-! src/meta_rules/repeat.rs:74-119 -/
private def rep : Rule := .repeat_ (.tag c!"(a)" false false none 1) false 0
example : run rep c!"[a][a][a]" = .ret (.err ⟨⟨0, 0⟩, .expectedTag c!"(a)" 1⟩) st0 := by decide +kernel
example : run rep c!"(a)(a)(a)" = .ret (.ok ⟨0, 9⟩ 0 (some ⟨⟨9, 0⟩, .expectedTag c!"(a)" 1⟩)) st0 := by decide +kernel

/-! src/optimize.rs:192-248; src/optimize.rs:251-277 is in Props/TypeTest -/
private def tags (args : List Str) : List Rule := args.map fun n => .tag n false false none 0
private def table (args : List Str) : Option (List (Nat × UInt8) × Nat) :=
  match uniqueTable [] 9 (tags args) with
  | .ok (t, u) => some (((List.range 256).map fun i => (i, t (UInt8.ofNat i))).filter (·.2 ≠ 255), u)
  | _ => none
example : table [c!"John", c!"Peter"] = some ([(0x4a, 0), (0x50, 1)], 2) := by decide +kernel
example : table [c!"John", c!"Peter", c!"Carl", c!"Johnathan"] = some ([(0x43, 2), (0x4a, 0), (0x50, 1)], 3) := by decide +kernel
example : table [] = some ([], 0) := by decide +kernel

end Verif.Tests
