import Verif.Model.Syntax
/-
The benchmarks in benches/bench.rs.  Texts are copied from the file; that an iteration is repeated and timed is not
modelled.
-/
namespace Verif

/-- One iteration of `bench_hello` (benches/bench.rs:13-35) and `bench_deep_string` (38-65), for any rules and text:
the data, or the message of the panic.  In `bench_select_3` (94-120), `bench_select_5` (123-151) and
`bench_select_tail` (154-183) the rules are read once, and then the text again and again. -/
def benchRun (L : Lexer) (E : ErrText) (n : Nat) (rules text : Str) : Comp (Except Str (List Tok)) := do
  match ← readSyntaxErrstr L E n rules with
  | .error err => return .error err
  | .ok syn =>
    let (res, data) ← parseErrstr L E n syn text []
    match res with
    | .error err => return .error err
    | .ok () => return .ok data

/-- `bench_hello_data` -- benches/bench.rs:69-91: the rules that `syntax_errstr` returns are optimized again. -/
def benchDataRun (L : Lexer) (E : ErrText) (n : Nat) (rules text : Str) : Comp (Except Str (List Tok)) := do
  match ← readSyntaxErrstr L E n rules with
  | .error err => return .error err
  | .ok syn =>
    let syn ← syn.optimize n
    let (res, data) ← parseErrstr L E n syn text []
    match res with
    | .error err => return .error err
    | .ok () => return .ok data

/-- benches/bench.rs:15. -/
def benchHelloText : Str := [
  c!"hi Peter!"].flatten

/-- benches/bench.rs:16-19. -/
def benchHelloRules : Str := [
  c!"\n",
  c!"            1 say_hi = [\"hi\" .w? {\"James\":\"james\" \"Peter\":\"peter\"} \"!\"]\n",
  c!"            2 document = say_hi\n",
  c!"        "].flatten

/-- benches/bench.rs:40-49. -/
def benchDeepText : Str := [
  c!"hi hi hi hi hi hi hi hi hi hi hi hi hi hi hi\n",
  c!"        hi hi hi hi hi hi hi hi hi hi hi hi hi hi hi hi hi hi hi hi\n",
  c!"        hi hi hi hi hi hi hi hi hi hi hi hi hi hi hi hi hi hi hi hi\n",
  c!"        hi hi hi hi hi hi hi hi hi hi hi hi hi hi hi hi hi hi hi hi\n",
  c!"        hi hi hi hi hi hi hi hi hi hi hi hi hi hi hi hi hi hi hi hi\n",
  c!"        hi hi hi hi hi hi hi hi hi hi hi hi hi hi hi hi hi hi hi hi\n",
  c!"        hi hi hi hi hi hi hi hi hi hi hi hi hi hi hi hi hi hi hi hi\n",
  c!"        hi hi hi hi hi hi hi hi hi hi hi hi hi hi hi hi hi hi hi hi\n",
  c!"        hi hi hi hi hi hi hi hi hi hi hi hi hi hi hi hi hi hi hi hi\n",
  c!"        foo"].flatten

/-- benches/bench.rs:50-53. -/
def benchDeepRules : Str := [
  c!"\n",
  c!"            1 foo = [..\" \"!:\"foo\" .w! {\"foo\" foo}]\n",
  c!"            2 document = foo\n",
  c!"        "].flatten

/-- benches/bench.rs:70-73. -/
def benchDataRules : Str := [
  c!"\n",
  c!"        1 say_hi = [\"hi\" .w? {\"James\":\"james\" \"Peter\":\"peter\"} \"!\"]\n",
  c!"        2 document = say_hi\n",
  c!"    "].flatten

/-- benches/bench.rs:82. -/
def benchDataText : Str := [
  c!"hi Peter!"].flatten

/-- benches/bench.rs:95-102. -/
def bench3Rules : Str := [
  c!"\n",
  c!"        1 say_hi = [\"hi\" .w? {\n",
  c!"            \"James\":\"james\"\n",
  c!"            \"Peter\":\"peter\"\n",
  c!"            \"Carl\":\"carl\"\n",
  c!"        } \"!\"]\n",
  c!"        2 document = say_hi\n",
  c!"    "].flatten

/-- benches/bench.rs:111. -/
def bench3Text : Str := [
  c!"hi Carl!"].flatten

/-- benches/bench.rs:124-133. -/
def bench5Rules : Str := [
  c!"\n",
  c!"        1 say_hi = [\"hi\" .w? {\n",
  c!"            \"James\":\"james\"\n",
  c!"            \"Peter\":\"peter\"\n",
  c!"            \"Carl\":\"carl\"\n",
  c!"            \"Nina\":\"nina\"\n",
  c!"            \"Monkey\":\"monkey\"\n",
  c!"        } \"!\"]\n",
  c!"        2 document = say_hi\n",
  c!"    "].flatten

/-- benches/bench.rs:142. -/
def bench5Text : Str := [
  c!"hi Monkey!"].flatten

/-- benches/bench.rs:155-165. -/
def benchTailRules : Str := [
  c!"\n",
  c!"        1 say_hi = [\"hi\" .w? {\n",
  c!"            \"James\":\"james\"\n",
  c!"            \"Peter\":\"peter\"\n",
  c!"            \"Carl\":\"carl\"\n",
  c!"            \"Nina\":\"nina\"\n",
  c!"            \"Monkey\":\"monkey\"\n",
  c!"            ..\"!\"!:\"name\"\n",
  c!"        } \"!\"]\n",
  c!"        2 document = say_hi\n",
  c!"    "].flatten

/-- benches/bench.rs:174. -/
def benchTailText : Str := [
  c!"hi Brian!"].flatten

end Verif
