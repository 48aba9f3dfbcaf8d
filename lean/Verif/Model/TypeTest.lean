import Verif.Model.Bench
/-
The test `test_type` of src/optimize.rs.  It runs the same steps as `bench_hello_data`, `benchDataRun`.
-/
namespace Verif

/-- src/optimize.rs:255-261. -/
def testTypeRules : Str := [
  c!"\n",
  c!"            100 type = {\n",
  c!"                \"f64\":\"f64\"\n",
  c!"                [\"[\" type:\"arr\" \"]\"]\n",
  c!"                \"thr\":\"thr_any\"\n",
  c!"            }\n",
  c!"        "].flatten

/-- src/optimize.rs:269. -/
def testTypeText : Str := c!"[f64]"

/-- `test_type` -- src/optimize.rs:252-277, for any rules and text: the data, or the message of the panic. -/
def testTypeRun (L : Lexer) (E : ErrText) (n : Nat) (rules text : Str) : Comp (Except Str (List Tok)) := do
  match ← readSyntaxErrstr L E n rules with
  | .error err => return .error err
  | .ok syn =>
    let syn ← syn.optimize n
    let (res, data) ← parseErrstr L E n syn text []
    match res with
    | .error err => return .error err
    | .ok () => return .ok data

end Verif
