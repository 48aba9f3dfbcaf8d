import Verif.Model.Eq
import Verif.Model.Json
import Verif.Model.Syntax
/-
The programs in examples/.  Texts are copied from the files; files are not modelled.
-/
namespace Verif

/-- `main` of examples/hello_world.rs:5-28 and examples/indent.rs:5-34, for any rules and text: what is
written to the standard output.  `json::print` is src/json.rs:95-99. -/
def exampleMain (L : Lexer) (E : ErrText) (fmt : F64 → Str) (n : Nat) (rules text : Str) : Comp Str := do
  match ← readSyntaxErrstr L E n rules with
  | .error err => return err ++ ['\n']
  | .ok syn =>
    let (res, data) ← parseErrstr L E n syn text []
    match res with
    | .error err => return err ++ ['\n']
    | .ok () => writeJson fmt data

/-- `main` of examples/neg_match.rs:29-51, for any rules and text.  The data is printed after an error,
too. -/
def negMain (L : Lexer) (E : ErrText) (fmt : F64 → Str) (n : Nat) (rules text : Str) : Comp Str := do
  match ← readSyntaxErrstr L E n rules with
  | .error err => return err ++ ['\n']
  | .ok syn =>
    let (res, data) ← parseErrstr L E n syn text []
    let out ← writeJson fmt data
    match res with
    | .error err => return err ++ ['\n'] ++ out
    | .ok () => return out

/-- `main` of examples/key_value.rs:5-41, for any rules and text.  The calls of `stderr_unwrap` are those
of `load_syntax_data`; an error is the report on the standard error output before the panic. -/
def keyValueMain (L : Lexer) (E : ErrText) (fmt : F64 → Str) (n : Nat) (rules text : Str) : Comp (Except Str Str) := do
  match ← loadSyntaxData L E n rules text with
  | .error report => return .error report
  | .ok data =>
    let out ← writeJson fmt data
    return .ok out

/-- Where examples/bootstrap.rs and examples/bootstrap_old.rs can end. -/
inductive Bootstrapped where
  /-- a text is rejected, or its data is not converted -/
  | notRead
  /-- the assertion at the end, and whether it holds -/
  | compared (equal : Bool)
deriving DecidableEq, Repr

/-- `main` of examples/bootstrap_old.rs:16-29, with the contents of the files. -/
def bootstrapOldMain (L : Lexer) (n : Nat) (old oldInOld : Str) : Comp Bootstrapped := do
  match ← readSyntax L n old with
  | .error _ => return .notRead
  | .ok oldSyntax =>
    match parse L n oldSyntax oldInOld [] with
    | .timeout => .timeout
    | .panic => .panic
    | .err _ _ => return .notRead
    | .ok data =>
      let (res, _) ← convert n data []
      match res with
      | none => return .notRead
      | some oldInOldSyntax => return .compared (oldSyntax.peq oldInOldSyntax)

/-- One round of examples/bootstrap.rs: read the text with rules, and convert the data. -/
def bootstrapRound (L : Lexer) (n : Nat) (rules : Syntax) (source : Str) : Comp (Option Syntax) :=
  match parse L n rules source [] with
  | .timeout => .timeout
  | .panic => .panic
  | .err _ _ => return none
  | .ok data => do
    let (res, _) ← convert n data []
    return res

/-- `main` of examples/bootstrap.rs:8-27, with the content of the file. -/
def bootstrapMain (L : Lexer) (n : Nat) (source : Str) : Comp Bootstrapped := do
  match ← bootstrapRound L n bootstrapRules source with
  | none => return .notRead
  | some rules1 =>
    match ← bootstrapRound L n rules1 source with
    | none => return .notRead
    | some rules2 =>
      match parse L n rules2 source [] with
      | .timeout => .timeout
      | .panic => .panic
      | .err _ _ => return .notRead
      | .ok _ => return .compared (rules1.peq rules2)

/-- The rules of examples/hello_world.rs:7-10. -/
def helloRules : Str := [
  c!"\n",
  c!"        1 say_hi = [\"hi\" .w? {\"James\":\"james\" \"Peter\":\"peter\"} \"!\"]\n",
  c!"        2 document = say_hi\n",
  c!"    "].flatten

/-- The text of examples/hello_world.rs:6. -/
def helloText : Str := [
  c!"hi James!"].flatten

/-- The rules of examples/indent.rs:14-17. -/
def indentRules : Str := [
  c!"\n",
  c!"        2 node = [.$:\"num\" .l+(node:\"node\")]\n",
  c!"        1 document = [.w? node:\"node\" .w?]\n",
  c!"    "].flatten

/-- The text of examples/indent.rs:6-13. -/
def indentText : Str := [
  c!"\n",
  c!"1\n",
  c!" 2\n",
  c!"  3\n",
  c!"  4\n",
  c!" 5\n",
  c!"  6\n",
  c!"    "].flatten

/-- The rules of examples/neg_match.rs:31-33. -/
def negRules : Str := [
  c!"\n",
  c!"        1 document = [!\"hi\":\"hi_did_not_occured\" ...\"\"?]\n",
  c!"    "].flatten

/-- The text of examples/neg_match.rs:30. -/
def negText : Str := [
  c!"hello!"].flatten

/-- The rules of examples/key_value.rs:14-23. -/
def keyValueRules : Str := [
  c!"\n",
  c!"        0 document = .l({\n",
  c!"            [.w? \"#\" ...\"\\n\"?]\n",
  c!"            [.w? ..\"=\"!:\"key\" .w? \"=\" .w? {\n",
  c!"                .$_:\"number\"\n",
  c!"                {\"true\":\"bool\" \"false\":!\"bool\"}\n",
  c!"                .t?:\"string\"\n",
  c!"                ..\"\"!:\"value\"\n",
  c!"            } .w?]\n",
  c!"        })"].flatten

/-- The text of examples/key_value.rs:7-13. -/
def keyValueText : Str := [
  c!"\n",
  c!"        # A monster\n",
  c!"        age = 250\n",
  c!"        strength = 200\n",
  c!"        name = \"Big Dragon\"\n",
  c!"        violent = true\n",
  c!"    "].flatten

/-- assets/old-syntax.txt:1-40: the old meta language in the new one. -/
def oldSyntaxText : Str := [
  c!"_opt: \"optional\"\n",
  c!"_inv: \"inverted\"\n",
  c!"_prop: \"property\"\n",
  c!"_any: \"any_characters\"\n",
  c!"_seps: \"[]{}():.!?\\\"\"\n",
  c!"1 string = [.w? .._seps!:\"name\" \":\" .w? .t?:\"text\"]\n",
  c!"2 node = [.w? .$:\"id\" .w! .t!:\"name\" .w! rule:\"rule\"]\n",
  c!"3 set = {.t!:\"value\" .._seps!:\"ref\"}\n",
  c!"4 set_opt = {.t?:\"value\" .._seps!:\"ref\"}\n",
  c!"5 opt = {\"?\":_opt \"!\":!_opt}\n",
  c!"6 number = [\"$\" ?\"_\":\"underscore\" ?set:_prop]\n",
  c!"7 text = [\"t\" {\"?\":\"allow_empty\" \"!\":!\"allow_empty\"} ?set:_prop]\n",
  c!"8 reference = [\"@\" .t!:\"name\" ?set:_prop]\n",
  c!"9 sequence = [\"[\" .w? .s!.(.w! rule:\"rule\") \"]\"]\n",
  c!"10 select = [\"{\" .w? .s!.(.w! rule:\"rule\") \"}\"]\n",
  c!"11 separated_by = [\"s\" opt ?\".\":\"allow_trail\"\n",
  c!"  \"(\" .w? rule:\"by\" .w? \")\" .w? \"{\" .w? rule:\"rule\" .w? \"}\"]\n",
  c!"12 token = [?\"!\":\"not\" set:\"text\" ?[?\"!\":_inv set:_prop]]\n",
  c!"13 optional = [\"?\" rule:\"rule\"]\n",
  c!"14 whitespace = [\"w\" opt]\n",
  c!"15 until_any_or_whitespace = [\"..\" set_opt:_any opt ?set:_prop]\n",
  c!"16 until_any = [\"...\" set_opt:_any opt ?set:_prop]\n",
  c!"17 repeat = [\"r\" opt \"(\" rule:\"rule\" \")\"]\n",
  c!"18 lines = [\"l(\" .w? rule:\"rule\" .w? \")\"]\n",
  c!"19 rule = {\n",
  c!"  whitespace:\"whitespace\"\n",
  c!"  until_any_or_whitespace:\"until_any_or_whitespace\"\n",
  c!"  until_any:\"until_any\"\n",
  c!"  lines:\"lines\"\n",
  c!"  repeat:\"repeat\"\n",
  c!"  number:\"number\"\n",
  c!"  text:\"text\"\n",
  c!"  reference:\"reference\"\n",
  c!"  sequence:\"sequence\"\n",
  c!"  select:\"select\"\n",
  c!"  separated_by:\"separated_by\"\n",
  c!"  token:\"tag\"\n",
  c!"  optional:\"optional\"\n",
  c!"}\n",
  c!"20 document = [.l(string:\"string\") .l(node:\"node\") .w?]\n"].flatten

/-- The strings of assets/old-self-syntax.txt:1-5. -/
def oldSelfStrings : List Str := [
  c!"opt: \"optional\"",
  c!"inv: \"inverted\"",
  c!"prop: \"property\"",
  c!"any: \"any_characters\"",
  c!"seps: \"[]{}():.!?\\\"\""]

/-- The nodes of assets/old-self-syntax.txt:6-40. -/
def oldSelfNodes : List Str := [
  c!"1 \"string\" [w? ..seps!\"name\" \":\" w? t?\"text\"]",
  c!"2 \"node\" [w? $\"id\" w! t!\"name\" w! @\"rule\"\"rule\"]",
  c!"3 \"set\" {t!\"value\" ..seps!\"ref\"}",
  c!"4 \"set_opt\" {t?\"value\" ..seps!\"ref\"}",
  c!"5 \"opt\" {\"?\"opt \"!\"!opt}",
  c!"6 \"number\" [\"$\" ?\"_\"\"underscore\" ?@\"set\"prop]",
  c!"7 \"text\" [\"t\" {\"?\"\"allow_empty\" \"!\"!\"allow_empty\"} ?@\"set\"prop]",
  c!"8 \"reference\" [\"@\" t!\"name\" ?@\"set\"prop]",
  c!"9 \"sequence\" [\"[\" w? s!.(w!) {@\"rule\"\"rule\"} \"]\"]",
  c!"10 \"select\" [\"{\" w? s!.(w!) {@\"rule\"\"rule\"} \"}\"]",
  [c!"11 \"separated_by\" [\"s\" @\"opt\" ?\".\"\"allow_trail\"\n",
   c!"  \"(\" w? @\"rule\"\"by\" w? \")\" w? \"{\" w? @\"rule\"\"rule\" w? \"}\"]"].flatten,
  c!"12 \"token\" [?\"!\"\"not\" @\"set\"\"text\" ?[?\"!\"inv @\"set\"prop]]",
  c!"13 \"optional\" [\"?\" @\"rule\"\"rule\"]",
  c!"14 \"whitespace\" [\"w\" @\"opt\"]",
  c!"15 \"until_any_or_whitespace\" [\"..\" @\"set_opt\"any @\"opt\" ?@\"set\"prop]",
  c!"16 \"until_any\" [\"...\" @\"set_opt\"any @\"opt\" ?@\"set\"prop]",
  c!"17 \"repeat\" [\"r\" @\"opt\" \"(\" @\"rule\"\"rule\" \")\"]",
  c!"18 \"lines\" [\"l(\" w? @\"rule\"\"rule\" w? \")\"]",
  [c!"19 \"rule\" {\n",
   c!"  @\"whitespace\"\"whitespace\"\n",
   c!"  @\"until_any_or_whitespace\"\"until_any_or_whitespace\"\n",
   c!"  @\"until_any\"\"until_any\"\n",
   c!"  @\"lines\"\"lines\"\n",
   c!"  @\"repeat\"\"repeat\"\n",
   c!"  @\"number\"\"number\"\n",
   c!"  @\"text\"\"text\"\n",
   c!"  @\"reference\"\"reference\"\n",
   c!"  @\"sequence\"\"sequence\"\n",
   c!"  @\"select\"\"select\"\n",
   c!"  @\"separated_by\"\"separated_by\"\n",
   c!"  @\"token\"\"tag\"\n",
   c!"  @\"optional\"\"optional\"\n",
   c!"}"].flatten,
  c!"20 \"document\" [l(@\"string\"\"string\") l(@\"node\"\"node\") w?]"]

/-- assets/old-self-syntax.txt: the old meta language in itself. -/
def oldSelfText : Str := (oldSelfStrings ++ oldSelfNodes).flatMap (· ++ ['\n'])

end Verif
