import Verif.Model.Bootstrap
import Verif.Model.Convert
import Verif.Model.ErrorHandler
import Verif.Model.Optimize
/-
Reading a syntax from text, src/lib.rs:216-266.

`load_syntax_data` is given the two texts; for files see `Model/Writer`.
-/
namespace Verif

/-- The error at src/lib.rs:227-228. -/
def conversionError : RErr := ⟨Range.empty 0, .conversion c!"Bootstrapping rules are incorrect"⟩

/-- `syntax` -- src/lib.rs:217-230.  `BOOTSTRAP_RULES` is computed once in the code, and each time
here. -/
def readSyntax (L : Lexer) (n : Nat) (rules : Str) : Comp (Except RErr Syntax) := do
  let bootstrap ← bootstrapRules.optimize n
  match parse L n bootstrap rules [] with
  | .timeout => .timeout
  | .panic => .panic
  | .err e _ => return .error e
  | .ok tokens =>
    let (res, _) ← convert n tokens []
    match res with
    | some res =>
      let syn ← res.optimize n
      return .ok syn
    | none => return .error conversionError

/-- `syntax_errstr` -- src/lib.rs:233-242.  What is written is UTF-8. -/
def readSyntaxErrstr (L : Lexer) (E : ErrText) (n : Nat) (rules : Str) : Comp (Except Str Syntax) := do
  match ← readSyntax L n rules with
  | .ok syn => return .ok syn
  | .error e =>
    let w ← reportErr E rules e
    return .error w

/-- `parse_errstr_with_indent` -- src/meta_rules/mod.rs:100-117, with the vector of data after the
call.  What is written is UTF-8. -/
def parseErrstrWithIndent (L : Lexer) (E : ErrText) (n : Nat) (rules : Syntax) (text : Str)
    (tokens : List Tok) (ind : Indent) : Comp (Except Str Unit × List Tok) :=
  match parseWithIndent L n rules text tokens ind with
  | .timeout => .timeout
  | .panic => .panic
  | .ok tokens => return (.ok (), tokens)
  | .err e tokens => do
    let w ← reportErr E text e
    return (.error w, tokens)

/-- `parse_errstr` -- src/meta_rules/mod.rs:91-97. -/
def parseErrstr (L : Lexer) (E : ErrText) (n : Nat) (rules : Syntax) (text : Str) (tokens : List Tok) :
    Comp (Except Str Unit × List Tok) :=
  parseErrstrWithIndent L E n rules text tokens Indent.default

/-- `load_syntax_data` -- src/lib.rs:247-266.  An error is what is on the standard error output
when `stderr_unwrap` panics (src/parse_error_handler.rs:7-15). -/
def loadSyntaxData (L : Lexer) (E : ErrText) (n : Nat) (s d : Str) : Comp (Except Str (List Tok)) := do
  match ← readSyntax L n s with
  | .error e =>
    let w ← reportErr E s e
    return .error w
  | .ok rules =>
    match parse L n rules d [] with
    | .timeout => .timeout
    | .panic => .panic
    | .ok tokens => return .ok tokens
    | .err e _ =>
      let w ← reportErr E d e
      return .error w

end Verif
