import Verif.Model.SelfSyntax
import Verif.Model.Syntax
/-
The functions of tests/lib.rs, and the files with the notation of version 1.0 of the meta language.
-/
namespace Verif

/-- assets/new-self-syntax.txt:35 and assets/self-syntax-1.0.txt:143. -/
def linesNode10 : Str :=
  c! r#"20 lines = [".l(" .w? rule:"rule" .w? ")"]
"#

/-- assets/self-syntax-1.0.txt. It differs from assets/self-syntax.txt in this node only. -/
def selfText10 : Str :=
  c!"/*" ++ selfComment.flatten ++ c!"*/\n\n" ++ selfStrings.flatten ++ (selfNodes.set 20 linesNode10).flatten

/-- assets/new-self-syntax.txt:1-3 between the signs of the comment. -/
def newSelfComment : Str := c!"\nUsed for bootstrapping to test changes in meta language.\n"

/-- assets/new-self-syntax.txt. -/
def newSelfText : Str :=
  c!"/*" ++ newSelfComment ++ c!"*/\n\n" ++ selfStrings.flatten ++ (selfNodes.set 20 linesNode10).flatten

/-- The message of `unwrap` on `Err(())`. -/
def unwrapMessage : Str := c!"called `Result::unwrap()` on an `Err` value: ()"

/-- `use_new_self_syntax` -- tests/lib.rs:7-30, with the content of the file at line 9. An error is the
message of `panic!` or `unwrap`. -/
def useNewSelfSyntax (L : Lexer) (E : ErrText) (n : Nat) (newSelf rules text : Str) :
    Comp (Except Str (List Tok)) := do
  match ← readSyntaxErrstr L E n newSelf with
  | .error err => return .error err
  | .ok bootstrapped =>
    let (res, docRules) ← parseErrstr L E n bootstrapped rules []
    match res with
    | .error err => return .error err
    | .ok () =>
      let (res, _) ← convert n docRules []
      match res with
      | none => return .error unwrapMessage
      | some docRules =>
        let (res, data) ← parseErrstr L E n docRules text []
        match res with
        | .error err => return .error err
        | .ok () => return .ok data

/-- `use_old_self_syntax` -- tests/lib.rs:32-43. An error is the message of `panic!`. -/
def useOldSelfSyntax (L : Lexer) (E : ErrText) (n : Nat) (rules text : Str) : Comp (Except Str (List Tok)) := do
  match ← readSyntaxErrstr L E n rules with
  | .error err => return .error err
  | .ok syn =>
    let (res, data) ← parseErrstr L E n syn text []
    match res with
    | .error err => return .error err
    | .ok () => return .ok data

end Verif
