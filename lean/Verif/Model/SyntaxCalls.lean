import Verif.Model.Syntax
import Verif.Model.Calls
import Verif.Model.RefsCalls
import Verif.Model.OptCalls
import Verif.Model.ByteCalls
/-
The work of `syntax`, counted: src/lib.rs:217-230.
-/
namespace Verif

/-- What `syntax` does for a text. -/
structure Work where
  /-- Calls of `Rule::parse`. -/
  parse : Nat
  /-- Calls of methods of `Convert`, items ignored and strings looked at (Model/ConvertCalls.lean). -/
  convert : Nat
  /-- Calls of `Rule::update_refs`. -/
  update : Nat
  /-- Names looked at by `Rule::update_refs`. -/
  names : Nat
  /-- Calls of `optimize_rule`. -/
  optimize : Nat
  /-- Calls of `unique_byte`. -/
  bytes : Nat

/-- All of it. -/
def Work.total (w : Work) : Nat := w.parse + w.convert + w.update + w.names + w.optimize + w.bytes

/-- `syntax` -- src/lib.rs:217-230, with its work, without that for `BOOTSTRAP_RULES`, which is computed once.  The two
numbers of the optimizer are taken from two runs of it. -/
def readSyntaxWork (L : Lexer) (n : Nat) (rules : Str) : Comp (Except RErr Syntax × Work) := do
  let bootstrap ← bootstrapRules.optimize n
  let p := match firstCall bootstrap rules [] Indent.default with
    | some c => callCount L bootstrap.rules n c
    | none => 0
  match Verif.parse L n bootstrap rules [] with
  | .timeout => .timeout
  | .panic => .panic
  | .err e _ => return (.error e, ⟨p, 0, 0, 0, 0, 0⟩)
  | .ok tokens =>
    let (res, _, k) ← Counted.convertAll n tokens []
    match res with
    | some (res, u, v) =>
      let (syn, o) ← res.optimizeCounted n
      let (_, b) ← res.optimizeBytes n
      return (.ok syn, ⟨p, k, u, v, o, b⟩)
    | none => return (.error conversionError, ⟨p, k, 0, 0, 0, 0⟩)

end Verif
