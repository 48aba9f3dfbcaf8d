import Verif.Model.ConvertCalls
/-
The work of `update_refs`, counted: src/meta_rules/rule.rs:128-190.

Each result comes with two numbers: the calls of `Rule::update_refs` that were made for it, and the names that were
looked at.  Otherwise the definitions are those of Model/Refs.lean.
-/
namespace Verif

/-- The search loop -- src/meta_rules/rule.rs:135-141, with the number of comparisons at line 136. -/
def findNameCounted (name : Str) : Nat → List Str → Option Nat × Nat
  | _, [] => (none, 0)
  | i, r :: rs =>
    if name = r then (some i, 1)
    else
      let x := findNameCounted name (i + 1) rs
      (x.1, x.2 + 1)

mutual
/-- `Rule::update_refs` -- src/meta_rules/rule.rs:128-190. -/
def Rule.updateRefsCounted (names : List Str) : Rule → Rule × Nat × Nat
  | .node name prop none id =>
    let x := findNameCounted name 0 names
    (.node name prop x.1 id, 1, x.2)
  | .node name prop (some i) id => (.node name prop (some i) id, 1, 0)
  | .whitespace a b => (.whitespace a b, 1, 0)
  | .tag a b c d e => (.tag a b c d e, 1, 0)
  | .untilAny a b c d => (.untilAny a b c d, 1, 0)
  | .untilAnyOrWs a b c d => (.untilAnyOrWs a b c d, 1, 0)
  | .text a b c => (.text a b c, 1, 0)
  | .number a b c => (.number a b c, 1, 0)
  | .fastSelect t args tl id => (.fastSelect t args tl id, 1, 0)
  | .select args id =>
    let x := Rule.updateRefsCountedL names args
    (.select x.1 id, 1 + x.2.1, x.2.2)
  | .sequence args id =>
    let x := Rule.updateRefsCountedL names args
    (.sequence x.1 id, 1 + x.2.1, x.2.2)
  | .separateBy r b o t id =>
    let x := Rule.updateRefsCounted names r
    let y := Rule.updateRefsCounted names b
    (.separateBy x.1 y.1 o t id, 1 + (x.2.1 + y.2.1), x.2.2 + y.2.2)
  | .repeat_ r o id =>
    let x := Rule.updateRefsCounted names r
    (.repeat_ x.1 o id, 1 + x.2.1, x.2.2)
  | .lines r i id =>
    let x := Rule.updateRefsCounted names r
    (.lines x.1 i id, 1 + x.2.1, x.2.2)
  | .optional r id =>
    let x := Rule.updateRefsCounted names r
    (.optional x.1 id, 1 + x.2.1, x.2.2)
  | .not r id =>
    let x := Rule.updateRefsCounted names r
    (.not x.1 id, 1 + x.2.1, x.2.2)
/-- The loops over `args` -- src/meta_rules/rule.rs:165-172. -/
def Rule.updateRefsCountedL (names : List Str) : List Rule → List Rule × Nat × Nat
  | [] => ([], 0, 0)
  | r :: rs =>
    let x := Rule.updateRefsCounted names r
    let y := Rule.updateRefsCountedL names rs
    (x.1 :: y.1, x.2.1 + y.2.1, x.2.2 + y.2.2)
end

/-- `update_refs` -- src/meta_rules/mod.rs:119-123. -/
def Syntax.updateRefsCounted (syn : Syntax) : Syntax × Nat × Nat :=
  let x := Rule.updateRefsCountedL syn.names syn.rules
  (⟨x.1, syn.names⟩, x.2)

namespace Counted

/-- `convert` up to the call of `update_refs` -- src/bootstrap/convert.rs:142-899. -/
def rawM (n : Nat) (data : List Tok) : CCM Syntax := do
  let (c, strings) ← stringsLoop n n (.new data) []
  nodesLoop strings n n c .new

/-- `convert(data, ignored)`, with the number of Model/ConvertCalls.lean and, if a syntax is returned, the two numbers
of `update_refs` at src/bootstrap/convert.rs:900. -/
def convertAll (n : Nat) (data : List Tok) (ignored : List Range) :
    Comp (Option (Syntax × Nat × Nat) × List Range × Nat) :=
  match rawM n data ⟨0, ignored⟩ with
  | .ok (r, st, k) => .ok (r.map Syntax.updateRefsCounted, st.ignored, k)
  | .panic => .panic
  | .timeout => .timeout

end Counted

end Verif
