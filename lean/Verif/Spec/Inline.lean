import Verif.Spec.Notation
import Verif.Spec.Syntax
/-
Rule files that mean the same.
-/
namespace Verif.Spec

/-- `syntax` does the same for the two texts: it returns the same, or panics, or runs for ever. -/
structure SyntaxSame (L : Lexer) (text text' : Str) : Prop where
  returns : ∀ r, SyntaxReturns L text r ↔ SyntaxReturns L text' r
  panics : SyntaxPanics L text ↔ SyntaxPanics L text'
  runs : SyntaxRuns L text ↔ SyntaxRuns L text'

/-! ### Without strings -/

/-- The text of a name where it is defined. -/
def SetV.inline (strings : List (Str × Str)) : SetV → SetV
  | .value s => .value s
  | .ref n =>
    match strings.lookup n with
    | some s => .value s
    | none => .ref n

mutual
/-- The description with the texts of the strings where they are used. -/
def Desc.inline (strings : List (Str × Str)) : Desc → Desc
  | .whitespace o => .whitespace o
  | .untilAnyOrWs any o p => .untilAnyOrWs (any.inline strings) o (p.map (·.inline strings))
  | .untilAny any o p => .untilAny (any.inline strings) o (p.map (·.inline strings))
  | .tag neg t inv p => .tag neg (t.inline strings) inv (p.map (·.inline strings))
  | .text e p => .text e (p.map (·.inline strings))
  | .number u p => .number u (p.map (·.inline strings))
  | .reference name p => .reference name (p.map (·.inline strings))
  | .sequence args => .sequence (Desc.inlineL strings args)
  | .select args => .select (Desc.inlineL strings args)
  | .optional d => .optional (d.inline strings)
  | .not d => .not (d.inline strings)
  | .separatedBy o t b d => .separatedBy o t (b.inline strings) (d.inline strings)
  | .lines i d => .lines i (d.inline strings)
  | .repeat_ o d => .repeat_ o (d.inline strings)
def Desc.inlineL (strings : List (Str × Str)) : List Desc → List Desc
  | [] => []
  | d :: ds => d.inline strings :: Desc.inlineL strings ds
end

/-- The document with the texts of its strings where they are used, and no strings. -/
def Doc.inline (doc : Doc) : Doc :=
  ⟨[], doc.nodes.map fun n => (n.1, n.2.1, n.2.2.inline doc.strings)⟩

/-- The number can be written before any whitespace. -/
def Writable (L : Lexer) (k : F64) : Prop := ∃ digits, ∀ c rest, isWs c = true → IsNumber L k digits (c :: rest)

/-- Not a comment. -/
def Entry.counts : Entry → Bool
  | .comment => false
  | _ => true

/-! ### Other numbers -/

/-- The same nodes under other numbers. -/
def SameNodes : List (F64 × Str × Desc) → List (F64 × Str × Desc) → Prop
  | [], [] => True
  | x :: xs, y :: ys => x.2 = y.2 ∧ SameNodes xs ys
  | _, _ => False

/-- Two ids at the same place in nodes of the same position. -/
def SamePlace (ns ns' : List (F64 × Str × Desc)) (id id' : DebugId) : Prop :=
  ∃ x ∈ ns.zip ns', ∃ j, id = x.1.1.toUsize * 1000 + j ∧ id' = x.2.1.toUsize * 1000 + j

end Verif.Spec
