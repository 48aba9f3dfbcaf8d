import Verif.Model.TypeTest
import Verif.Spec.Desc
/-
What the rules in the test `test_type` of src/optimize.rs accept.
-/
namespace Verif.Spec

/-- The test ends in this way: with this data, or with a panic with this message. -/
def TestTypeEnds (L : Lexer) (E : ErrText) (rules text : Str) (r : Except Str (List Tok)) : Prop :=
  ∃ n, testTypeRun L E n rules text = .ok r

/-- The two types that are names, with their properties. -/
def baseTypes : List (Str × Str) := [(c!"f64", c!"f64"), (c!"thr", c!"thr_any")]

/-- A type: a name in `k` pairs of brackets. -/
def typeText (name : Str) (k : Nat) : Str := List.replicate k '[' ++ (name ++ List.replicate k ']')

/-- The data of a type, from the place `off` on: a node for each pair of brackets, with what is inside. -/
def typeData (prop : Str) : (k off : Nat) → List Tok
  | 0, off => [⟨⟨off, 3⟩, .bool prop true⟩]
  | k + 1, off => ⟨⟨off + 1, 0⟩, .startNode c!"arr"⟩ :: typeData prop k (off + 1) ++ [⟨⟨off + 1, 2 * k + 3⟩, .endNode c!"arr"⟩]

/-- The rules, as a document. -/
def typeNodes : List (Str × F64 × Str × Desc) := [
  (c!"100", ⟨0x4059000000000000⟩, c!"type",
    .select [.tag none (.value c!"f64") none (some (.value c!"f64")),
      .sequence [.tag none (.value c!"[") none none, .reference c!"type" (some (.value c!"arr")), .tag none (.value c!"]") none none],
      .tag none (.value c!"thr") none (some (.value c!"thr_any"))])]

/-- What is wrong with a text that is not a type, and where: after the opening brackets there is no type, or a name that
begins like one; after the name there are too few closing brackets, or there is something after the last. -/
inductive TypeWrong : Str → RErr → Prop
  | noType {k s} (h : ∀ c, s.head? = some c → c ≠ 'f' ∧ c ≠ '[' ∧ c ≠ 't') :
      TypeWrong (List.replicate k '[' ++ s) ⟨⟨k, 0⟩, .expectedSomething 100007⟩
  | f64 {k s} (h : s.head? = some 'f') (h' : ¬ c!"f64" <+: s) :
      TypeWrong (List.replicate k '[' ++ s) ⟨⟨k, 0⟩, .expectedTag c!"f64" 100001⟩
  | thr {k s} (h : s.head? = some 't') (h' : ¬ c!"thr" <+: s) :
      TypeWrong (List.replicate k '[' ++ s) ⟨⟨k, 0⟩, .expectedTag c!"thr" 100006⟩
  | notClosed {name prop k j s} (hb : (name, prop) ∈ baseTypes) (hj : j < k) (h : s.head? ≠ some ']') :
      TypeWrong (List.replicate k '[' ++ (name ++ (List.replicate j ']' ++ s))) ⟨⟨k + 3 + j, 0⟩, .expectedTag c!"]" 100004⟩
  | more {name prop k s} (hb : (name, prop) ∈ baseTypes) (h : s ≠ []) :
      TypeWrong (typeText name k ++ s) ⟨⟨2 * k + 3, 0⟩, .expectedEnd⟩

example : typeText c!"f64" 2 = c!"[[f64]]" := rfl
example : typeData c!"f64" 1 0 = [⟨⟨1, 0⟩, .startNode c!"arr"⟩, ⟨⟨1, 3⟩, .bool c!"f64" true⟩, ⟨⟨1, 3⟩, .endNode c!"arr"⟩] := rfl

end Verif.Spec
