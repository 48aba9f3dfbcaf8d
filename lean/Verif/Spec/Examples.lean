import Verif.Model.Examples
import Verif.Spec.Run
/-
What the programs in examples/ do, independent of the cut off.
-/
namespace Verif.Spec

/-- examples/hello_world.rs or examples/indent.rs, with these rules and this text, ends and has
written `out`. -/
def ExampleWrites (L : Lexer) (E : ErrText) (fmt : F64 → Str) (rules text out : Str) : Prop :=
  ∃ n, exampleMain L E fmt n rules text = .ok out

/-- examples/neg_match.rs, with these rules and this text, ends and has written `out`. -/
def NegWrites (L : Lexer) (E : ErrText) (fmt : F64 → Str) (rules text out : Str) : Prop :=
  ∃ n, negMain L E fmt n rules text = .ok out

/-- examples/bootstrap.rs ends in this way. -/
def BootstrapEnds (L : Lexer) (source : Str) (b : Bootstrapped) : Prop :=
  ∃ n, bootstrapMain L n source = .ok b

/-- examples/bootstrap_old.rs ends in this way. -/
def BootstrapOldEnds (L : Lexer) (old oldInOld : Str) (b : Bootstrapped) : Prop :=
  ∃ n, bootstrapOldMain L n old oldInOld = .ok b

/-- The names that examples/hello_world.rs greets, with the data they give. -/
def greeted : List (Str × Str) := [(c!"James", c!"james"), (c!"Peter", c!"peter")]

/-- What the rules of examples/hello_world.rs make of a text: data, or an error at a place. -/
inductive HelloSays : Str → Except RErr (List Tok) → Prop
  | noHi {text} (h : ¬ c!"hi" <+: text) : HelloSays text (.error ⟨⟨0, 0⟩, .expectedTag c!"hi" 1001⟩)
  | noName {w rest} (hw : ∀ c ∈ w, isWs c = true)
      (h : ∀ c, rest.head? = some c → isWs c = false ∧ c ≠ 'J' ∧ c ≠ 'P') :
      HelloSays (c!"hi" ++ (w ++ rest)) (.error ⟨⟨2 + w.length, 0⟩, .expectedSomething 1005⟩)
  | noJames {w rest} (hw : ∀ c ∈ w, isWs c = true) (h : ¬ c!"ames" <+: rest) :
      HelloSays (c!"hi" ++ (w ++ 'J' :: rest)) (.error ⟨⟨2 + w.length, 0⟩, .expectedTag c!"James" 1003⟩)
  | noPeter {w rest} (hw : ∀ c ∈ w, isWs c = true) (h : ¬ c!"eter" <+: rest) :
      HelloSays (c!"hi" ++ (w ++ 'P' :: rest)) (.error ⟨⟨2 + w.length, 0⟩, .expectedTag c!"Peter" 1004⟩)
  | noMark {w rest name prop} (hw : ∀ c ∈ w, isWs c = true) (hn : (name, prop) ∈ greeted) (h : ¬ c!"!" <+: rest) :
      HelloSays (c!"hi" ++ (w ++ (name ++ rest))) (.error ⟨⟨7 + w.length, 0⟩, .expectedTag c!"!" 1006⟩)
  | more {w rest name prop} (hw : ∀ c ∈ w, isWs c = true) (hn : (name, prop) ∈ greeted) (h : rest ≠ []) :
      HelloSays (c!"hi" ++ (w ++ (name ++ '!' :: rest))) (.error ⟨⟨8 + w.length, 0⟩, .expectedEnd⟩)
  | greets {w name prop} (hw : ∀ c ∈ w, isWs c = true) (hn : (name, prop) ∈ greeted) :
      HelloSays (c!"hi" ++ (w ++ (name ++ ['!']))) (.ok [⟨⟨2 + w.length, 5⟩, .bool prop true⟩])

end Verif.Spec
