import Verif.Spec.Predictable
import Verif.Spec.Viable
/-
How to find out whether whatever has been read can be continued: sets of characters are lists, as for marks.
-/
namespace Verif.Spec

section
variable (A : List Char) (nums : Bool → List Char) (ends : List Char) (F : Nat → Found) (G : Nat → List (Option Char))

mutual
/-- What must not follow a rule.  The characters of `ends` must not follow numbers. -/
def beyondOf : Rule → List (Option Char)
  | .whitespace _ _ => wsChars.map some
  | .untilAny any _ _ _ => (allKeys A).filter fun x => !(any.map some).contains x
  | .untilAnyOrWs any _ _ _ => (allKeys A).filter fun x => !(any.map some).contains x && !(wsChars.map some).contains x
  | .number _ _ _ => ends.map (keyOf A)
  | .node _ _ (some i) _ => G i
  | .select rs _ => beyondSelect rs
  | .sequence rs _ => beyondSequence rs
  | .separateBy r b _ trail _ => joinKeys (beyondOf r) (keysIf trail (beyondOf b))
  | .repeat_ r _ _ => beyondOf r
  | .optional r _ => beyondOf r
  | _ => []
/-- One after the other. -/
def beyondSequence : List Rule → List (Option Char)
  | [] => []
  | r :: rs => joinKeys (beyondSequence rs) (keysIf (foundSequence A nums F rs).empty (beyondOf r))
/-- One of them. -/
def beyondSelect : List Rule → List (Option Char)
  | [] => []
  | r :: rs => joinKeys (beyondOf r) (beyondSelect rs)
end

/-- What follows does not begin with what must not follow. -/
def freeSequence : List Rule → Bool
  | [] => true
  | r :: rs => noKey A (beyondOf A nums ends F G r) (foundSequence A nums F rs).first && freeSequence rs

/-- The same for every rule, and nothing is forbidden. -/
def free : Rule → Bool
  | .tag _ neg _ _ _ => !neg
  | .sequence rs _ => freeSequence A nums ends F G rs
  | .separateBy r b _ _ _ => noKey A (beyondOf A nums ends F G r) (foundOf A nums F b).first &&
      noKey A (beyondOf A nums ends F G b) (foundOf A nums F r).first
  | .repeat_ r _ _ => noKey A (beyondOf A nums ends F G r) (foundOf A nums F r).first
  | .not _ _ => false
  | _ => true

end

section
variable (T : Nat → Bool)

mutual
/-- The rule generates some text, if the rules with these numbers do. -/
def someText : Rule → Bool
  | .whitespace _ _ => true
  | .tag _ neg _ _ _ => !neg
  | .untilAny _ _ _ _ => true
  | .untilAnyOrWs _ _ _ _ => true
  | .text _ _ _ => true
  | .number _ _ _ => true
  | .node _ _ (some i) _ => T i
  | .select rs _ => someTextOf rs
  | .sequence rs _ => someTextAll rs
  | .separateBy r _ opt _ _ => opt || someText r
  | .repeat_ r opt _ => opt || someText r
  | .optional _ _ => true
  | _ => false
/-- All of them. -/
def someTextAll : List Rule → Bool
  | [] => true
  | r :: rs => someText r && someTextAll rs
/-- One of them. -/
def someTextOf : List Rule → Bool
  | [] => false
  | r :: rs => someText r || someTextOf rs
end

end

/-- Whether the rules with these numbers generate some text. -/
def textAt (bs : List Bool) (i : Nat) : Bool := bs[i]?.getD false

section
variable (nums : Bool → List Char) (ends : List Char) (refs : List Rule)

/-- What must not follow the rules, after `k` steps. -/
def findBeyond (ms : List Found) : Nat → List (List (Option Char))
  | 0 => refs.map fun _ => []
  | k + 1 => refs.map (beyondOf (alphabet nums refs) nums ends (foundAt ms) (furtherAt (findBeyond ms k)))

/-- Which rules generate some text, after `k` steps. -/
def findTexts : Nat → List Bool
  | 0 => refs.map fun _ => false
  | k + 1 => refs.map (someText (textAt (findTexts k)))

/-- Whatever has been read can be continued, and every rule generates some text. -/
def confirmsContinues (ms : List Found) (gs : List (List (Option Char))) (k : Nat) : Bool :=
  let A := alphabet nums refs
  let F := foundAt ms
  gs.length == refs.length && (gs.zip refs).all (fun x => hasKeys A x.1 (beyondOf A nums ends F (furtherAt gs) x.2)) &&
    everyPartOf (free A nums ends F (furtherAt gs)) refs && everyPartOf (someText (textAt (findTexts refs k))) refs

end

/-- Numbers end before whatever is not in the list, and there are some. -/
def NumbersStop (L : Lexer) (ends : List Char) : Prop :=
  ∀ us, NumbersEnd L (fun c => c ∉ ends) us ∧ ∃ s n v, L.num us s = some n ∧ L.parseNum us s n = .ok v

end Verif.Spec
