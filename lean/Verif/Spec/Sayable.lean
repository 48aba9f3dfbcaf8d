import Verif.Spec.Print
/-
Which rules can be said in the notation of the meta language.
-/
namespace Verif.Spec

mutual
/-- The notation can say the rule, up to ids.  References have names of the notation; there are no
tables; `not` is not around a token that is wanted; a separated list allows a separator at the end. -/
def Sayable : Rule → Prop
  | .node name _ _ _ => GoodName name
  | .sequence rs _ => SayableAll rs
  | .select rs _ => SayableAll rs
  | .fastSelect _ _ _ _ => False
  | .optional r _ => Sayable r
  | .not r _ => Sayable r ∧ ∀ t inv p id, r ≠ .tag t false inv p id
  | .separateBy r b _ t _ => Sayable r ∧ Sayable b ∧ t = true
  | .lines r _ _ => Sayable r
  | .repeat_ r _ _ => Sayable r
  | _ => True
def SayableAll : List Rule → Prop
  | [] => True
  | r :: rs => Sayable r ∧ SayableAll rs
end

mutual
/-- How many parts a rule has when lists that forbid a separator at the end are said with repetition. -/
def partsNeeded : Rule → Nat
  | .sequence rs _ => partsNeededAll rs + 1
  | .select rs _ => partsNeededAll rs + 1
  | .fastSelect _ rs _ _ => partsNeededAll rs + 1
  | .optional r _ => partsNeeded r + 1
  | .not r _ => partsNeeded r + 1
  | .separateBy r b _ true _ => partsNeeded r + partsNeeded b + 1
  | .separateBy r b false false _ => 2 * partsNeeded r + 2 * partsNeeded b + 4
  | .separateBy r b true false _ => 3 * partsNeeded r + 2 * partsNeeded b + 6
  | .lines r _ _ => partsNeeded r + 1
  | .repeat_ r _ _ => partsNeeded r + 1
  | _ => 1
def partsNeededAll : List Rule → Nat
  | [] => 0
  | r :: rs => partsNeeded r + partsNeededAll rs
end

/-- The text says these rules under these names: it stands for a document, the rules are what is read
from the document, and no id is too large. -/
def Says (L : Lexer) (text : Str) (rs : List (Str × Rule)) : Prop :=
  ∃ doc : Doc, doc.Text L text ∧ ¬ doc.Overflows ∧ (Doc.read doc.strings doc.nodes).1 = some rs

end Verif.Spec
