import Verif.Spec.Run
import Verif.Spec.Safe
/-
Replacing rules by rules that do the same, but for the failures they meet.
-/
namespace Verif.Spec

/-- Trying `g` at `p` has this outcome; the failures on the way do not count. -/
def Does (E : Env) (g : Goal) (p : Pos) (i : Nat) (o : Outcome) (j : Nat) : Prop := ∃ tr, Run E g p i o j tr

/-- What the first rule does, the second does. -/
def Implies (E : Env) (r r' : Rule) : Prop := ∀ p i o j, Does E (.rule r) p i o j → Does E (.rule r') p i o j

/-- The two rules read the same everywhere, give the same data and leave the same indentation; the
failures they meet on the way may differ. -/
def SameReading (E : Env) (r r' : Rule) : Prop := ∀ p i o j, Does E (.rule r) p i o j ↔ Does E (.rule r') p i o j

/-- The rule reads no lines with indentation. -/
def Flat (r : Rule) : Prop := ∀ x id, ¬ Occurs (.lines x true id) r

mutual
/-- `Change Q r r'`: `r'` is `r` with some parts replaced, from the inside out, each by a rule that `Q`
relates it to. -/
inductive Change (Q : Rule → Rule → Prop) : Rule → Rule → Prop
  | keep {r} : Change Q r r
  | law {r r₁ r'} (h : Change Q r r₁) (hq : Q r₁ r') : Change Q r r'
  | select {rs rs' id} (h : ChangeL Q rs rs') : Change Q (.select rs id) (.select rs' id)
  | fastSelect {tb rs rs' tail id} (h : ChangeL Q rs rs') :
      Change Q (.fastSelect tb rs tail id) (.fastSelect tb rs' tail id)
  | sequence {rs rs' id} (h : ChangeL Q rs rs') : Change Q (.sequence rs id) (.sequence rs' id)
  | separateBy {r r' b b' opt trail id} (h : Change Q r r') (h' : Change Q b b') :
      Change Q (.separateBy r b opt trail id) (.separateBy r' b' opt trail id)
  | repeat_ {r r' opt id} (h : Change Q r r') : Change Q (.repeat_ r opt id) (.repeat_ r' opt id)
  | lines {r r' ind id} (h : Change Q r r') : Change Q (.lines r ind id) (.lines r' ind id)
  | optional {r r' id} (h : Change Q r r') : Change Q (.optional r id) (.optional r' id)
  | not {r r' id} (h : Change Q r r') : Change Q (.not r id) (.not r' id)
/-- The same for the rules of a list, one by one. -/
inductive ChangeL (Q : Rule → Rule → Prop) : List Rule → List Rule → Prop
  | nil : ChangeL Q [] []
  | cons {r r' rs rs'} (h : Change Q r r') (h' : ChangeL Q rs rs') :
      ChangeL Q (r :: rs) (r' :: rs')
end

end Verif.Spec
