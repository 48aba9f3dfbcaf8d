import Verif.Spec.Run
/-
Rules that occur in rules.
-/
namespace Verif.Spec

/-- `Child c r`: `c` is a direct part of `r`. -/
inductive Child : Rule → Rule → Prop
  | select {c args id} (h : c ∈ args) : Child c (.select args id)
  | fast {c tb args tail id} (h : c ∈ args) : Child c (.fastSelect tb args tail id)
  | sequence {c args id} (h : c ∈ args) : Child c (.sequence args id)
  | item {c b opt trail id} : Child c (.separateBy c b opt trail id)
  | sep {r c opt trail id} : Child c (.separateBy r c opt trail id)
  | repeat_ {c opt id} : Child c (.repeat_ c opt id)
  | lines {c ind id} : Child c (.lines c ind id)
  | optional {c id} : Child c (.optional c id)
  | not {c id} : Child c (.not c id)

/-- `Occurs x r`: `x` is `r` or a part of it. -/
inductive Occurs : Rule → Rule → Prop
  | refl {r} : Occurs r r
  | step {x c r} (h : Occurs x c) (h' : Child c r) : Occurs x r

/-- The rules that a goal is made of. -/
def Goal.rules : Goal → List Rule
  | .rule r => [r]
  | .sel rs => rs
  | .seq rs => rs
  | .rep r => [r]
  | .sepTail r b _ => [r, b]
  | .lines r _ _ _ _ => [r]
  | .line r _ _ => [r]

end Verif.Spec
