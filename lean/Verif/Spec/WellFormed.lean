import Verif.Spec.Safe
/-
Syntaxes for which parsing always returns.
-/
namespace Verif.Spec

/-- The rule can match without reading anything, somewhere. -/
def CanBeEmpty (E : Env) (r : Rule) : Prop :=
  ∃ p i ts j tr, Run E (.rule r) p i (some (0, ts)) j tr

/-- The rule is refused at the end of every text. -/
def EndRefused (E : Env) (b : Rule) : Prop := ∀ off i, ∃ tr, Run E (.rule b) ⟨[], off⟩ i none i tr

/-- `Calls E c r`: trying `r` may lead to trying `c` before anything has been read. -/
inductive Calls (E : Env) : Rule → Rule → Prop
  | select {c args id} (h : c ∈ args) : Calls E c (.select args id)
  | fast {c tb args tail id} (h : c ∈ args) : Calls E c (.fastSelect tb args tail id)
  | sequence {pre c post id} (h : ∀ x ∈ pre, CanBeEmpty E x) :
      Calls E c (.sequence (pre ++ c :: post) id)
  | item {c b opt trail id} : Calls E c (.separateBy c b opt trail id)
  | sep {r c opt trail id} (h : CanBeEmpty E r) : Calls E c (.separateBy r c opt trail id)
  | repeat_ {c opt id} : Calls E c (.repeat_ c opt id)
  | lines {c ind id} : Calls E c (.lines c ind id)
  | optional {c id} : Calls E c (.optional c id)
  | not {c id} : Calls E c (.not c id)
  | node {name prop ix id c} (h : E.refs[ix]? = some c) : Calls E c (.node name prop (some ix) id)

/-- The loops in the rule itself make progress: what is repeated cannot match without reading. -/
def LoopOk (E : Env) : Rule → Prop
  | .repeat_ r _ _ => ¬ CanBeEmpty E r
  | .separateBy r b _ _ _ => ¬ (CanBeEmpty E r ∧ CanBeEmpty E b)
  | _ => True

/-- The rule is part of the syntax. -/
def Part (refs : List Rule) (x : Rule) : Prop := ∃ q ∈ refs, Occurs x q

/-- No rule of the syntax leads back to itself without reading anything, and every loop makes
progress. -/
structure WellFormed (E : Env) : Prop where
  acyclic : ∀ x, Part E.refs x → ¬ Relation.TransGen (Calls E) x x
  loops : ∀ x, Part E.refs x → LoopOk E x

end Verif.Spec
