import Verif.Spec.WellFormed
/-
Syntaxes that can be decided by the next character.
-/
namespace Verif.Spec

/-- What is claimed about a rule. -/
structure Mark where
  /-- Characters it may begin to read at. -/
  first : Char → Prop
  /-- Characters that may follow what it has read, at which it has begun to read something in vain. -/
  again : Char → Prop
  /-- It may match without reading. -/
  empty : Bool
  /-- If it fails, it has not begun to read. -/
  sure : Bool
  /-- It does not fail. -/
  safe : Bool
  /-- How many calls it may take without reading. -/
  idle : Nat

/-- No character is both. -/
def NoShared (a b : Char → Prop) : Prop := ∀ c, ¬ (a c ∧ b c)

namespace Mark

/-- A rule that calls no others. -/
def leaf (first : Char → Prop) (empty safe : Bool) : Mark := ⟨first, fun _ => False, empty, true, safe, 1⟩

/-- Nothing is done. -/
def nothing : Mark := ⟨fun _ => False, fun _ => False, true, true, true, 0⟩

/-- There is nothing to be tried. -/
def fail : Mark := ⟨fun _ => False, fun _ => False, false, true, false, 0⟩

/-- With the call itself. -/
def called (a : Mark) : Mark := { a with idle := 1 + a.idle }

/-- `a`, then `b`. -/
def then_ (a b : Mark) : Mark where
  first c := a.first c ∨ (a.empty ∧ b.first c)
  again c := b.again c ∨ (b.empty ∧ a.again c)
  empty := a.empty && b.empty
  sure := a.sure && b.safe
  safe := a.safe && b.safe
  idle := a.idle + if a.empty then b.idle else 0

/-- `a`, and if it fails, `b`. -/
def else_ (a b : Mark) : Mark where
  first c := a.first c ∨ b.first c
  again c := a.again c ∨ b.again c ∨ (b.empty ∧ a.sure = false ∧ a.first c)
  empty := a.empty || b.empty
  sure := a.sure && b.sure
  safe := a.safe || b.safe
  idle := a.idle + b.idle

/-- What may be left when `a` is given up. -/
def left (a : Mark) (c : Char) : Prop := a.again c ∨ (a.sure = false ∧ a.first c)

/-- `a` as often as possible. -/
def loop (a : Mark) (opt : Bool) : Mark := ⟨a.first, a.left, opt, opt || a.sure, opt, a.idle⟩

/-- `a` on every line. -/
def lines (a : Mark) : Mark := ⟨fun c => isWs c ∨ a.first c, a.left, true, false, false, a.idle⟩

/-- `a` and `b` in turns. -/
def turns (a b : Mark) (opt trail : Bool) : Mark where
  first c := a.first c ∨ (a.empty ∧ b.first c)
  again c := a.left c ∨ b.left c
  empty := opt || a.empty
  sure := trail && (opt || a.sure)
  safe := opt && trail
  idle := a.idle + if a.empty then b.idle else 0

end Mark

section
variable (L : Lexer) (M : Nat → Mark)

mutual
/-- What is claimed about a rule, if `M` is claimed about those it refers to. -/
def markOf : Rule → Mark
  | .whitespace opt _ => .leaf (fun c => isWs c) opt opt
  | .tag t neg _ _ _ => .leaf (fun c => neg = false ∧ t.head? = some c) (neg || t.isEmpty) (!neg && t.isEmpty)
  | .untilAny any opt _ _ => .leaf (fun c => c ∉ any) opt opt
  | .untilAnyOrWs any opt _ _ => .leaf (fun c => c ∉ any ∧ isWs c = false) opt opt
  | .text _ _ _ => .leaf (fun c => c = '"') false false
  | .number _ us _ => .leaf (fun c => ∃ s n, L.num us (c :: s) = some n) false false
  | .node _ _ none _ => .leaf (fun _ => False) false false
  | .node _ _ (some i) _ => (M i).called
  | .select rs _ => (markSelect rs).called
  | .fastSelect _ _ _ _ => .leaf (fun _ => True) true false
  | .sequence rs _ => (markSequence rs).called
  | .separateBy r b opt trail _ => ((markOf r).turns (markOf b) opt trail).called
  | .repeat_ r opt _ => ((markOf r).loop opt).called
  | .lines r _ _ => (markOf r).lines.called
  | .optional r _ => ((markOf r).else_ .nothing).called
  | .not _ _ => (Mark.leaf (fun _ => False) true false).called
/-- One after the other. -/
def markSequence : List Rule → Mark
  | [] => .nothing
  | r :: rs => (markOf r).then_ (markSequence rs)
/-- The first that does not fail. -/
def markSelect : List Rule → Mark
  | [] => .fail
  | r :: rs => (markOf r).else_ (markSelect rs)
end

/-- At most one of the alternatives begins to read. -/
def DecidedSelect : List Rule → Prop
  | [] => True
  | r :: rs => NoShared (markOf L M r).first (markSelect L M rs).first ∧ DecidedSelect rs

/-- What was begun in vain is not begun again. -/
def DecidedSequence : List Rule → Prop
  | [] => True
  | r :: rs => NoShared (markOf L M r).again (markSequence L M rs).first ∧ DecidedSequence rs

/-- The rule calls no other rule. -/
def CallsNone : Rule → Prop
  | .whitespace _ _ => True
  | .tag _ _ _ _ _ => True
  | .untilAny _ _ _ _ => True
  | .untilAnyOrWs _ _ _ _ => True
  | .text _ _ _ => True
  | .number _ _ _ => True
  | _ => False

/-- The next character decides what to do: at most one alternative begins to read, and nothing that was begun in vain
is begun again. -/
def Decided : Rule → Prop
  | .select rs _ => DecidedSelect L M rs
  | .fastSelect _ _ _ _ => False
  | .sequence rs _ => DecidedSequence L M rs
  | .separateBy r b _ _ _ => ((markOf L M r).empty && (markOf L M b).empty) = false ∧
      NoShared (markOf L M r).again (markOf L M r).first ∧ NoShared (markOf L M r).again (markOf L M b).first ∧
      NoShared (markOf L M b).again (markOf L M r).first ∧ NoShared (markOf L M b).again (markOf L M b).first
  | .repeat_ r _ _ => (markOf L M r).empty = false ∧ NoShared (markOf L M r).again (markOf L M r).first
  | .lines r ind _ => ind = false ∧ (markOf L M r).empty = false ∧
      NoShared (markOf L M r).again (markOf L M r).lines.first
  | .not r _ => CallsNone r
  | _ => True

/-- The claims are confirmed. -/
structure Mark.Covers (a b : Mark) : Prop where
  first : ∀ c, b.first c → a.first c
  again : ∀ c, b.again c → a.again c
  empty : b.empty → a.empty
  sure : a.sure → b.sure
  safe : a.safe → b.safe
  idle : b.idle ≤ a.idle

/-- Every rule is decided by the next character. -/
structure Predictive (refs : List Rule) : Prop where
  decided : ∀ x, Part refs x → Decided L M x
  covers : ∀ i q, refs[i]? = some q → (M i).Covers (markOf L M q)

end

end Verif.Spec
