import Verif.Spec.Generates
/-
How marks are found: sets of characters are lists, where `none` stands for all characters that do not occur in the rules.
-/
namespace Verif.Spec

/-- The element of a list that stands for a character. -/
def keyOf (A : List Char) (c : Char) : Option Char := if c ∈ A then some c else none

/-- The elements for all characters. -/
def allKeys (A : List Char) : List (Option Char) := none :: A.map some

/-- In one of the lists. -/
def joinKeys (a b : List (Option Char)) : List (Option Char) := a ++ b.filter fun x => !a.contains x

/-- In the list, if so. -/
def keysIf (p : Bool) (a : List (Option Char)) : List (Option Char) := if p then a else []

/-- No character is in both. -/
def noKey (A : List Char) (a b : List (Option Char)) : Bool := a.all fun x => !b.contains x || !(allKeys A).contains x

/-- All characters of the second are in the first. -/
def hasKeys (A : List Char) (a b : List (Option Char)) : Bool := b.all fun x => a.contains x || !(allKeys A).contains x

/-- All characters that are whitespace. -/
def wsChars : List Char :=
  ([9, 10, 11, 12, 13, 32, 0x85, 0xA0, 0x1680, 0x2000, 0x2001, 0x2002, 0x2003, 0x2004, 0x2005, 0x2006, 0x2007, 0x2008, 0x2009, 0x200A,
    0x2028, 0x2029, 0x202F, 0x205F, 0x3000] : List Nat).map Char.ofNat

/-- A mark with lists. -/
structure Found where
  first : List (Option Char)
  again : List (Option Char)
  empty : Bool
  sure : Bool
  safe : Bool
  idle : Nat
deriving DecidableEq, Repr

namespace Found

/-- The mark. -/
def mark (A : List Char) (f : Found) : Mark :=
  ⟨fun c => keyOf A c ∈ f.first, fun c => keyOf A c ∈ f.again, f.empty, f.sure, f.safe, f.idle⟩

/-- Nothing is known yet. -/
def start : Found := ⟨[], [], false, true, true, 0⟩

def leaf (first : List (Option Char)) (empty safe : Bool) : Found := ⟨first, [], empty, true, safe, 1⟩
def nothing : Found := ⟨[], [], true, true, true, 0⟩
def fail : Found := ⟨[], [], false, true, false, 0⟩
def called (a : Found) : Found := { a with idle := 1 + a.idle }

def then_ (a b : Found) : Found where
  first := joinKeys a.first (keysIf a.empty b.first)
  again := joinKeys b.again (keysIf b.empty a.again)
  empty := a.empty && b.empty
  sure := a.sure && b.safe
  safe := a.safe && b.safe
  idle := a.idle + if a.empty then b.idle else 0

def else_ (a b : Found) : Found where
  first := joinKeys a.first b.first
  again := joinKeys a.again (joinKeys b.again (keysIf (b.empty && !a.sure) a.first))
  empty := a.empty || b.empty
  sure := a.sure && b.sure
  safe := a.safe || b.safe
  idle := a.idle + b.idle

def left (a : Found) : List (Option Char) := joinKeys a.again (keysIf (!a.sure) a.first)

def loop (a : Found) (opt : Bool) : Found := ⟨a.first, a.left, opt, opt || a.sure, opt, a.idle⟩

def lines (a : Found) : Found :=
  ⟨joinKeys (wsChars.map some) a.first, a.left, true, false, false, a.idle⟩

def turns (a b : Found) (opt trail : Bool) : Found where
  first := joinKeys a.first (keysIf a.empty b.first)
  again := joinKeys a.left b.left
  empty := opt || a.empty
  sure := trail && (opt || a.sure)
  safe := opt && trail
  idle := a.idle + if a.empty then b.idle else 0

end Found

section
variable (A : List Char) (nums : Bool → List Char) (F : Nat → Found)

mutual
/-- The mark of a rule. -/
def foundOf : Rule → Found
  | .whitespace opt _ => .leaf (wsChars.map some) opt opt
  | .tag t neg _ _ _ => .leaf (if neg then [] else t.head?.toList.map some) (neg || t.isEmpty) (!neg && t.isEmpty)
  | .untilAny any opt _ _ => .leaf ((allKeys A).filter fun x => !(any.map some).contains x) opt opt
  | .untilAnyOrWs any opt _ _ =>
      .leaf ((allKeys A).filter fun x => !(any.map some).contains x && !(wsChars.map some).contains x) opt opt
  | .text _ _ _ => .leaf [some '"'] false false
  | .number _ us _ => .leaf ((nums us).map some) false false
  | .node _ _ none _ => .leaf [] false false
  | .node _ _ (some i) _ => (F i).called
  | .select rs _ => (foundSelect rs).called
  | .fastSelect _ _ _ _ => .leaf (allKeys A) true false
  | .sequence rs _ => (foundSequence rs).called
  | .separateBy r b opt trail _ => ((foundOf r).turns (foundOf b) opt trail).called
  | .repeat_ r opt _ => ((foundOf r).loop opt).called
  | .lines r _ _ => (foundOf r).lines.called
  | .optional r _ => ((foundOf r).else_ .nothing).called
  | .not _ _ => (Found.leaf [] true false).called
/-- One after the other. -/
def foundSequence : List Rule → Found
  | [] => .nothing
  | r :: rs => (foundOf r).then_ (foundSequence rs)
/-- The first that does not fail. -/
def foundSelect : List Rule → Found
  | [] => .fail
  | r :: rs => (foundOf r).else_ (foundSelect rs)
end

/-- At most one alternative begins to read. -/
def knownSelect : List Rule → Bool
  | [] => true
  | r :: rs => noKey A (foundOf A nums F r).first (foundSelect A nums F rs).first && knownSelect rs

/-- What was begun in vain is not begun again. -/
def knownSequence : List Rule → Bool
  | [] => true
  | r :: rs => noKey A (foundOf A nums F r).again (foundSequence A nums F rs).first && knownSequence rs

/-- The rule calls no other rule. -/
def callsNone : Rule → Bool
  | .whitespace _ _ => true
  | .tag _ _ _ _ _ => true
  | .untilAny _ _ _ _ => true
  | .untilAnyOrWs _ _ _ _ => true
  | .text _ _ _ => true
  | .number _ _ _ => true
  | _ => false

/-- The next character decides what to do. -/
def known : Rule → Bool
  | .select rs _ => knownSelect A nums F rs
  | .fastSelect _ _ _ _ => false
  | .sequence rs _ => knownSequence A nums F rs
  | .separateBy r b _ _ _ =>
      let a := foundOf A nums F r
      let b := foundOf A nums F b
      !(a.empty && b.empty) && noKey A a.again a.first && noKey A a.again b.first && noKey A b.again a.first && noKey A b.again b.first
  | .repeat_ r _ _ =>
      let a := foundOf A nums F r
      !a.empty && noKey A a.again a.first
  | .lines r ind _ =>
      let a := foundOf A nums F r
      !ind && !a.empty && noKey A a.again a.lines.first
  | .not r _ => callsNone r
  | _ => true

/-- Nothing new in the second. -/
def Found.covers (A : List Char) (a b : Found) : Bool :=
  hasKeys A a.first b.first && hasKeys A a.again b.again && (!b.empty || a.empty) && (!a.sure || b.sure) &&
    (!a.safe || b.safe) && Nat.ble b.idle a.idle

variable (N : Nat → List (Option Char))

mutual
/-- Where a rule could have read more. -/
def furtherOf : Rule → List (Option Char)
  | .node _ _ (some i) _ => N i
  | .select rs _ => furtherSelect rs
  | .sequence rs _ => furtherSequence rs
  | .separateBy r b opt trail _ => joinKeys (furtherOf r) (joinKeys (foundOf A nums F b).first
      (joinKeys (keysIf trail (furtherOf b)) (keysIf (opt || trail) (foundOf A nums F r).first)))
  | .repeat_ r _ _ => joinKeys (furtherOf r) (foundOf A nums F r).first
  | .optional r _ => joinKeys (furtherOf r) (foundOf A nums F r).first
  | _ => []
/-- One after the other. -/
def furtherSequence : List Rule → List (Option Char)
  | [] => []
  | r :: rs => joinKeys (furtherSequence rs) (keysIf (foundSequence A nums F rs).empty (furtherOf r))
/-- One of them. -/
def furtherSelect : List Rule → List (Option Char)
  | [] => []
  | r :: rs => joinKeys (furtherOf r) (joinKeys (furtherSelect rs) (keysIf (foundSelect A nums F rs).empty (foundOf A nums F r).first))
end

/-- Only the last alternative may match without reading. -/
def clearSelect : List Rule → Bool
  | [] => true
  | r :: rs => (rs.isEmpty || !(foundOf A nums F r).empty) && clearSelect rs

/-- Where a part could have read more, the next does not begin. -/
def clearSequence : List Rule → Bool
  | [] => true
  | r :: rs => noKey A (furtherOf A nums F N r) (foundSequence A nums F rs).first && clearSequence rs

/-- The next character decides whether to go on. -/
def clear : Rule → Bool
  | .select rs _ => clearSelect A nums F rs
  | .sequence rs _ => clearSequence A nums F N rs
  | .separateBy r b _ _ _ => !(foundOf A nums F r).empty && !(foundOf A nums F b).empty &&
      noKey A (furtherOf A nums F N r) (foundOf A nums F b).first && noKey A (furtherOf A nums F N b) (foundOf A nums F r).first
  | .repeat_ r _ _ => noKey A (furtherOf A nums F N r) (foundOf A nums F r).first
  | .optional r _ => !(foundOf A nums F r).empty
  | .lines _ _ _ => false
  | _ => true

end

mutual
/-- All parts of a rule. -/
def everyPart (P : Rule → Bool) : Rule → Bool
  | .select rs id => P (.select rs id) && everyPartOf P rs
  | .fastSelect t rs tail id => P (.fastSelect t rs tail id) && everyPartOf P rs
  | .sequence rs id => P (.sequence rs id) && everyPartOf P rs
  | .separateBy r b opt trail id => P (.separateBy r b opt trail id) && everyPart P r && everyPart P b
  | .repeat_ r opt id => P (.repeat_ r opt id) && everyPart P r
  | .lines r ind id => P (.lines r ind id) && everyPart P r
  | .optional r id => P (.optional r id) && everyPart P r
  | .not r id => P (.not r id) && everyPart P r
  | r => P r
/-- All parts of the rules. -/
def everyPartOf (P : Rule → Bool) : List Rule → Bool
  | [] => true
  | r :: rs => everyPart P r && everyPartOf P rs
end

/-- Characters that a rule itself asks for. -/
def asksFor : Rule → List Char
  | .tag t _ _ _ _ => t.head?.toList
  | .untilAny any _ _ _ => any
  | .untilAnyOrWs any _ _ _ => any
  | _ => []

mutual
/-- Characters that are asked for. -/
def charsOf : Rule → List Char
  | .select rs _ => charsOfAll rs
  | .fastSelect _ rs _ _ => charsOfAll rs
  | .sequence rs _ => charsOfAll rs
  | .separateBy r b _ _ _ => charsOf r ++ charsOf b
  | .repeat_ r _ _ => charsOf r
  | .lines r _ _ => charsOf r
  | .optional r _ => charsOf r
  | .not r _ => charsOf r
  | r => asksFor r
/-- Of all. -/
def charsOfAll : List Rule → List Char
  | [] => []
  | r :: rs => charsOf r ++ charsOfAll rs
end

/-- All characters that are told from others. -/
def alphabet (nums : Bool → List Char) (refs : List Rule) : List Char :=
  (wsChars ++ '"' :: nums false ++ nums true ++ charsOfAll refs).eraseDups

/-- What is known of the rules with these numbers. -/
def foundAt (ms : List Found) (i : Nat) : Found := ms[i]?.getD .start

/-- Where they could have read more. -/
def furtherAt (ns : List (List (Option Char))) (i : Nat) : List (Option Char) := ns[i]?.getD []

section
variable (nums : Bool → List Char) (refs : List Rule)

/-- After `k` steps. -/
def findMarks : Nat → List Found
  | 0 => refs.map fun _ => .start
  | k + 1 => refs.map (foundOf (alphabet nums refs) nums (foundAt (findMarks k)))

/-- After `k` steps, with these marks. -/
def findFurther (ms : List Found) : Nat → List (List (Option Char))
  | 0 => refs.map fun _ => []
  | k + 1 => refs.map (furtherOf (alphabet nums refs) nums (foundAt ms) (furtherAt (findFurther ms k)))

/-- The marks are confirmed. -/
def confirms (ms : List Found) : Bool :=
  let A := alphabet nums refs
  let F := foundAt ms
  ms.length == refs.length && (ms.zip refs).all (fun x => x.1.covers A (foundOf A nums F x.2)) && everyPartOf (known A nums F) refs

/-- The next character decides everything, according to the marks. -/
def confirmsAll (ms : List Found) (ns : List (List (Option Char))) : Bool :=
  let A := alphabet nums refs
  let F := foundAt ms
  confirms nums refs ms && ns.length == refs.length &&
    (ns.zip refs).all (fun x => hasKeys A x.1 (furtherOf A nums F (furtherAt ns) x.2)) &&
    everyPartOf (clear A nums F (furtherAt ns)) refs

end

/-- The characters that numbers may begin with. -/
def NumbersBegin (L : Lexer) (nums : Bool → List Char) : Prop := ∀ us c, (∃ s n, L.num us (c :: s) = some n) ↔ c ∈ nums us

end Verif.Spec
