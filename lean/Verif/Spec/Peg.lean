import Verif.Spec.Api
import Verif.Spec.Occurs
/-
Parsing expression grammars (B. Ford, 2004), and what rules are among them.
-/
namespace Verif.Spec

/-- A parsing expression.  Besides single characters there are tokens, which a lexer reads. -/
inductive Peg where
  | empty
  | char (C : Char → Bool)
  | token (f : Str → Option Nat)
  | seq (a b : Peg)
  | alt (a b : Peg)
  | star (a : Peg)
  | neg (a : Peg)
  | ref (i : Nat)

/-- `e` fails on `s` (`none`), or reads so many characters of it.  `G` are the rules of the grammar. -/
inductive Peg.Matches (G : List Peg) : Peg → Str → Option Nat → Prop
  | empty {s} : Matches G .empty s (some 0)
  | char_ok {C c s} (h : C c = true) : Matches G (.char C) (c :: s) (some 1)
  | char_no {C c s} (h : C c = false) : Matches G (.char C) (c :: s) none
  | char_end {C} : Matches G (.char C) [] none
  | token {f s} : Matches G (.token f) s (f s)
  | seq_no {a b s} (h : Matches G a s none) : Matches G (.seq a b) s none
  | seq {a b s n o} (h : Matches G a s (some n)) (h' : Matches G b (s.drop n) o) :
      Matches G (.seq a b) s (o.map (n + ·))
  | alt_first {a b s n} (h : Matches G a s (some n)) : Matches G (.alt a b) s (some n)
  | alt_next {a b s o} (h : Matches G a s none) (h' : Matches G b s o) : Matches G (.alt a b) s o
  | star_stop {a s} (h : Matches G a s none) : Matches G (.star a) s (some 0)
  | star_more {a s n o} (h : Matches G a s (some n)) (h' : Matches G (.star a) (s.drop n) o) :
      Matches G (.star a) s (o.map (n + ·))
  | neg_ok {a s} (h : Matches G a s none) : Matches G (.neg a) s (some 0)
  | neg_no {a s n} (h : Matches G a s (some n)) : Matches G (.neg a) s none
  | ref {i e s o} (h : G[i]? = some e) (h' : Matches G e s o) : Matches G (.ref i) s o

/-- Nothing is read. -/
def Peg.fail : Peg := .neg .empty

/-- One after the other, each at least once. -/
def Peg.plus (a : Peg) : Peg := .seq a (.star a)

/-- A word. -/
def Peg.word : Str → Peg
  | [] => .empty
  | c :: t => .seq (.char (· == c)) (word t)

/-- What follows an item of a list. -/
def Peg.tail (items : Peg) (b : Peg) (trail : Bool) : Peg :=
  .seq (.star items) (if trail then .alt b .empty else .neg b)

mutual
/-- A rule as a parsing expression. -/
def pegOf (L : Lexer) : Rule → Peg
  | .whitespace opt _ => if opt then .star (.char isWs) else .plus (.char isWs)
  | .tag t not _ _ _ => if not then .neg (.word t) else .word t
  | .untilAny any opt _ _ => if opt then .star (.char (· ∉ any)) else .plus (.char (· ∉ any))
  | .untilAnyOrWs any opt _ _ =>
    if opt then .star (.char fun c => c ∉ any ∧ isWs c = false) else .plus (.char fun c => c ∉ any ∧ isWs c = false)
  | .text empty _ _ => .token fun s =>
    match L.str s with
    | none => none
    | some n => if n = 2 ∧ empty = false then none else (L.parseStr s n).toOption.map fun _ => n
  | .number _ us _ => .token fun s =>
    match L.num us s with
    | none => none
    | some n => (L.parseNum us s n).toOption.map fun _ => n
  | .select args _ => pegSel L args
  | .sequence args _ => pegSeq L args
  | .separateBy r b opt trail _ =>
    let list := .seq (pegOf L r) (.tail (.seq (pegOf L b) (.seq (pegOf L r) .empty)) (pegOf L b) trail)
    if opt then .alt list (.neg (pegOf L r)) else list
  | .repeat_ r opt _ => if opt then .star (pegOf L r) else .plus (pegOf L r)
  | .node _ _ ix _ => match ix with | none => .fail | some i => .ref i
  | .optional r _ => .alt (pegOf L r) .empty
  | .not r _ => .neg (pegOf L r)
  | .lines _ _ _ => .fail
  | .fastSelect _ _ _ _ => .fail
/-- Alternatives. -/
def pegSel (L : Lexer) : List Rule → Peg
  | [] => .fail
  | r :: rs => .alt (pegOf L r) (pegSel L rs)
/-- Rules in sequence. -/
def pegSeq (L : Lexer) : List Rule → Peg
  | [] => .empty
  | r :: rs => .seq (pegOf L r) (pegSeq L rs)
end

/-- There are neither lines nor look-up tables in the rule. -/
def Bare (r : Rule) : Prop := ∀ x, Occurs x r → (∀ q ind id, x ≠ .lines q ind id) ∧ ∀ t args tail id, x ≠ .fastSelect t args tail id

/-! ### The other way round -/

/-- The characters with numbers below `n`. -/
def charsBelow (n : Nat) : List Char := (List.range n).filterMap fun n => if h : n.isValidChar then some (Char.ofNatAux n h) else none

/-- All characters. -/
@[irreducible] def allChars : List Char := charsBelow 0x110000

/-- There are no tokens in the expression. -/
def Peg.Pure : Peg → Prop
  | .empty => True
  | .char _ => True
  | .token _ => False
  | .seq a b => a.Pure ∧ b.Pure
  | .alt a b => a.Pure ∧ b.Pure
  | .star a => a.Pure
  | .neg a => a.Pure
  | .ref _ => True

/-- A parsing expression without tokens as a rule. -/
def ruleOf : Peg → Rule
  | .empty => .sequence [] 0
  | .char C => .select ((allChars.filter C).map fun c => .tag [c] false false none 0) 0
  | .token _ => .sequence [] 0
  | .seq a b => .sequence [ruleOf a, ruleOf b] 0
  | .alt a b => .select [ruleOf a, ruleOf b] 0
  | .star a => .repeat_ (ruleOf a) true 0
  | .neg a => .not (ruleOf a) 0
  | .ref i => .node [] none (some i) 0

end Verif.Spec
