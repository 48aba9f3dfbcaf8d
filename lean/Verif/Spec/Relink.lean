import Verif.Model.Refs
import Verif.Spec.Safe
import Verif.Spec.Api
import Verif.Spec.Optimize
/-
Rules that differ in where their references point.
-/
namespace Verif.Spec

mutual
/-- `r'` is `r` with other names in its references, and with indices of references that `ρ` relates to
those of `r`. -/
inductive Relinked (ρ : Nat → Nat → Prop) : Rule → Rule → Prop
  | whitespace {opt id} : Relinked ρ (.whitespace opt id) (.whitespace opt id)
  | tag {t neg inv prop id} : Relinked ρ (.tag t neg inv prop id) (.tag t neg inv prop id)
  | untilAny {any opt prop id} : Relinked ρ (.untilAny any opt prop id) (.untilAny any opt prop id)
  | untilAnyOrWs {any opt prop id} : Relinked ρ (.untilAnyOrWs any opt prop id) (.untilAnyOrWs any opt prop id)
  | text {empty prop id} : Relinked ρ (.text empty prop id) (.text empty prop id)
  | number {prop us id} : Relinked ρ (.number prop us id) (.number prop us id)
  | unresolved {name name' prop id} : Relinked ρ (.node name prop none id) (.node name' prop none id)
  | node {name name' prop i j id} (h : ρ i j) :
      Relinked ρ (.node name prop (some i) id) (.node name' prop (some j) id)
  | select {rs rs' id} (hs : RelinkedL ρ rs rs') : Relinked ρ (.select rs id) (.select rs' id)
  | fastSelect {tb rs rs' tail id} (hs : RelinkedL ρ rs rs') :
      Relinked ρ (.fastSelect tb rs tail id) (.fastSelect tb rs' tail id)
  | sequence {rs rs' id} (hs : RelinkedL ρ rs rs') : Relinked ρ (.sequence rs id) (.sequence rs' id)
  | separateBy {r r' b b' opt trail id} (hr : Relinked ρ r r') (hb : Relinked ρ b b') :
      Relinked ρ (.separateBy r b opt trail id) (.separateBy r' b' opt trail id)
  | repeat_ {r r' opt id} (hr : Relinked ρ r r') : Relinked ρ (.repeat_ r opt id) (.repeat_ r' opt id)
  | lines {r r' ind id} (hr : Relinked ρ r r') : Relinked ρ (.lines r ind id) (.lines r' ind id)
  | optional {r r' id} (hr : Relinked ρ r r') : Relinked ρ (.optional r id) (.optional r' id)
  | not {r r' id} (hr : Relinked ρ r r') : Relinked ρ (.not r id) (.not r' id)
/-- The same for the rules of a list, one by one. -/
inductive RelinkedL (ρ : Nat → Nat → Prop) : List Rule → List Rule → Prop
  | nil : RelinkedL ρ [] []
  | cons {r r' rs rs'} (h : Relinked ρ r r') (h' : RelinkedL ρ rs rs') :
      RelinkedL ρ (r :: rs) (r' :: rs')
end

/-- Neither list has a rule there, or the rules there differ only in their references. -/
def LinkedAt (ρ : Nat → Nat → Prop) : Option Rule → Option Rule → Prop
  | none, none => True
  | some r, some r' => Relinked ρ r r'
  | _, _ => False

/-- The two syntaxes start with rules that differ only in their references, and so do the rules these
point to, and so on. -/
structure Linked (ρ : Nat → Nat → Prop) (syn syn' : Syntax) : Prop where
  rules : ∀ i j, ρ i j → LinkedAt ρ syn.rules[i]? syn'.rules[j]?
  start : LinkedAt ρ syn.rules.getLast? syn'.rules.getLast?

/-- The rule that a name stands for: the first of that name. -/
def meant (name : Str) : List (Str × Rule) → Option Rule
  | [] => none
  | x :: rs => if name = x.1 then some x.2 else meant name rs

/-- The rule refers to this name. -/
def Names (name : Str) (r : Rule) : Prop := ∃ prop ix id, Occurs (.node name prop ix id) r

/-- The references of the rule are names only. -/
def ByName (r : Rule) : Prop := ∀ name prop i id, ¬ Occurs (.node name prop (some i) id) r

mutual
/-- The rule with the names of its references changed by `σ`. -/
def called (σ : Str → Str) : Rule → Rule
  | .node name prop ix id => .node (σ name) prop ix id
  | .select rs id => .select (calledL σ rs) id
  | .fastSelect tb rs tail id => .fastSelect tb (calledL σ rs) tail id
  | .sequence rs id => .sequence (calledL σ rs) id
  | .separateBy r b opt trail id => .separateBy (called σ r) (called σ b) opt trail id
  | .repeat_ r opt id => .repeat_ (called σ r) opt id
  | .lines r ind id => .lines (called σ r) ind id
  | .optional r id => .optional (called σ r) id
  | .not r id => .not (called σ r) id
  | r => r
def calledL (σ : Str → Str) : List Rule → List Rule
  | [] => []
  | r :: rs => called σ r :: calledL σ rs
end

/-- Names that a parse with these rules can come across: those in the last rule, and those in the rules
that such names stand for. -/
inductive Met (rs : List (Str × Rule)) : Str → Prop
  | last {x name} (h : rs.getLast? = some x) (hn : Names name x.2) : Met rs name
  | step {name r name'} (h : Met rs name) (hr : meant name rs = some r) (hn : Names name' r) : Met rs name'

/-- Parsing with the two syntaxes does the same in every case: the same data, the same error, the same
left in the vector, a panic or no end in the same cases. -/
def SameParser (L : Lexer) (syn syn' : Syntax) : Prop := ∀ text toks ind,
  (∀ o, Parses L syn text toks ind o ↔ Parses L syn' text toks ind o) ∧
  (ParseDiverges L syn text toks ind ↔ ParseDiverges L syn' text toks ind)

/-- They parse the same, and so they do when both are optimized. -/
def Interchangeable (L : Lexer) (syn syn' : Syntax) : Prop :=
  SameParser L syn syn' ∧ ∀ o o', Optimizes syn o → Optimizes syn' o' → SameParser L o o'

end Verif.Spec
