import Verif.Spec.Generates
/-
Syntaxes in which whatever has been read can be continued.
-/
namespace Verif.Spec

/-- Numbers that end before one of the characters of `K`, or at the end of the text, are read the same before any other
of them. -/
def NumbersEnd (L : Lexer) (K : Char → Prop) (us : Bool) : Prop :=
  ∀ s n, L.num us s = some n → ∀ t : Str, (t = [] ∨ ∃ c t', t = c :: t' ∧ K c) →
    L.num us (s.take n ++ t) = some n ∧ L.parseNum us (s.take n ++ t) n = L.parseNum us s n

section
variable (L : Lexer) (K : Char → Prop) (M : Nat → Mark) (A : Nat → Char → Prop)

mutual
/-- Characters that must not follow what a rule has read, because it would have read something else. -/
def afterOf : Rule → Char → Prop
  | .whitespace _ _ => fun c => isWs c = true
  | .untilAny any _ _ _ => fun c => c ∉ any
  | .untilAnyOrWs any _ _ _ => fun c => c ∉ any ∧ isWs c = false
  | .number _ _ _ => fun c => ¬ K c
  | .node _ _ (some i) _ => A i
  | .select rs _ => afterSelect rs
  | .sequence rs _ => afterSequence rs
  | .separateBy r b _ trail _ => fun c => afterOf r c ∨ (trail ∧ afterOf b c)
  | .repeat_ r _ _ => afterOf r
  | .optional r _ => afterOf r
  | _ => fun _ => False
/-- One after the other. -/
def afterSequence : List Rule → Char → Prop
  | [] => fun _ => False
  | r :: rs => fun c => afterSequence rs c ∨ ((markSequence L M rs).empty ∧ afterOf r c)
/-- One of them. -/
def afterSelect : List Rule → Char → Prop
  | [] => fun _ => False
  | r :: rs => fun c => afterOf r c ∨ afterSelect rs c
end

/-- What follows does not begin with what must not follow. -/
def SetApartSequence : List Rule → Prop
  | [] => True
  | r :: rs => NoShared (afterOf L K M A r) (markSequence L M rs).first ∧ SetApartSequence rs

/-- What follows does not begin with what must not follow, and nothing is forbidden. -/
def SetApart : Rule → Prop
  | .tag _ neg _ _ _ => neg = false
  | .number _ us _ => NumbersEnd L K us
  | .sequence rs _ => SetApartSequence L K M A rs
  | .separateBy r b _ _ _ => NoShared (afterOf L K M A r) (markOf L M b).first ∧
      NoShared (afterOf L K M A b) (markOf L M r).first
  | .repeat_ r _ _ => NoShared (afterOf L K M A r) (markOf L M r).first
  | .not _ _ => False
  | _ => True

/-- Whatever has been read can be continued. -/
structure Continues (refs : List Rule) : Prop where
  apart : ∀ x, Part refs x → SetApart L K M A x
  after : ∀ i q, refs[i]? = some q → ∀ c, afterOf L K M A q c → A i c

end

/-- What is tried generates the text. -/
def Yields (E : Env) : Goal → Str → Prop
  | .sel rs, x => ∃ r ∈ rs, ∃ ts, Generates E (.rule r) ⟨x, 0⟩ x.length ts
  | g, x => ∃ ts, Generates E g ⟨x, 0⟩ x.length ts

/-- Every rule generates some text. -/
def Productive (L : Lexer) (refs : List Rule) (ind : Indent) : Prop :=
  ∀ x, Part refs x → ∃ y, Yields (envOf L refs ind) (.rule x) y

/-- An error in a quoted string. -/
def InString : ParseError → Prop
  | .parseStringError _ _ => True
  | _ => False

end Verif.Spec
