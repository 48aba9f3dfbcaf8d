import Verif.Spec.Predictive
import Verif.Spec.Api
/-
What rules generate, if any alternative may be taken and anything may be repeated any number of times.
-/
namespace Verif.Spec

/-- `g` generates what is read by `n` characters at `p`, with the data `ts`.  Rules that call no others read as much as
they can.  Lines and look-up tables are left out. -/
inductive Generates (E : Env) : Goal → Pos → Nat → List Tok → Prop
  | token {r p i n ts j tr} (hr : CallsNone r) (h : Run E (.rule r) p i (some (n, ts)) j tr) : Generates E (.rule r) p n ts
  | absent {r id p i j tr} (hr : CallsNone r) (h : Run E (.rule r) p i none j tr) : Generates E (.rule (.not r id)) p 0 []
  | select {r rs id p n ts} (hr : r ∈ rs) (h : Generates E (.rule r) p n ts) : Generates E (.rule (.select rs id)) p n ts
  | sequence {rs id p n ts} (h : Generates E (.seq rs) p n ts) : Generates E (.rule (.sequence rs id)) p n ts
  | seq_nil {p} : Generates E (.seq []) p 0 []
  | seq_cons {r rs p n ts m us} (h : Generates E (.rule r) p n ts) (h' : Generates E (.seq rs) (adv p n) m us) :
      Generates E (.seq (r :: rs)) p (n + m) (ts ++ us)
  | repeat_any {r id p n ts} (h : Generates E (.rep r) p n ts) : Generates E (.rule (.repeat_ r true id)) p n ts
  | repeat_some {r id p n ts m us} (h : Generates E (.rule r) p n ts) (h' : Generates E (.rep r) (adv p n) m us) :
      Generates E (.rule (.repeat_ r false id)) p (n + m) (ts ++ us)
  | rep_nil {r p} : Generates E (.rep r) p 0 []
  | rep_cons {r p n ts m us} (h : Generates E (.rule r) p n ts) (h' : Generates E (.rep r) (adv p n) m us) :
      Generates E (.rep r) p (n + m) (ts ++ us)
  | sep_none {r b trail id p} : Generates E (.rule (.separateBy r b true trail id)) p 0 []
  | sep_some {r b opt trail id p n ts m us} (h : Generates E (.rule r) p n ts)
      (h' : Generates E (.sepTail r b trail) (adv p n) m us) :
      Generates E (.rule (.separateBy r b opt trail id)) p (n + m) (ts ++ us)
  | tail_nil {r b trail p} : Generates E (.sepTail r b trail) p 0 []
  | tail_trail {r b p n ts} (h : Generates E (.rule b) p n ts) : Generates E (.sepTail r b true) p n ts
  | tail_cons {r b trail p l rs n ts m us} (h : Generates E (.rule b) p l rs) (h' : Generates E (.rule r) (adv p l) n ts)
      (h'' : Generates E (.sepTail r b trail) (adv p (l + n)) m us) :
      Generates E (.sepTail r b trail) p (l + n + m) (rs ++ ts ++ us)
  | node {name prop ix id p r n ts} (hr : E.refs[ix]? = some r) (h : Generates E (.rule r) p n ts) :
      Generates E (.rule (.node name prop (some ix) id)) p n (wrapped prop p.off n ts)
  | optional_none {r id p} : Generates E (.rule (.optional r id)) p 0 []
  | optional_some {r id p n ts} (h : Generates E (.rule r) p n ts) : Generates E (.rule (.optional r id)) p n ts

/-- The last rule generates the text. -/
def GeneratesText (L : Lexer) (syn : Syntax) (text : Str) (ind : Indent) (ts : List Tok) : Prop :=
  ∃ r, syn.rules.getLast? = some r ∧ Generates (envOf L syn.rules ind) (.rule r) ⟨text, 0⟩ text.length ts

section
variable (L : Lexer) (M : Nat → Mark) (N : Nat → Char → Prop)

mutual
/-- Characters that may follow what a rule generates, at which it could have read more. -/
def moreOf : Rule → Char → Prop
  | .node _ _ (some i) _ => N i
  | .select rs _ => moreSelect rs
  | .sequence rs _ => moreSequence rs
  | .separateBy r b opt trail _ => fun c => moreOf r c ∨ (markOf L M b).first c ∨ (trail ∧ moreOf b c) ∨
      ((opt ∨ trail) ∧ (markOf L M r).first c)
  | .repeat_ r _ _ => fun c => moreOf r c ∨ (markOf L M r).first c
  | .optional r _ => fun c => moreOf r c ∨ (markOf L M r).first c
  | _ => fun _ => False
/-- One after the other. -/
def moreSequence : List Rule → Char → Prop
  | [] => fun _ => False
  | r :: rs => fun c => moreSequence rs c ∨ ((markSequence L M rs).empty ∧ moreOf r c)
/-- One of them. -/
def moreSelect : List Rule → Char → Prop
  | [] => fun _ => False
  | r :: rs => fun c => moreOf r c ∨ moreSelect rs c ∨ ((markSelect L M rs).empty ∧ (markOf L M r).first c)
end

/-- Only the last alternative may match without reading. -/
def OneWaySelect : List Rule → Prop
  | [] => True
  | r :: rs => (rs ≠ [] → (markOf L M r).empty = false) ∧ OneWaySelect rs

/-- Where a part could have read more, the next does not begin. -/
def OneWaySequence : List Rule → Prop
  | [] => True
  | r :: rs => NoShared (moreOf L M N r) (markSequence L M rs).first ∧ OneWaySequence rs

/-- The next character decides whether to go on. -/
def OneWay : Rule → Prop
  | .select rs _ => OneWaySelect L M rs
  | .sequence rs _ => OneWaySequence L M N rs
  | .separateBy r b _ _ _ => (markOf L M r).empty = false ∧ (markOf L M b).empty = false ∧
      NoShared (moreOf L M N r) (markOf L M b).first ∧ NoShared (moreOf L M N b) (markOf L M r).first
  | .repeat_ r _ _ => NoShared (moreOf L M N r) (markOf L M r).first
  | .optional r _ => (markOf L M r).empty = false
  | .lines _ _ _ => False
  | _ => True

/-- The next character decides everything. -/
structure LL1 (refs : List Rule) : Prop extends Predictive L M refs where
  oneWay : ∀ x, Part refs x → OneWay L M N x
  more : ∀ i q, refs[i]? = some q → ∀ c, moreOf L M N q c → N i c

end

/-- There are neither lines nor look-up tables, and what must not be there calls no other rules. -/
def Plainly : Rule → Prop
  | .fastSelect _ _ _ _ => False
  | .lines _ _ _ => False
  | .not r _ => CallsNone r
  | _ => True

mutual
/-- The rules are the same, but for the order of the alternatives. -/
inductive Reordered : Rule → Rule → Prop
  | same {r} (h : CallsNone r) : Reordered r r
  | node {name prop ix id} : Reordered (.node name prop ix id) (.node name prop ix id)
  | select {rs qs rs' id} (h : ReorderedL rs qs) (h' : qs.Perm rs') : Reordered (.select rs id) (.select rs' id)
  | sequence {rs rs' id} (h : ReorderedL rs rs') : Reordered (.sequence rs id) (.sequence rs' id)
  | separateBy {r r' b b' opt trail id} (hr : Reordered r r') (hb : Reordered b b') :
      Reordered (.separateBy r b opt trail id) (.separateBy r' b' opt trail id)
  | repeat_ {r r' opt id} (hr : Reordered r r') : Reordered (.repeat_ r opt id) (.repeat_ r' opt id)
  | optional {r r' id} (hr : Reordered r r') : Reordered (.optional r id) (.optional r' id)
  | not {r id} (h : CallsNone r) : Reordered (.not r id) (.not r id)
/-- The same for the rules of a list, one by one. -/
inductive ReorderedL : List Rule → List Rule → Prop
  | nil : ReorderedL [] []
  | cons {r r' rs rs'} (h : Reordered r r') (h' : ReorderedL rs rs') : ReorderedL (r :: rs) (r' :: rs')
end

end Verif.Spec
