import Verif.Spec.Occurs
namespace Verif
open Spec

/-- The last clause of `Occurs` on the other side. -/
theorem Occurs.trans {x y z : Rule} (h : Occurs x y) (h' : Occurs y z) : Occurs x z := by
  induction h' with
  | refl => exact h
  | step _ hc ih => exact .step ih hc

/-- `P` holds of the parts of a rule when it holds of the rule, and of the references. -/
structure Closed (refs : List Rule) (P : Rule → Prop) : Prop where
  refs : ∀ q ∈ refs, P q
  child : ∀ {c r}, Child c r → P r → P c

theorem closed_occurs {refs : List Rule} {Q : Rule → Prop} (h : ∀ q ∈ refs, ∀ x, Occurs x q → Q x) :
    Closed refs fun r => ∀ x, Occurs x r → Q x :=
  ⟨h, fun hc hr x hx => hr x (.step hx hc)⟩



mutual
/-- Check every rule that occurs in a rule. -/
def Rule.all (p : Rule → Bool) : Rule → Bool
  | .whitespace a b => p (.whitespace a b)
  | .tag a b c d e => p (.tag a b c d e)
  | .untilAny a b c d => p (.untilAny a b c d)
  | .untilAnyOrWs a b c d => p (.untilAnyOrWs a b c d)
  | .text a b c => p (.text a b c)
  | .number a b c => p (.number a b c)
  | .select args id => p (.select args id) && Rule.allL p args
  | .fastSelect t args tl id => p (.fastSelect t args tl id) && Rule.allL p args
  | .sequence args id => p (.sequence args id) && Rule.allL p args
  | .separateBy r b o t id => p (.separateBy r b o t id) && Rule.all p r && Rule.all p b
  | .repeat_ r o id => p (.repeat_ r o id) && Rule.all p r
  | .lines r i id => p (.lines r i id) && Rule.all p r
  | .node a b c d => p (.node a b c d)
  | .optional r id => p (.optional r id) && Rule.all p r
  | .not r id => p (.not r id) && Rule.all p r
def Rule.allL (p : Rule → Bool) : List Rule → Bool
  | [] => true
  | r :: rs => Rule.all p r && Rule.allL p rs
end

theorem Rule.allL_mem {p : Rule → Bool} : ∀ {rs : List Rule}, Rule.allL p rs = true →
    ∀ r ∈ rs, Rule.all p r = true
  | [], _, r, hr => by simp at hr
  | a :: as, h, r, hr => by
    simp only [Rule.allL, Bool.and_eq_true] at h
    rcases List.mem_cons.1 hr with rfl | hr
    · exact h.1
    · exact Rule.allL_mem h.2 r hr

theorem Rule.all_self {p : Rule → Bool} {r : Rule} (h : Rule.all p r = true) : p r = true := by
  cases r <;> simp only [Rule.all, Bool.and_eq_true] at h <;> grind

theorem Rule.all_child {p : Rule → Bool} {c r : Rule} (hc : Child c r) (h : Rule.all p r = true) :
    Rule.all p c = true := by
  cases hc <;> simp only [Rule.all, Bool.and_eq_true] at h <;> grind [Rule.allL_mem]

theorem Rule.all_occurs {p : Rule → Bool} {x r : Rule} (hx : Occurs x r) (h : Rule.all p r = true) :
    p x = true := by
  induction hx with
  | refl => exact Rule.all_self h
  | step _ hc ih => exact ih (Rule.all_child hc h)

end Verif
