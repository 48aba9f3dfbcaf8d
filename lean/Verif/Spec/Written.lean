import Verif.Spec.Desc
/-
Descriptions that can be written in the meta language.
-/
namespace Verif.Spec

mutual
/-- What can be written.  An option with two signs, as `?` and `!`, is always given; one with a
single sign, as the dot in `.s?.(`, can only be switched on; a tag without name has no `!` for its
value; there is no empty sequence or select. -/
def Desc.Written : Desc → Prop
  | .whitespace _ => True
  | .untilAnyOrWs _ o _ => o ≠ none
  | .untilAny _ o _ => o ≠ none
  | .tag neg _ inv p => neg ≠ some false ∧ inv ≠ some false ∧ (p = none → inv = none)
  | .text e _ => e ≠ none
  | .number u _ => u ≠ some false
  | .reference _ _ => True
  | .sequence args => args ≠ [] ∧ Desc.WrittenL args
  | .select args => args ≠ [] ∧ Desc.WrittenL args
  | .optional d => d.Written
  | .not d => d.Written
  | .separatedBy o t b d => o ≠ none ∧ t ≠ some false ∧ b.Written ∧ d.Written
  | .lines i d => i ≠ some false ∧ d.Written
  | .repeat_ _ d => d.Written
def Desc.WrittenL : List Desc → Prop
  | [] => True
  | d :: ds => d.Written ∧ Desc.WrittenL ds
end

/-- All nodes can be written. -/
def Doc.Written (doc : Doc) : Prop := ∀ n ∈ doc.nodes, n.2.2.Written

end Verif.Spec
