import Verif.Spec.Notation
/-
Comments that are opened and never closed.
-/
namespace Verif.Spec

/-- A comment is opened here, and goes on to the end of the text. -/
def Unclosed (s : Str) : Prop := ∃ t, s = '/' :: '*' :: t ∧ CommentBody t []

open Classical in
/-- How many places there are where a comment is opened that goes on to the end of the text. -/
noncomputable def unclosed : Str → Nat
  | [] => 0
  | c :: t => (if Unclosed (c :: t) then 1 else 0) + unclosed t

end Verif.Spec
