import Verif.Spec.Run
/-
Replacing rules by equal rules.
-/
namespace Verif.Spec

/-- The two rules do the same everywhere: they read the same, give the same data, leave the same
indentation and meet the same elementary failures in the same order. -/
def Same (E : Env) (r r' : Rule) : Prop :=
  ∀ p i o j tr, Run E (.rule r) p i o j tr ↔ Run E (.rule r') p i o j tr

mutual
/-- `Rewrite Q r r'`: `r'` is `r` with some parts replaced, each by a rule that `Q` relates it to. -/
inductive Rewrite (Q : Rule → Rule → Prop) : Rule → Rule → Prop
  | keep {r} : Rewrite Q r r
  | law {r r'} (h : Q r r') : Rewrite Q r r'
  | select {rs rs' id} (h : RewriteL Q rs rs') : Rewrite Q (.select rs id) (.select rs' id)
  | fastSelect {tb rs rs' tail id} (h : RewriteL Q rs rs') :
      Rewrite Q (.fastSelect tb rs tail id) (.fastSelect tb rs' tail id)
  | sequence {rs rs' id} (h : RewriteL Q rs rs') : Rewrite Q (.sequence rs id) (.sequence rs' id)
  | separateBy {r r' b b' opt trail id} (h : Rewrite Q r r') (h' : Rewrite Q b b') :
      Rewrite Q (.separateBy r b opt trail id) (.separateBy r' b' opt trail id)
  | repeat_ {r r' opt id} (h : Rewrite Q r r') : Rewrite Q (.repeat_ r opt id) (.repeat_ r' opt id)
  | lines {r r' ind id} (h : Rewrite Q r r') : Rewrite Q (.lines r ind id) (.lines r' ind id)
  | optional {r r' id} (h : Rewrite Q r r') : Rewrite Q (.optional r id) (.optional r' id)
  | not {r r' id} (h : Rewrite Q r r') : Rewrite Q (.not r id) (.not r' id)
/-- The same for the rules of a list, one by one. -/
inductive RewriteL (Q : Rule → Rule → Prop) : List Rule → List Rule → Prop
  | nil : RewriteL Q [] []
  | cons {r r' rs rs'} (h : Rewrite Q r r') (h' : RewriteL Q rs rs') :
      RewriteL Q (r :: rs) (r' :: rs')
end

end Verif.Spec
