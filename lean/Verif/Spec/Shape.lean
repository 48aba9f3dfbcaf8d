import Verif.Spec.Run
/-
Rules that differ in debug ids, properties and the names of nodes only.
-/
namespace Verif.Spec

mutual
/-- The rules are the same, but for debug ids, properties and the names of nodes. -/
inductive SameShape : Rule → Rule → Prop
  | whitespace {opt id id'} : SameShape (.whitespace opt id) (.whitespace opt id')
  | tag {t neg inv prop prop' id id'} : SameShape (.tag t neg inv prop id) (.tag t neg inv prop' id')
  | untilAny {any opt prop prop' id id'} : SameShape (.untilAny any opt prop id) (.untilAny any opt prop' id')
  | untilAnyOrWs {any opt prop prop' id id'} :
      SameShape (.untilAnyOrWs any opt prop id) (.untilAnyOrWs any opt prop' id')
  | text {empty prop prop' id id'} : SameShape (.text empty prop id) (.text empty prop' id')
  | number {prop prop' us id id'} : SameShape (.number prop us id) (.number prop' us id')
  | node {name name' prop prop' ix id id'} : SameShape (.node name prop ix id) (.node name' prop' ix id')
  | select {rs rs' id id'} (hs : SameShapes rs rs') : SameShape (.select rs id) (.select rs' id')
  | fastSelect {tb rs rs' tail id id'} (hs : SameShapes rs rs') :
      SameShape (.fastSelect tb rs tail id) (.fastSelect tb rs' tail id')
  | sequence {rs rs' id id'} (hs : SameShapes rs rs') : SameShape (.sequence rs id) (.sequence rs' id')
  | separateBy {r r' b b' opt trail id id'} (hr : SameShape r r') (hb : SameShape b b') :
      SameShape (.separateBy r b opt trail id) (.separateBy r' b' opt trail id')
  | repeat_ {r r' opt id id'} (hr : SameShape r r') : SameShape (.repeat_ r opt id) (.repeat_ r' opt id')
  | lines {r r' ind id id'} (hr : SameShape r r') : SameShape (.lines r ind id) (.lines r' ind id')
  | optional {r r' id id'} (hr : SameShape r r') : SameShape (.optional r id) (.optional r' id')
  | not {r r' id id'} (hr : SameShape r r') : SameShape (.not r id) (.not r' id')
/-- The same for the rules of a list, one by one. -/
inductive SameShapes : List Rule → List Rule → Prop
  | nil : SameShapes [] []
  | cons {r r' rs rs'} (h : SameShape r r') (h' : SameShapes rs rs') : SameShapes (r :: rs) (r' :: rs')
end

end Verif.Spec
