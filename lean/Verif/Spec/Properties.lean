import Verif.Spec.Run
/-
Changing the properties under which rules record data.
-/
namespace Verif.Spec

mutual
/-- The rules are the same, but for the properties they set, which `P` relates. -/
inductive Relabelled (P : Option Str → Option Str → Prop) : Rule → Rule → Prop
  | whitespace {opt id} : Relabelled P (.whitespace opt id) (.whitespace opt id)
  | tag {t neg inv prop prop' id} (h : P prop prop') : Relabelled P (.tag t neg inv prop id) (.tag t neg inv prop' id)
  | untilAny {any opt prop prop' id} (h : P prop prop') :
      Relabelled P (.untilAny any opt prop id) (.untilAny any opt prop' id)
  | untilAnyOrWs {any opt prop prop' id} (h : P prop prop') :
      Relabelled P (.untilAnyOrWs any opt prop id) (.untilAnyOrWs any opt prop' id)
  | text {empty prop prop' id} (h : P prop prop') : Relabelled P (.text empty prop id) (.text empty prop' id)
  | number {prop prop' us id} (h : P prop prop') : Relabelled P (.number prop us id) (.number prop' us id)
  | node {name prop prop' ix id} (h : P prop prop') : Relabelled P (.node name prop ix id) (.node name prop' ix id)
  | select {rs rs' id} (hs : RelabelledL P rs rs') : Relabelled P (.select rs id) (.select rs' id)
  | fastSelect {tb rs rs' tail id} (hs : RelabelledL P rs rs') :
      Relabelled P (.fastSelect tb rs tail id) (.fastSelect tb rs' tail id)
  | sequence {rs rs' id} (hs : RelabelledL P rs rs') : Relabelled P (.sequence rs id) (.sequence rs' id)
  | separateBy {r r' b b' opt trail id} (hr : Relabelled P r r') (hb : Relabelled P b b') :
      Relabelled P (.separateBy r b opt trail id) (.separateBy r' b' opt trail id)
  | repeat_ {r r' opt id} (hr : Relabelled P r r') : Relabelled P (.repeat_ r opt id) (.repeat_ r' opt id)
  | lines {r r' ind id} (hr : Relabelled P r r') : Relabelled P (.lines r ind id) (.lines r' ind id)
  | optional {r r' id} (hr : Relabelled P r r') : Relabelled P (.optional r id) (.optional r' id)
  | not {r r' id} (hr : Relabelled P r r') : Relabelled P (.not r id) (.not r' id)
/-- The same for the rules of a list, one by one. -/
inductive RelabelledL (P : Option Str → Option Str → Prop) : List Rule → List Rule → Prop
  | nil : RelabelledL P [] []
  | cons {r r' rs rs'} (h : Relabelled P r r') (h' : RelabelledL P rs rs') : RelabelledL P (r :: rs) (r' :: rs')
end

mutual
/-- The rule with every property `x` renamed to `f x`, or taken away if that is `none`. -/
def relabel (f : Str → Option Str) : Rule → Rule
  | .whitespace a id => .whitespace a id
  | .tag a b c prop id => .tag a b c (prop.bind f) id
  | .untilAny a b prop id => .untilAny a b (prop.bind f) id
  | .untilAnyOrWs a b prop id => .untilAnyOrWs a b (prop.bind f) id
  | .text a prop id => .text a (prop.bind f) id
  | .number prop b id => .number (prop.bind f) b id
  | .node a prop c id => .node a (prop.bind f) c id
  | .select rs id => .select (relabelAll f rs) id
  | .fastSelect t rs tl id => .fastSelect t (relabelAll f rs) tl id
  | .sequence rs id => .sequence (relabelAll f rs) id
  | .separateBy r b o t id => .separateBy (relabel f r) (relabel f b) o t id
  | .repeat_ r o id => .repeat_ (relabel f r) o id
  | .lines r i id => .lines (relabel f r) i id
  | .optional r id => .optional (relabel f r) id
  | .not r id => .not (relabel f r) id
/-- The same for all rules of a list. -/
def relabelAll (f : Str → Option Str) : List Rule → List Rule
  | [] => []
  | r :: rs => relabel f r :: relabelAll f rs
end

/-- The item under its new name, or nothing. -/
def relabelItem (f : Str → Option Str) (t : Tok) : Option Tok :=
  match t.data with
  | .startNode n => (f n).map fun x => ⟨t.range, .startNode x⟩
  | .endNode n => (f n).map fun x => ⟨t.range, .endNode x⟩
  | .bool n v => (f n).map fun x => ⟨t.range, .bool x v⟩
  | .f64 n v => (f n).map fun x => ⟨t.range, .f64 x v⟩
  | .string n v => (f n).map fun x => ⟨t.range, .string x v⟩

end Verif.Spec
