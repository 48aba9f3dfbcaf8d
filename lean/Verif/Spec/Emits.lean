import Verif.Model.Basic
/-
The meta data that rules can yield, whatever the text.
-/
namespace Verif.Spec

/-- The datum of a named rule; nothing for a rule without name. -/
def datum (prop : Option Str) (f : Str → MetaData) : List MetaData :=
  match prop with
  | none => []
  | some n => [f n]

/-- The data of a named reference is put in a node. -/
def inNode (prop : Option Str) (d : List MetaData) : List MetaData :=
  match prop with
  | none => d
  | some n => .startNode n :: (d ++ [.endNode n])

/-- `Emits refs r d`: by the shape of the rule alone, `r` can yield the data `d`.  This is a context
free grammar for meta data: a select yields what one of its alternatives yields, a sequence what its
parts yield one after the other, and so on. -/
inductive Emits (refs : List Rule) : Rule → List MetaData → Prop
  | whitespace {o id} : Emits refs (.whitespace o id) []
  | tag {t neg inv prop id} : Emits refs (.tag t neg inv prop id) (datum prop (.bool · (!inv)))
  | untilAny {any o prop id} (s : Str) : Emits refs (.untilAny any o prop id) (datum prop (.string · s))
  | untilAnyOrWs {any o prop id} (s : Str) :
      Emits refs (.untilAnyOrWs any o prop id) (datum prop (.string · s))
  | text {e prop id} (s : Str) : Emits refs (.text e prop id) (datum prop (.string · s))
  | number {prop us id} (v : F64) : Emits refs (.number prop us id) (datum prop (.f64 · v))
  | select {args id r d} (hr : r ∈ args) (h : Emits refs r d) : Emits refs (.select args id) d
  | fastSelect {t args tail id r d} (hr : r ∈ args) (h : Emits refs r d) :
      Emits refs (.fastSelect t args tail id) d
  | seq_nil {id} : Emits refs (.sequence [] id) []
  | seq_cons {r rs id d e} (h : Emits refs r d) (h' : Emits refs (.sequence rs id) e) :
      Emits refs (.sequence (r :: rs) id) (d ++ e)
  | rep_nil {r id} : Emits refs (.repeat_ r true id) []
  | rep_cons {r o id d e} (h : Emits refs r d) (h' : Emits refs (.repeat_ r true id) e) :
      Emits refs (.repeat_ r o id) (d ++ e)
  | sep_none {r b t id} : Emits refs (.separateBy r b true t id) []
  | sep_one {r b o t id d} (h : Emits refs r d) : Emits refs (.separateBy r b o t id) d
  | sep_trail {r b o id d e} (h : Emits refs r d) (h' : Emits refs b e) :
      Emits refs (.separateBy r b o true id) (d ++ e)
  | sep_more {r b o t id d e f} (h : Emits refs r d) (h' : Emits refs b e)
      (h'' : Emits refs (.separateBy r b false t id) f) :
      Emits refs (.separateBy r b o t id) (d ++ (e ++ f))
  | lines_nil {r i id} : Emits refs (.lines r i id) []
  | lines_cons {r i id d e} (h : Emits refs r d) (h' : Emits refs (.lines r i id) e) :
      Emits refs (.lines r i id) (d ++ e)
  | node {name prop ix id r d} (hr : refs[ix]? = some r) (h : Emits refs r d) :
      Emits refs (.node name prop (some ix) id) (inNode prop d)
  | opt_none {r id} : Emits refs (.optional r id) []
  | opt_some {r id d} (h : Emits refs r d) : Emits refs (.optional r id) d
  | not {r id} : Emits refs (.not r id) []

end Verif.Spec
