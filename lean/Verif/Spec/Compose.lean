import Verif.Spec.Generates
/-
Texts put together from texts of their own.
-/
namespace Verif.Spec

/-- The text is put together from texts that are read on their own: no part of it looks at what follows.  With the data, if it stands
at the given offset. -/
inductive Composes (E : Env) : Goal → Nat → Str → List Tok → Prop
  | token {r off x i ts j tr} (hr : CallsNone r) (h : Run E (.rule r) ⟨x, off⟩ i (some (x.length, ts)) j tr) : Composes E (.rule r) off x ts
  | select {r rs id off x ts} (hr : r ∈ rs) (h : Composes E (.rule r) off x ts) : Composes E (.rule (.select rs id)) off x ts
  | sequence {rs id off x ts} (h : Composes E (.seq rs) off x ts) : Composes E (.rule (.sequence rs id)) off x ts
  | seq_nil {off} : Composes E (.seq []) off [] []
  | seq_cons {r rs off x ts y us} (h : Composes E (.rule r) off x ts) (h' : Composes E (.seq rs) (off + x.length) y us) :
      Composes E (.seq (r :: rs)) off (x ++ y) (ts ++ us)
  | repeat_any {r id off x ts} (h : Composes E (.rep r) off x ts) : Composes E (.rule (.repeat_ r true id)) off x ts
  | repeat_some {r id off x ts y us} (h : Composes E (.rule r) off x ts) (h' : Composes E (.rep r) (off + x.length) y us) :
      Composes E (.rule (.repeat_ r false id)) off (x ++ y) (ts ++ us)
  | rep_nil {r off} : Composes E (.rep r) off [] []
  | rep_cons {r off x ts y us} (h : Composes E (.rule r) off x ts) (h' : Composes E (.rep r) (off + x.length) y us) :
      Composes E (.rep r) off (x ++ y) (ts ++ us)
  | sep_none {r b trail id off} : Composes E (.rule (.separateBy r b true trail id)) off [] []
  | sep_some {r b opt trail id off x ts y us} (h : Composes E (.rule r) off x ts)
      (h' : Composes E (.sepTail r b trail) (off + x.length) y us) :
      Composes E (.rule (.separateBy r b opt trail id)) off (x ++ y) (ts ++ us)
  | tail_nil {r b trail off} : Composes E (.sepTail r b trail) off [] []
  | tail_trail {r b off x ts} (h : Composes E (.rule b) off x ts) : Composes E (.sepTail r b true) off x ts
  | tail_cons {r b trail off z rs x ts y us} (h : Composes E (.rule b) off z rs) (h' : Composes E (.rule r) (off + z.length) x ts)
      (h'' : Composes E (.sepTail r b trail) (off + z.length + x.length) y us) :
      Composes E (.sepTail r b trail) off (z ++ (x ++ y)) (rs ++ (ts ++ us))
  | node {name prop ix id off q x ts} (hr : E.refs[ix]? = some q) (h : Composes E (.rule q) off x ts) :
      Composes E (.rule (.node name prop (some ix) id)) off x (wrapped prop off x.length ts)
  | optional_none {r id off} : Composes E (.rule (.optional r id)) off [] []
  | optional_some {r id off x ts} (h : Composes E (.rule r) off x ts) : Composes E (.rule (.optional r id)) off x ts

/-- Given the text alone, the rule reads all of it, with the data. -/
def ReadsAlone (E : Env) (r : Rule) (text : Str) (ds : List MetaData) : Prop :=
  ∃ i ts j tr, Run E (.rule r) ⟨text, 0⟩ i (some (text.length, ts)) j tr ∧ ts.map (·.data) = ds

end Verif.Spec
