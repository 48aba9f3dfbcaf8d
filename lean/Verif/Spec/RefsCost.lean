import Verif.Spec.OptCost
import Verif.Spec.Desc
import Verif.Model.RefsCalls
/-
What `update_refs` has to look at.
-/
namespace Verif.Spec

/-- The names up to the first that is `name`, or all of them. -/
def lookedAt (name : Str) (names : List Str) : Nat :=
  match names.findIdx? (name = ·) with
  | some i => i + 1
  | none => names.length

mutual
/-- The names of the references without an index in a rule; a table is not looked into. -/
def openRefs : Rule → List Str
  | .node name _ none _ => [name]
  | .select args _ => openRefsL args
  | .sequence args _ => openRefsL args
  | .separateBy r b _ _ _ => openRefs r ++ openRefs b
  | .repeat_ r _ _ => openRefs r
  | .lines r _ _ => openRefs r
  | .optional r _ => openRefs r
  | .not r _ => openRefs r
  | _ => []
/-- In all of them. -/
def openRefsL : List Rule → List Str
  | [] => []
  | r :: rs => openRefs r ++ openRefsL rs
end

/-- `convert(data, ignored)` returns `syn` and leaves `ignored'`; its number (C96) is `k`, and `update_refs` is called
`u` times and looks at `v` names. -/
def ResolvesIn (data : List Tok) (ignored : List Range) (syn : Syntax) (ignored' : List Range) (k u v : Nat) : Prop :=
  ∃ n, Counted.convertAll n data ignored = .ok (some (syn, u, v), ignored', k)

mutual
/-- How many selects with three alternatives or more are around each other. -/
def Desc.wide : Desc → Nat
  | .select args => (if 3 ≤ args.length then 1 else 0) + Desc.wideL args
  | .sequence args => Desc.wideL args
  | .separatedBy _ _ b d => max b.wide d.wide
  | .repeat_ _ d | .lines _ d | .optional d | .not d => d.wide
  | _ => 0
/-- The largest of them. -/
def Desc.wideL : List Desc → Nat
  | [] => 0
  | d :: ds => max d.wide (Desc.wideL ds)
end

mutual
/-- How many references there are. -/
def Desc.links : Desc → Nat
  | .reference _ _ => 1
  | .select args | .sequence args => Desc.linksL args
  | .separatedBy _ _ b d => b.links + d.links
  | .repeat_ _ d | .lines _ d | .optional d | .not d => d.links
  | _ => 0
/-- In all of them. -/
def Desc.linksL : List Desc → Nat
  | [] => 0
  | d :: ds => d.links + Desc.linksL ds
end

end Verif.Spec
