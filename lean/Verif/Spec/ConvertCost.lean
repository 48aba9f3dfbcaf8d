import Verif.Spec.Items
import Verif.Model.ConvertCalls
/-
What `convert` costs, how deep meta data is nested, and how much a list of ranges covers.
-/
namespace Verif.Spec

/-- `convert(data, ignored)` returns `r` and leaves `ignored'`; the number of calls of methods of
`Convert`, of items moved over and of strings compared is `k`. -/
def ConvertsIn (data : List Tok) (ignored : List Range) (r : Option Syntax) (ignored' : List Range) (k : Nat) : Prop :=
  ∃ n, Counted.convert n data ignored = .ok (r, ignored', k)

/-- Well nested data with at most `d` items one inside the other. -/
inductive NestedTo : Nat → List Tok → Prop
  | nil {d} : NestedTo d []
  | value {d t rest} (h : ¬ IsNode t.data) (hr : NestedTo (d + 1) rest) : NestedTo (d + 1) (t :: rest)
  | node {d r₁ r₂ name body rest} (hb : NestedTo d body) (hr : NestedTo (d + 1) rest) :
      NestedTo (d + 1) (⟨r₁, .startNode name⟩ :: body ++ ⟨r₂, .endNode name⟩ :: rest)

/-- The lengths of the ranges together. -/
def totalLength (l : List Range) : Nat := (l.map (·.length)).sum

/-- Whether a token begins a node called `string`. -/
def isStringNode (t : Tok) : Bool :=
  match t.data with
  | .startNode name => name = c!"string"
  | _ => false

/-- How many nodes are called `string`. -/
def stringNodes (ts : List Tok) : Nat := ts.countP isStringNode

end Verif.Spec
