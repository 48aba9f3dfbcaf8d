import Verif.Spec.Items
import Verif.Spec.Desc
import Verif.Model.ConvertDepth
/-
How deep `convert` calls itself, and how deep rules are nested in data, in descriptions and in rules.
-/
namespace Verif.Spec

/-- `convert(data, ignored)` returns `r` and leaves `ignored'`, and never more than `d` calls of `read_rule` are one
inside the other. -/
def ConvertsWithin (d : Nat) (data : List Tok) (ignored : List Range) (r : Option Syntax) (ignored' : List Range) :
    Prop := ∃ n, convertTo d n data ignored = .ok (r, ignored')

/-- A node with this name and this data is one in which `read_rule` is called: always in the first three, and in the
others if there is something to read. -/
def CallsRule (name : Str) (body : List Tok) : Prop :=
  name ∈ [c!"optional", c!"not", c!"lines"] ∨
  name ∈ [c!"sequence", c!"select", c!"separated_by", c!"repeat"] ∧ body ≠ []

/-- Well nested data in which at most `d` nodes with rules are one inside the other. -/
inductive RulesTo : Nat → List Tok → Prop
  | nil {d} : RulesTo d []
  | value {d t rest} (h : ¬ IsNode t.data) (hr : RulesTo d rest) : RulesTo d (t :: rest)
  | node {d d' r₁ r₂ name body rest} (hd : d' ≤ d) (hn : CallsRule name body → d' < d) (hb : RulesTo d' body)
      (hr : RulesTo d rest) : RulesTo d (⟨r₁, .startNode name⟩ :: (body ++ ⟨r₂, .endNode name⟩ :: rest))

mutual
/-- How many rules are one inside the other. -/
def Desc.depth : Desc → Nat
  | .sequence args | .select args => Desc.depthL args + 1
  | .optional d | .not d | .lines _ d | .repeat_ _ d => d.depth + 1
  | .separatedBy _ _ b d => max b.depth d.depth + 1
  | _ => 1
def Desc.depthL : List Desc → Nat
  | [] => 0
  | d :: ds => max d.depth (Desc.depthL ds)
end

mutual
/-- How many rules are one inside the other. -/
def ruleDepth : Rule → Nat
  | .sequence args _ | .select args _ | .fastSelect _ args _ _ => ruleDepthL args + 1
  | .optional r _ | .not r _ | .lines r _ _ | .repeat_ r _ _ => ruleDepth r + 1
  | .separateBy r b _ _ _ => max (ruleDepth b) (ruleDepth r) + 1
  | _ => 1
def ruleDepthL : List Rule → Nat
  | [] => 0
  | r :: rs => max (ruleDepth r) (ruleDepthL rs)
end

/-- The deepest rule of a document. -/
def Doc.depth (doc : Doc) : Nat := Desc.depthL (doc.nodes.map (·.2.2))

end Verif.Spec
