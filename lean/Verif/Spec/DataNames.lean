import Verif.Spec.Dead
/-
Which names occur in the data.
-/
namespace Verif.Spec

/-- The name of an item. -/
def dataName : MetaData → Str
  | .startNode nm => nm
  | .endNode nm => nm
  | .bool nm _ => nm
  | .f64 nm _ => nm
  | .string nm _ => nm

section
variable (nm : Str) (T U : Nat → Bool)

mutual
/-- Nothing is known that keeps the rule from giving an item of this name, if the rules with the numbers in `T` may match and those with the
numbers in `U` may give such an item. -/
def gives : Rule → Bool
  | .whitespace _ _ => false
  | .tag _ _ _ prop _ => prop == some nm
  | .untilAny _ _ prop _ => prop == some nm
  | .untilAnyOrWs _ _ prop _ => prop == some nm
  | .text _ prop _ => prop == some nm
  | .number prop _ _ => prop == some nm
  | .select rs _ => givesOf rs
  | .fastSelect _ rs _ _ => givesOf rs
  | .sequence rs _ => canMatchAll T rs && givesOf rs
  | .separateBy r b _ _ _ => canMatch T r && (gives r || gives b)
  | .repeat_ r _ _ => gives r
  | .lines r _ _ => gives r
  | .node _ prop ix _ => ix.any fun i => U i || (T i && prop == some nm)
  | .optional r _ => gives r
  | .not _ _ => false
/-- One of them. -/
def givesOf : List Rule → Bool
  | [] => false
  | r :: rs => gives r || givesOf rs
end

variable (refs : List Rule)

/-- Which rules may give an item of this name, after `k` steps. -/
def findGivers : Nat → List Bool
  | 0 => refs.map fun _ => false
  | k + 1 => refs.map (gives nm T (textAt (findGivers k)))

/-- Such an item may be given by the rule. -/
def mayGive (r : Rule) : Bool :=
  let T := textAt (findMatches refs refs.length)
  gives nm T (textAt (findGivers nm T refs refs.length)) r

end

end Verif.Spec
