import Verif.Spec.Continuable
/-
How to find rules that never match.
-/
namespace Verif.Spec

section
variable (T : Nat → Bool)

mutual
/-- Nothing is known that keeps the rule from matching, if the rules with these numbers may match. -/
def canMatch : Rule → Bool
  | .node _ _ ix _ => ix.any T
  | .select rs _ => canMatchOf rs
  | .fastSelect _ rs _ _ => canMatchOf rs
  | .sequence rs _ => canMatchAll rs
  | .separateBy r _ opt _ _ => opt || canMatch r
  | .repeat_ r opt _ => opt || canMatch r
  | _ => true
/-- All of them. -/
def canMatchAll : List Rule → Bool
  | [] => true
  | r :: rs => canMatch r && canMatchAll rs
/-- One of them. -/
def canMatchOf : List Rule → Bool
  | [] => false
  | r :: rs => canMatch r || canMatchOf rs
end

end

section
variable (nums : Bool → List Char) (ends : List Char) (refs : List Rule)

/-- Which rules may match, after `k` steps. -/
def findMatches : Nat → List Bool
  | 0 => refs.map fun _ => false
  | k + 1 => refs.map (canMatch (textAt (findMatches k)))

/-- No text is read by the rule. -/
def isDead (r : Rule) : Bool := !canMatch (textAt (findMatches refs refs.length)) r

/-- What follows does not begin with what must not follow. -/
def confirmsApart (ms : List Found) (gs : List (List (Option Char))) : Bool :=
  let A := alphabet nums refs
  let F := foundAt ms
  gs.length == refs.length && (gs.zip refs).all (fun x => hasKeys A x.1 (beyondOf A nums ends F (furtherAt gs) x.2)) &&
    everyPartOf (free A nums ends F (furtherAt gs)) refs

end

/-- The rule matches somewhere. -/
def MatchesSomewhere (E : Env) (r : Rule) : Prop :=
  ∃ p i n ts j tr, Run E (.rule r) p i (some (n, ts)) j tr

end Verif.Spec
