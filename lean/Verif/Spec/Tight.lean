import Verif.Spec.Compose
/-
Texts without whitespace that is not needed.
-/
namespace Verif.Spec

mutual
/-- The same rule with no whitespace where it is optional, and one space where it is not. -/
def tight : Rule → Rule
  | .whitespace true id => .tag [] false false none id
  | .whitespace false id => .tag [' '] false false none id
  | .select rs id => .select (tightAll rs) id
  | .fastSelect t rs tail id => .fastSelect t (tightAll rs) tail id
  | .sequence rs id => .sequence (tightAll rs) id
  | .separateBy r b opt trail id => .separateBy (tight r) (tight b) opt trail id
  | .repeat_ r opt id => .repeat_ (tight r) opt id
  | .lines r ind id => .lines (tight r) ind id
  | .optional r id => .optional (tight r) id
  | .not r id => .not (tight r) id
  | r => r
/-- All of them. -/
def tightAll : List Rule → List Rule
  | [] => []
  | r :: rs => tight r :: tightAll rs
end

/-- What is tried. -/
def tightGoal : Goal → Goal
  | .rule r => .rule (tight r)
  | .sel rs => .sel (tightAll rs)
  | .seq rs => .seq (tightAll rs)
  | .rep r => .rep (tight r)
  | .sepTail r b trail => .sepTail (tight r) (tight b) trail
  | .lines r ind id first item => .lines (tight r) ind id first item
  | .line r ind first => .line (tight r) ind first

end Verif.Spec
