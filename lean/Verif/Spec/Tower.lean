import Verif.Spec.Cost
/-
Syntaxes that are not recursive and read a text again and again.
-/
namespace Verif.Spec

/-- `.r?("a")`, `.r?({[.r?("a") "b"] "a"})`, `.r?({[.r?({[.r?("a") "b"] "a"}) "b"] "a"})`, and so on. -/
def tower : Nat → Rule
  | 0 => .repeat_ (.tag ['a'] false false none 0) true 0
  | d + 1 => .repeat_ (.select [.sequence [tower d, .tag ['b'] false false none 0] 0, .tag ['a'] false false none 0] 0) true 0

/-- A syntax of one rule. -/
def towerSyntax (d : Nat) : Syntax := ⟨[tower d], [['x']]⟩

/-- How many calls the `d`th takes for `k` times `a`. -/
def towerCost : Nat → Nat → Nat
  | 0, k => k + 2
  | d + 1, k => 1 + ((List.range (k + 1)).map fun j => towerCost d j + 4).sum

end Verif.Spec
