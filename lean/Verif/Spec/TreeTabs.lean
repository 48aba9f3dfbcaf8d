import Verif.Spec.Tree
/-
Trees of numbers laid out with spaces and tabs.
-/
namespace Verif.Spec

/-- Spaces and tabs that reach column `m`, the last one for the first time.  A tab may reach further than
column `m`. -/
def ReachesColumn (tab m : Nat) (w : Str) : Prop := Carries tab m w w.length

/-- Nothing, or blank lines and a new line. -/
def LineGap (g : Str) : Prop := g = [] ∨ ∃ b, g = b ++ ['\n'] ∧ ∀ c ∈ b, isWs c = true

mutual
/-- The text of a tree of which the children stand in column `i` or further right, in front of the text
`rest`.  A line that reaches column `lim` would belong to the tree. -/
inductive TabTree (L : Lexer) (tab : Nat) (strict : Bool) : Nat → Tree → Nat → Str → Str → Prop
  | node {i d v cs lim s rest} (h : NumberAt L d v (s ++ rest)) (hc : TabKids L tab strict i cs lim s rest) :
      TabTree L tab strict i (.node d v cs) lim (d ++ s) rest
/-- The text of children, the first one under or beside its parent.  Its indentation is what is needed for
column `i`, which counts as `i` even if the last tab reaches further, and more.  -/
inductive TabKids (L : Lexer) (tab : Nat) (strict : Bool) : Nat → List Tree → Nat → Str → Str → Prop
  | leaf {i rest} : TabKids L tab strict i [] i [] rest
  | block {i m t ts l g w w' s s' rest} (hg : LineGap g) (hw : ReachesColumn tab i w) (hw' : ∀ c ∈ w', Blank c)
      (hm : m = i + width tab w') (hm' : m + 1 < 2 ^ 32) (h : TabTree L tab strict (m + 1) t l s (s' ++ rest))
      (h' : TabRows L tab strict m l ts s' rest) : TabKids L tab strict i (t :: ts) m (g ++ (w ++ (w' ++ (s ++ s')))) rest
/-- The text of trees that reach column `m`, each behind a new line, blank lines, spaces and tabs; if
`strict`, each does not reach so far that it would belong to the tree before it. -/
inductive TabRows (L : Lexer) (tab : Nat) (strict : Bool) : Nat → Nat → List Tree → Str → Str → Prop
  | nil {m l rest} : TabRows L tab strict m l [] [] rest
  | cons {m l t ts l' g w s s' rest} (hg : ∀ c ∈ g, isWs c = true) (hw : ReachesColumn tab m w)
      (hl : strict = true → width tab w < l) (h : TabTree L tab strict (m + 1) t l' s (s' ++ rest))
      (h' : TabRows L tab strict m l' ts s' rest) :
      TabRows L tab strict m l (t :: ts) (g ++ '\n' :: (w ++ (s ++ s'))) rest
end

/-- Nothing but space up to the end of the line. -/
def LineEnd (s : Str) : Prop :=
  (∀ c ∈ s, isWs c = true) ∨ ∃ g rest, s = g ++ '\n' :: rest ∧ ∀ c ∈ g, isWs c = true

/-- Behind every number nothing else stands on its line. -/
def NumbersEndLines (L : Lexer) (text : Str) : Prop :=
  ∀ a b n, text = a ++ b → (∀ c, a.getLast? = some c → isWs c = true) → L.num false b = some n → LineEnd (b.drop n)

end Verif.Spec
