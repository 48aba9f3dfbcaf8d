import Verif.Spec.Notation
/-
One way to write down a rule tree in the notation of the meta language.
-/
namespace Verif.Spec

/-- A character inside quotes. -/
def quoteChar (c : Char) : Str :=
  if c = '"' then c!"\\\"" else if c = '\\' then c!"\\\\" else if c = '\n' then c!"\\n"
  else if c = '\r' then c!"\\r" else if c = '\t' then c!"\\t" else [c]

/-- A string with its quotes. -/
def quoted (s : Str) : Str := '"' :: s.flatMap quoteChar ++ ['"']

/-- The name of the data after a colon, if there is one. -/
def propText : Option Str → Str
  | none => []
  | some p => ':' :: quoted p

/-- A sign or nothing. -/
def mark (c : Char) (b : Bool) : Str := if b then [c] else []

mutual
/-- The rule in the notation. -/
def print : Rule → Str
  | .whitespace o _ => ['.', 'w', sign o]
  | .untilAnyOrWs any o p _ => c!".." ++ (quoted any ++ sign o :: propText p)
  | .untilAny any o p _ => c!"..." ++ (quoted any ++ sign o :: propText p)
  | .tag t neg _ none _ => mark '!' neg ++ quoted t
  | .tag t neg inv (some p) _ => mark '!' neg ++ (quoted t ++ ':' :: (mark '!' inv ++ quoted p))
  | .text e p _ => c!".t" ++ sign e :: propText p
  | .number p u _ => c!".$" ++ (mark '_' u ++ propText p)
  | .node name p _ _ => name ++ propText p
  | .sequence rs _ => '[' :: (printAll rs ++ [']'])
  | .select rs _ => '{' :: (printAll rs ++ ['}'])
  | .fastSelect _ _ _ _ => []
  | .optional r _ => '?' :: print r
  | .not r _ => '!' :: print r
  | .separateBy r b o t _ => c!".s" ++ sign o :: (mark '.' t ++ '(' :: (print b ++ ' ' :: (print r ++ [')'])))
  | .lines r i _ => c!".l" ++ (mark '+' i ++ '(' :: (print r ++ [')']))
  | .repeat_ r o _ => c!".r" ++ sign o :: '(' :: (print r ++ [')'])
/-- A space after each rule. -/
def printAll : List Rule → Str
  | [] => []
  | r :: rs => print r ++ ' ' :: printAll rs
end

/-- A name that can be written. -/
def GoodName (s : Str) : Prop := IsName s ∧ s.head? ≠ some '_'

/-- An option that is written only if it is set. -/
def ifSet (b : Bool) : Option Bool := if b then some true else none

mutual
/-- The description of a rule, with all strings in place. -/
def describe : Rule → Desc
  | .whitespace o _ => .whitespace o
  | .untilAnyOrWs any o p _ => .untilAnyOrWs (.value any) (some o) (p.map .value)
  | .untilAny any o p _ => .untilAny (.value any) (some o) (p.map .value)
  | .tag t neg inv p _ => .tag (ifSet neg) (.value t) (ifSet inv) (p.map .value)
  | .text e p _ => .text (some e) (p.map .value)
  | .number p u _ => .number (ifSet u) (p.map .value)
  | .node name p _ _ => .reference name (p.map .value)
  | .sequence rs _ => .sequence (describeAll rs)
  | .select rs _ => .select (describeAll rs)
  | .fastSelect _ rs _ _ => .select (describeAll rs)
  | .optional r _ => .optional (describe r)
  | .not r _ => .not (describe r)
  | .separateBy r b o t _ => .separatedBy (some o) (ifSet t) (describe b) (describe r)
  | .lines r i _ => .lines (ifSet i) (describe r)
  | .repeat_ r o _ => .repeat_ o (describe r)
def describeAll : List Rule → List Desc
  | [] => []
  | r :: rs => describe r :: describeAll rs
end

mutual
/-- The notation has a text for the rule.  Names of data are not empty, nor are tokens and lists; a
token has a name of data if it is inverted; `not` around a token is written as a token that is not
wanted; there is no notation for a separated list that forbids a trailing separator. -/
def Printable : Rule → Prop
  | .whitespace _ _ => True
  | .untilAnyOrWs _ _ p _ => p ≠ some []
  | .untilAny _ _ p _ => p ≠ some []
  | .tag t _ inv p _ => t ≠ [] ∧ p ≠ some [] ∧ (p = none → inv = false)
  | .text _ p _ => p ≠ some []
  | .number p _ _ => p ≠ some []
  | .node name p _ _ => GoodName name ∧ p ≠ some []
  | .sequence rs _ => rs ≠ [] ∧ PrintableAll rs
  | .select rs _ => rs ≠ [] ∧ PrintableAll rs
  | .fastSelect _ _ _ _ => False
  | .optional r _ => Printable r
  | .not r _ => Printable r ∧ ∀ t inv p id, r ≠ .tag t false inv p id
  | .separateBy r b _ t _ => Printable r ∧ Printable b ∧ t = true
  | .lines r _ _ => Printable r
  | .repeat_ r _ _ => Printable r
def PrintableAll : List Rule → Prop
  | [] => True
  | r :: rs => Printable r ∧ PrintableAll rs
end

mutual
/-- The rule without its ids and without the places of the rules it refers to. -/
def bare : Rule → Rule
  | .whitespace o _ => .whitespace o 0
  | .untilAnyOrWs any o p _ => .untilAnyOrWs any o p 0
  | .untilAny any o p _ => .untilAny any o p 0
  | .tag t neg inv p _ => .tag t neg inv p 0
  | .text e p _ => .text e p 0
  | .number p u _ => .number p u 0
  | .node name p _ _ => .node name p none 0
  | .sequence rs _ => .sequence (bareAll rs) 0
  | .select rs _ => .select (bareAll rs) 0
  | .fastSelect f rs t _ => .fastSelect f (bareAll rs) t 0
  | .optional r _ => .optional (bare r) 0
  | .not r _ => .not (bare r) 0
  | .separateBy r b o t _ => .separateBy (bare r) (bare b) o t 0
  | .lines r i _ => .lines (bare r) i 0
  | .repeat_ r o _ => .repeat_ (bare r) o 0
def bareAll : List Rule → List Rule
  | [] => []
  | r :: rs => bare r :: bareAll rs
end

/-- A numbered rule with a name; `digits` is the number as written. -/
structure Numbered where
  number : F64
  digits : Str
  name : Str
  rule : Rule

/-- A rule that can be written, on a line of its own. -/
def Numbered.Ok (L : Lexer) (n : Numbered) : Prop :=
  (∀ c rest, isWs c = true → IsNumber L n.number n.digits (c :: rest)) ∧ GoodName n.name ∧ Printable n.rule

/-- The description of a list of rules, without strings. -/
def describeDoc (ns : List Numbered) : Doc := ⟨[], ns.map fun n => (n.number, n.name, describe n.rule)⟩

/-- One rule on each line. -/
def printDoc : List Numbered → Str
  | [] => []
  | n :: ns => n.digits ++ ' ' :: (n.name ++ c!" = " ++ print n.rule) ++ '\n' :: printDoc ns

end Verif.Spec
