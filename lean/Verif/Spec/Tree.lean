import Verif.Spec.Run
import Verif.Spec.Lexer
/-
Trees of numbers laid out with indentation, the texts of examples/indent.rs.
-/
namespace Verif.Spec

/-- A number, as it is written and its value, with children. -/
inductive Tree where
  | node (digits : Str) (value : F64) (children : List Tree)

mutual
/-- The meta data of a tree. -/
def Tree.data : Tree → List MetaData
  | .node _ v cs => .startNode c!"node" :: .f64 c!"num" v :: (Tree.dataList cs ++ [.endNode c!"node"])
/-- The meta data of trees, one after the other. -/
def Tree.dataList : List Tree → List MetaData
  | [] => []
  | t :: ts => t.data ++ Tree.dataList ts
end

/-- The lexer reads these digits as this number when space or nothing follows. -/
def ReadsNumber (L : Lexer) (digits : Str) (v : F64) : Prop :=
  (∃ c cs, digits = c :: cs ∧ isWs c = false) ∧
  ∀ rest, (∀ c, rest.head? = some c → isWs c = true) →
    L.num false (digits ++ rest) = some digits.length ∧ L.parseNum false (digits ++ rest) digits.length = .ok v

mutual
/-- The text of a tree of which the children stand in column `i` or further right. -/
inductive Laid (L : Lexer) : Nat → Tree → Str → Prop
  | node {i d v cs s} (h : ReadsNumber L d v) (hc : LaidBelow L i cs s) : Laid L i (.node d v cs) (d ++ s)
/-- The text of children in some column from `i` on. -/
inductive LaidBelow (L : Lexer) : Nat → List Tree → Str → Prop
  | leaf {i} : LaidBelow L i [] []
  | block {i m t ts s} (hm : i ≤ m) (hm' : m + 1 < 2 ^ 32) (h : LaidAt L m (t :: ts) s) : LaidBelow L i (t :: ts) s
/-- The text of trees in column `m`: each behind a new line, blank lines and `m` spaces, with its own
children further right. -/
inductive LaidAt (L : Lexer) : Nat → List Tree → Str → Prop
  | nil {m} : LaidAt L m [] []
  | cons {m t ts g s s'} (hg : ∀ c ∈ g, isWs c = true) (h : Laid L (m + 1) t s) (h' : LaidAt L m ts s') :
      LaidAt L m (t :: ts) (g ++ '\n' :: (List.replicate m ' ' ++ (s ++ s')))
end

/-- The lexer reads these digits as this number in front of this text. -/
def NumberAt (L : Lexer) (digits : Str) (v : F64) (rest : Str) : Prop :=
  (∃ c cs, digits = c :: cs ∧ isWs c = false) ∧ L.num false (digits ++ rest) = some digits.length ∧
  L.parseNum false (digits ++ rest) digits.length = .ok v

mutual
/-- The text of a tree of which the children stand in column `i` or further right, in front of the text
`rest`. -/
inductive TreeText (L : Lexer) : Nat → Tree → Str → Str → Prop
  | node {i d v cs s rest} (h : NumberAt L d v (s ++ rest)) (hc : KidsText L i cs s rest) :
      TreeText L i (.node d v cs) (d ++ s) rest
/-- The text of children in some column from `i` on.  The first one may also stand on the line of its parent;
then the column is counted from the end of the number of the parent. -/
inductive KidsText (L : Lexer) : Nat → List Tree → Str → Str → Prop
  | leaf {i rest} : KidsText L i [] [] rest
  | under {i m t ts s rest} (hm : i ≤ m) (hm' : m + 1 < 2 ^ 32) (h : RowsText L m (t :: ts) s rest) :
      KidsText L i (t :: ts) s rest
  | beside {i m t ts s s' rest} (hm : i ≤ m) (hm' : m + 1 < 2 ^ 32) (h : TreeText L (m + 1) t s (s' ++ rest))
      (h' : RowsText L m ts s' rest) : KidsText L i (t :: ts) (List.replicate m ' ' ++ (s ++ s')) rest
/-- The text of trees in column `m`: each behind a new line, blank lines and `m` spaces, with its own
children further right. -/
inductive RowsText (L : Lexer) : Nat → List Tree → Str → Str → Prop
  | nil {m rest} : RowsText L m [] [] rest
  | cons {m t ts g s s' rest} (hg : ∀ c ∈ g, isWs c = true) (h : TreeText L (m + 1) t s (s' ++ rest))
      (h' : RowsText L m ts s' rest) :
      RowsText L m (t :: ts) (g ++ '\n' :: (List.replicate m ' ' ++ (s ++ s'))) rest
end

/-- Numbers are written without space. -/
def SolidNumbers (L : Lexer) : Prop :=
  ∀ src n, L.num false src = some n → ∀ c ∈ src.take n, isWs c = false

/-- `ReadToken::lines` goes on behind an item that has read the new line itself. -/
def ResumesLines (L : Lexer) : Prop :=
  ∀ item rest, (item.getLast? = some '\n') → NonBlankLine rest → L.lineNext false item rest = .call 0

end Verif.Spec
