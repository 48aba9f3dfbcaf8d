import Verif.Spec.Desc
import Verif.Spec.Lexer
/-
The notation of the meta language, as in README.md and assets/self-syntax.txt: which texts stand for
a description.  It does not mention the hard-coded rules that read it.
-/
namespace Verif.Spec

/-- Only whitespace. -/
def Space (w : Str) : Prop := ∀ c ∈ w, isWs c = true

/-- A character of a name. -/
def NameChar (c : Char) : Prop := c ∉ c!"[]{}():.!?\"" ∧ isWs c = false

/-- A name. -/
def IsName (s : Str) : Prop := s ≠ [] ∧ ∀ c ∈ s, NameChar c

/-- `cs` is a string in quotes that stands for `s`, whatever follows.  (That the usual ones are is
part of the contract of the lexer.) -/
def IsLit (L : Lexer) (s cs : Str) : Prop :=
  ∀ rest, L.str (cs ++ rest) = some cs.length ∧ L.parseStr (cs ++ rest) cs.length = .ok s

/-- A text, or a name after an underscore; `empty`: there may be nothing between the quotes. -/
def SetV.Text (L : Lexer) (empty : Bool) : SetV → Str → Prop
  | .value s, cs => IsLit L s cs ∧ (cs.length = 2 → empty = true)
  | .ref n, cs => IsName n ∧ cs = '_' :: n

/-- Optional or not. -/
def sign (b : Bool) : Char := if b then '?' else '!'

/-- A sign that can be left out. -/
def Switch (c : Char) : Option Bool → Str → Prop
  | none, cs => cs = []
  | some b, cs => b = true ∧ cs = [c]

/-- The name of the data after a colon, if there is one. -/
def PropText (L : Lexer) : Option SetV → Str → Prop
  | none, cs => cs = []
  | some v, cs => ∃ a, v.Text L false a ∧ cs = ':' :: a

mutual
/-- `cs` stands for a description. -/
def Desc.Text (L : Lexer) : Desc → Str → Prop
  | .whitespace o, cs => cs = ['.', 'w', sign o]
  | .untilAnyOrWs any o p, cs => ∃ a b q, any.Text L true a ∧ o = some b ∧ PropText L p q ∧
      cs = c!".." ++ (a ++ sign b :: q)
  | .untilAny any o p, cs => ∃ a b q, any.Text L true a ∧ o = some b ∧ PropText L p q ∧
      cs = c!"..." ++ (a ++ sign b :: q)
  | .tag neg t inv none, cs => ∃ n a, Switch '!' neg n ∧ t.Text L false a ∧ inv = none ∧ cs = n ++ a
  | .tag neg t inv (some v), cs => ∃ n a i b, Switch '!' neg n ∧ t.Text L false a ∧ Switch '!' inv i ∧
      v.Text L false b ∧ cs = n ++ (a ++ ':' :: (i ++ b))
  | .text e p, cs => ∃ b q, e = some b ∧ PropText L p q ∧ cs = c!".t" ++ sign b :: q
  | .number u p, cs => ∃ n q, Switch '_' u n ∧ PropText L p q ∧ cs = c!".$" ++ (n ++ q)
  | .reference name p, cs => ∃ q, IsName name ∧ name.head? ≠ some '_' ∧ PropText L p q ∧ cs = name ++ q
  | .sequence args, cs => args ≠ [] ∧ ∃ a, Desc.TextL L args a ∧ cs = '[' :: (a ++ [']'])
  | .select args, cs => args ≠ [] ∧ ∃ a, Desc.TextL L args a ∧ cs = '{' :: (a ++ ['}'])
  | .optional d, cs => ∃ a, d.Text L a ∧ cs = '?' :: a
  | .not d, cs => ∃ a, d.Text L a ∧ a.head? ≠ some '"' ∧ a.head? ≠ some '_' ∧ cs = '!' :: a
  | .separatedBy o t b d, cs => ∃ s n v a w c u, o = some s ∧ Switch '.' t n ∧ Space v ∧ b.Text L a ∧
      Space w ∧ w ≠ [] ∧ d.Text L c ∧ Space u ∧
      cs = c!".s" ++ sign s :: (n ++ '(' :: (v ++ (a ++ (w ++ (c ++ (u ++ [')']))))))
  | .lines i d, cs => ∃ n v a u, Switch '+' i n ∧ Space v ∧ d.Text L a ∧ Space u ∧
      cs = c!".l" ++ (n ++ '(' :: (v ++ (a ++ (u ++ [')']))))
  | .repeat_ o d, cs => ∃ a, d.Text L a ∧ cs = c!".r" ++ sign o :: '(' :: (a ++ [')'])
/-- The rules of a sequence or select, with whitespace between them. -/
def Desc.TextL (L : Lexer) : List Desc → Str → Prop
  | [], cs => Space cs
  | d :: ds, cs => ∃ w a u, Space w ∧ d.Text L a ∧ Desc.TextL L ds u ∧
      (ds ≠ [] → ∃ c, u.head? = some c ∧ isWs c = true) ∧ cs = w ++ (a ++ u)
end

mutual
/-- Without `.l+`, which was added to the language after version 1.0. -/
def Desc.plain : Desc → Bool
  | .sequence args => Desc.plainL args
  | .select args => Desc.plainL args
  | .optional d => d.plain
  | .not d => d.plain
  | .separatedBy _ _ b d => b.plain && d.plain
  | .lines i d => i == none && d.plain
  | .repeat_ _ d => d.plain
  | _ => true
def Desc.plainL : List Desc → Bool
  | [] => true
  | d :: ds => d.plain && Desc.plainL ds
end

/-! ### Comments -/

/-- What may stand between `/*` and `*/`, or before the end of the text, when `rest` follows.
Comments can be nested; a `/*` that is never closed is not the beginning of a comment. -/
inductive CommentBody : (b rest : Str) → Prop
  | nil {rest} : CommentBody [] rest
  | plain {c b rest} (h : c ≠ '*') (h' : c ≠ '/') (hb : CommentBody b rest) : CommentBody (c :: b) rest
  | star {b rest} (h : (b ++ rest).head? ≠ some '/') (hb : CommentBody b rest) : CommentBody ('*' :: b) rest
  | slash {b rest} (h : (b ++ rest).head? ≠ some '*') (hb : CommentBody b rest) : CommentBody ('/' :: b) rest
  | unclosed {b rest t} (e : b ++ rest = '*' :: t) (h : CommentBody t []) (hb : CommentBody b rest) :
      CommentBody ('/' :: b) rest
  | nested {b b' rest} (hb : CommentBody b ('*' :: '/' :: (b' ++ rest))) (hb' : CommentBody b' rest) :
      CommentBody ('/' :: '*' :: (b ++ '*' :: '/' :: b')) rest

/-- A comment, when `rest` follows. -/
inductive IsComment : (cs rest : Str) → Prop
  | block {b rest} (h : CommentBody b ('*' :: '/' :: rest)) : IsComment ('/' :: '*' :: (b ++ ['*', '/'])) rest
  | line {b rest} (h : '\n' ∉ b) (hr : rest = [] ∨ rest.head? = some '\n') : IsComment ('/' :: '/' :: b) rest

/-! ### Documents -/

/-- What stands on one line, or begins on it. -/
inductive Entry where
  | comment
  | string (name text : Str)
  | node (number : F64) (name : Str) (rule : Desc)

/-- `cs` is read as the number `v` when `rest` follows. -/
def IsNumber (L : Lexer) (v : F64) (cs rest : Str) : Prop :=
  (∀ c, cs.head? = some c → isWs c = false ∧ c ≠ '_' ∧ c ≠ '/') ∧
  L.num false (cs ++ rest) = some cs.length ∧ L.parseNum false (cs ++ rest) cs.length = .ok v

/-- `cs` stands for the entry when `rest` follows. -/
def Entry.Text (L : Lexer) : Entry → (cs rest : Str) → Prop
  | .comment, cs, rest => IsComment cs rest
  | .string name t, cs, _ => ∃ w a, IsName name ∧ Space w ∧ IsLit L t a ∧ cs = '_' :: (name ++ ':' :: (w ++ a))
  | .node k name d, cs, rest => ∃ n v w x a, IsNumber L k n (v ++ (name ++ (w ++ '=' :: (x ++ (a ++ rest))))) ∧
      Space v ∧ v ≠ [] ∧ IsName name ∧ name.head? ≠ some '_' ∧ Space w ∧ w ≠ [] ∧ Space x ∧ d.Text L a ∧
      cs = n ++ (v ++ (name ++ (w ++ '=' :: (x ++ a))))

/-- Without `.l+`. -/
def Entry.plain : Entry → Bool
  | .node _ _ d => d.plain
  | _ => true

/-- Entries with whitespace around them; all but the first begin on a new line. -/
def EntriesText (L : Lexer) : (first : Bool) → List Entry → Str → Prop
  | _, [], cs => Space cs
  | first, e :: es, cs => ∃ w a u, Space w ∧ (first = false → '\n' ∈ w) ∧ e.Text L a u ∧
      EntriesText L false es u ∧ cs = w ++ (a ++ u)

def Entry.isNode : Entry → Bool
  | .node _ _ _ => true
  | _ => false

def Entry.isString : Entry → Bool
  | .string _ _ => true
  | _ => false

/-- The strings among the entries. -/
def stringsIn : List Entry → List (Str × Str)
  | [] => []
  | .string n t :: es => (n, t) :: stringsIn es
  | _ :: es => stringsIn es

/-- The nodes among the entries. -/
def nodesIn : List Entry → List (F64 × Str × Desc)
  | [] => []
  | .node k n d :: es => (k, n, d) :: nodesIn es
  | _ :: es => nodesIn es

/-- Without `.l+`. -/
def Doc.plain (doc : Doc) : Bool := doc.nodes.all fun n => n.2.2.plain

/-- The text stands for the document: first its strings, then its nodes, with comments between. -/
def Doc.Text (L : Lexer) (doc : Doc) (text : Str) : Prop :=
  ∃ es es', (∀ e ∈ es, e.isNode = false) ∧ (∀ e ∈ es', e.isString = false) ∧
    EntriesText L true (es ++ es') text ∧ doc.strings = stringsIn es ∧ doc.nodes = nodesIn es'

end Verif.Spec
