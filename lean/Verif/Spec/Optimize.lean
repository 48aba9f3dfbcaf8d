import Verif.Model.Optimize
import Verif.Spec.WellFormed
/-
The optimizer, without cut off.
-/
namespace Verif.Spec

/-- `syn.optimize()` returns `syn'`. -/
def Optimizes (syn syn' : Syntax) : Prop := ∃ n, syn.optimize n = .ok syn'

/-- `unique_byte(r, refs)` returns `o`. -/
def UniqueByte (refs : List Rule) (r : Rule) (o : Option UInt8) : Prop :=
  ∃ n, uniqueByte refs n r = .ok o

/-- `unique_table_from_select` returns `(t, u)` for these alternatives. -/
def UniqueTable (refs : List Rule) (args : List Rule) (t : Table) (u : Nat) : Prop :=
  ∃ n, uniqueTable refs n args = .ok (t, u)

/-- The text does not start with this byte (nothing starts with a byte at the end of the text). -/
def NotStarting (b : UInt8) (src : Str) : Prop :=
  ∀ c cs, src = c :: cs → (String.utf8EncodeChar c).head? ≠ some b

/-- Where a select is replaced by a table, the alternatives outside the table cannot match at the
end of a text. -/
def TailsRefused (E : Env) : Prop :=
  ∀ args id t u, Part E.refs (.select args id) → UniqueTable E.refs args t u → 2 ≤ u →
    ∀ b ∈ args.drop u, EndRefused E b

/-- Reads nothing, records nothing, and fails only at the end of the text: not not anything. -/
def nonEnd : Rule := .not (.not (.untilAny [] false none 0) 0) 0

/-- `r`, but not at the end of the text. -/
def notAtEnd (r : Rule) : Rule := .sequence [nonEnd, r] 0

/-- The alternatives from the `u`th on are not to be tried at the end of the text. -/
def guardFrom (u : Nat) (rs : List Rule) : List Rule := rs.take u ++ (rs.drop u).map notAtEnd

mutual
/-- `EndGuarded refs r g`: `g` is `r`, where in each select with a look-up table for some of its
alternatives only (two or more), the others are not tried at the end of the text. -/
inductive EndGuarded (refs : List Rule) : Rule → Rule → Prop
  | whitespace {a b} : EndGuarded refs (.whitespace a b) (.whitespace a b)
  | tag {a b c d e} : EndGuarded refs (.tag a b c d e) (.tag a b c d e)
  | untilAny {a b c d} : EndGuarded refs (.untilAny a b c d) (.untilAny a b c d)
  | untilAnyOrWs {a b c d} : EndGuarded refs (.untilAnyOrWs a b c d) (.untilAnyOrWs a b c d)
  | text {a b c} : EndGuarded refs (.text a b c) (.text a b c)
  | number {a b c} : EndGuarded refs (.number a b c) (.number a b c)
  | node {a b c d} : EndGuarded refs (.node a b c d) (.node a b c d)
  | fastSelect {t rs tl id} : EndGuarded refs (.fastSelect t rs tl id) (.fastSelect t rs tl id)
  | select {rs gs id t u} (ht : UniqueTable refs rs t u) (hu : u < 2 ∨ u = rs.length)
      (h : EndGuardedL refs rs gs) : EndGuarded refs (.select rs id) (.select gs id)
  | guarded {rs gs id t u} (ht : UniqueTable refs rs t u) (h2 : 2 ≤ u) (hu : u < rs.length)
      (h : EndGuardedL refs rs gs) : EndGuarded refs (.select rs id) (.select (guardFrom u gs) id)
  | sequence {rs gs id} (h : EndGuardedL refs rs gs) :
      EndGuarded refs (.sequence rs id) (.sequence gs id)
  | separateBy {r g b c o t id} (h : EndGuarded refs r g) (h' : EndGuarded refs b c) :
      EndGuarded refs (.separateBy r b o t id) (.separateBy g c o t id)
  | repeat_ {r g o id} (h : EndGuarded refs r g) : EndGuarded refs (.repeat_ r o id) (.repeat_ g o id)
  | lines {r g i id} (h : EndGuarded refs r g) : EndGuarded refs (.lines r i id) (.lines g i id)
  | optional {r g id} (h : EndGuarded refs r g) : EndGuarded refs (.optional r id) (.optional g id)
  | not {r g id} (h : EndGuarded refs r g) : EndGuarded refs (.not r id) (.not g id)
/-- The same for lists. -/
inductive EndGuardedL (refs : List Rule) : List Rule → List Rule → Prop
  | nil : EndGuardedL refs [] []
  | cons {r g rs gs} (h : EndGuarded refs r g) (h' : EndGuardedL refs rs gs) :
      EndGuardedL refs (r :: rs) (g :: gs)
end

/-- `syng` is `syn` with all its rules guarded in this way. -/
def SyntaxGuarded (syn syng : Syntax) : Prop :=
  syng.names = syn.names ∧ EndGuardedL syn.rules syn.rules syng.rules

/-- The call of `unique_byte` on `r` is the call on `c`. -/
inductive ByteCall (refs : List Rule) : Rule → Rule → Prop
  | notNot {c id id'} : ByteCall refs c (.not (.not c id) id')
  | select {c id} : ByteCall refs c (.select [c] id)
  | item {c b trail id} : ByteCall refs c (.separateBy c b false trail id)
  | sequence {c rs id} : ByteCall refs c (.sequence (c :: rs) id)
  | repeat_ {c id} : ByteCall refs c (.repeat_ c false id)
  | node {name prop ix id c} (h : refs[ix]? = some c) : ByteCall refs c (.node name prop (some ix) id)

/-- `unique_byte` on `r` calls itself without end: it comes to a rule on which it calls itself again. -/
def ByteLoops (refs : List Rule) (r : Rule) : Prop :=
  ∃ c, (c = r ∨ Relation.TransGen (ByteCall refs) c r) ∧ Relation.TransGen (ByteCall refs) c c

/-- A reference to a rule that does not exist. -/
def Dangling (refs : List Rule) (r : Rule) : Prop :=
  ∃ name prop ix id, r = .node name prop (some ix) id ∧ refs.length ≤ ix

/-- `unique_byte` on `r` comes to a reference to a rule that does not exist. -/
def ByteDangles (refs : List Rule) (r : Rule) : Prop :=
  ∃ c, (c = r ∨ Relation.TransGen (ByteCall refs) c r) ∧ Dangling refs c

/-- `unique_table_from_select` comes to the alternative after those in `pre`: there are fewer than
255 of them, each has a unique byte, and these are different. -/
def ComesAfter (refs pre : List Rule) : Prop :=
  pre.length < 255 ∧ (∀ a ∈ pre, ∃ b, UniqueByte refs a (some b)) ∧
    pre.Pairwise fun a a' => ∀ b, UniqueByte refs a (some b) → ¬ UniqueByte refs a' (some b)

def NotTable (r : Rule) : Prop := ∀ t args tail id, r ≠ .fastSelect t args tail id

/-- `x` is `r` or a part of it that does not belong to a table; the optimizer leaves tables as they
are. -/
inductive OccursOutside : Rule → Rule → Prop
  | refl {r} : OccursOutside r r
  | step {x c r} (h : OccursOutside x c) (h' : Child c r) (h'' : NotTable r) : OccursOutside x r

/-- The optimizer comes to an alternative of a select on which it calls itself without end. -/
def OptimizerLoops (refs : List Rule) : Prop :=
  ∃ q ∈ refs, ∃ pre r post id, OccursOutside (.select (pre ++ r :: post) id) q ∧
    ComesAfter refs pre ∧ ByteLoops refs r

/-- The optimizer comes to an alternative of a select from which it comes to a reference to a rule
that does not exist. -/
def OptimizerDangles (refs : List Rule) : Prop :=
  ∃ q ∈ refs, ∃ pre r post id, OccursOutside (.select (pre ++ r :: post) id) q ∧
    ComesAfter refs pre ∧ ByteDangles refs r

mutual
/-- `Optimized refs r r'`: `r'` is `r`, with a table in the place of each select of which at least the
first two alternatives have a unique byte and the bytes differ.  `u` is how many alternatives are
in the table; the others make one more alternative.  Nothing else changes. -/
inductive Optimized (refs : List Rule) : Rule → Rule → Prop
  | whitespace {a b} : Optimized refs (.whitespace a b) (.whitespace a b)
  | tag {a b c d e} : Optimized refs (.tag a b c d e) (.tag a b c d e)
  | untilAny {a b c d} : Optimized refs (.untilAny a b c d) (.untilAny a b c d)
  | untilAnyOrWs {a b c d} : Optimized refs (.untilAnyOrWs a b c d) (.untilAnyOrWs a b c d)
  | text {a b c} : Optimized refs (.text a b c) (.text a b c)
  | number {a b c} : Optimized refs (.number a b c) (.number a b c)
  | node {a b c d} : Optimized refs (.node a b c d) (.node a b c d)
  | fastSelect {t rs tl id} : Optimized refs (.fastSelect t rs tl id) (.fastSelect t rs tl id)
  | select {rs rs' id t u} (ht : UniqueTable refs rs t u) (hu : u < 2) (h : OptimizedL refs rs rs') :
      Optimized refs (.select rs id) (.select rs' id)
  | table {rs rs' id t} (ht : UniqueTable refs rs t rs.length) (h2 : 2 ≤ rs.length) (h : OptimizedL refs rs rs') :
      Optimized refs (.select rs id) (.fastSelect t rs' false id)
  | tableTail {rs rs' id t u} (ht : UniqueTable refs rs t u) (h2 : 2 ≤ u) (hu : u < rs.length)
      (h : OptimizedL refs rs rs') :
      Optimized refs (.select rs id) (.fastSelect t (rs'.take u ++ [.select (rs'.drop u) id]) true id)
  | sequence {rs rs' id} (h : OptimizedL refs rs rs') : Optimized refs (.sequence rs id) (.sequence rs' id)
  | separateBy {r r' b b' o t id} (h : Optimized refs r r') (h' : Optimized refs b b') :
      Optimized refs (.separateBy r b o t id) (.separateBy r' b' o t id)
  | repeat_ {r r' o id} (h : Optimized refs r r') : Optimized refs (.repeat_ r o id) (.repeat_ r' o id)
  | lines {r r' i id} (h : Optimized refs r r') : Optimized refs (.lines r i id) (.lines r' i id)
  | optional {r r' id} (h : Optimized refs r r') : Optimized refs (.optional r id) (.optional r' id)
  | not {r r' id} (h : Optimized refs r r') : Optimized refs (.not r id) (.not r' id)
/-- One by one. -/
inductive OptimizedL (refs : List Rule) : List Rule → List Rule → Prop
  | nil : OptimizedL refs [] []
  | cons {r r' rs rs'} (h : Optimized refs r r') (hs : OptimizedL refs rs rs') :
      OptimizedL refs (r :: rs) (r' :: rs')
end

/-- The first byte of everything that `r` matches is `b`, as can be seen from `r`: it begins with a
string in quotes, or with a token that begins with this byte. -/
inductive BeginsWith (refs : List Rule) : Rule → UInt8 → Prop
  | text {e p id} : BeginsWith refs (.text e p id) 0x22
  | tag {c cs inv p id b} (h : (String.utf8EncodeChar c).head? = some b) :
      BeginsWith refs (.tag (c :: cs) false inv p id) b
  | call {c r b} (h : ByteCall refs c r) (h' : BeginsWith refs c b) : BeginsWith refs r b

end Verif.Spec
