import Verif.Model.Examples
import Verif.Spec.Lexer
import Verif.Spec.Run
/-
The texts that examples/key_value.rs reads, and their data.
-/
namespace Verif.Spec

/-- examples/key_value.rs, with these rules and this text, ends in this way: it has written `out`, or it
has written a report to the standard error output and panicked. -/
def KeyValueEnds (L : Lexer) (E : ErrText) (fmt : F64 → Str) (rules text : Str) (r : Except Str Str) : Prop :=
  ∃ n, keyValueMain L E fmt n rules text = .ok r

/-- Numbers, with or without underscores, are written without space. -/
def SolidAll (L : Lexer) : Prop :=
  ∀ u src n, L.num u src = some n → ∀ c ∈ src.take n, isWs c = false

/-- `ReadToken::lines` goes on behind an item that has read a new line and some space itself. -/
def ResumesAfterSpace (L : Lexer) : Prop :=
  ∀ x w rest, (∀ c ∈ w, isWs c = true) → NonBlankLine rest → L.lineNext false (x ++ '\n' :: w) rest = .call 0

/-- There is no number at the start of the text. -/
def NoNumber (L : Lexer) (s : Str) : Prop := ∀ n x, L.num true s = some n → L.parseNum true s n ≠ .ok x

/-- There is no quoted string at the start of the text: it is not closed, or it has a wrong escape. -/
def NoString (L : Lexer) (s : Str) : Prop := ∀ n t, L.str s = some n → L.parseStr s n ≠ .ok t

/-- The text `v` of a value with `rest` behind it, and the data it gives. -/
inductive KvValue (L : Lexer) : (v rest : Str) → MetaData → Prop
  | number {v rest x} (h : L.num true (v ++ rest) = some v.length) (hx : L.parseNum true (v ++ rest) v.length = .ok x) :
      KvValue L v rest (.f64 c!"number" x)
  | yes {rest} (h : NoNumber L (c!"true" ++ rest)) : KvValue L c!"true" rest (.bool c!"bool" true)
  | no {rest} (h : NoNumber L (c!"false" ++ rest)) : KvValue L c!"false" rest (.bool c!"bool" false)
  | string {v rest t} (h : NoNumber L (v ++ rest)) (hs : L.str (v ++ rest) = some v.length)
      (ht : L.parseStr (v ++ rest) v.length = .ok t) : KvValue L v rest (.string c!"string" t)
  | word {v rest} (h : NoNumber L (v ++ rest)) (hs : NoString L (v ++ rest)) (h1 : ¬ c!"true" <+: v ++ rest)
      (h2 : ¬ c!"false" <+: v ++ rest) (h0 : v ≠ []) (hv : ∀ c ∈ v, isWs c = false)
      (hr : ∀ c, rest.head? = some c → isWs c = true) : KvValue L v rest (.string c!"value" v)

/-- Nothing but space follows on this line. -/
def EndsLine (rest : Str) : Prop := ∃ w r, rest = w ++ r ∧ (∀ c ∈ w, isWs c = true) ∧ (r = [] ∨ '\n' ∈ w)

/-- The text from the place `off` on, with its data: comments and pairs of a key and a value, each ending
its line, with space between everything. -/
inductive KvText (L : Lexer) : (off : Nat) → Str → List Tok → Prop
  | done {off w} (hw : ∀ c ∈ w, isWs c = true) : KvText L off w []
  | comment {off w s rest ts} (hw : ∀ c ∈ w, isWs c = true) (hs : '\n' ∉ s)
      (hr : ∀ c, rest.head? = some c → c = '\n') (h : KvText L (off + (w.length + (1 + s.length))) rest ts) :
      KvText L off (w ++ ('#' :: s ++ rest)) ts
  | pair {off w key a b v rest d ts} (hw : ∀ c ∈ w, isWs c = true) (h0 : key ≠ []) (h1 : key.head? ≠ some '#')
      (hk : ∀ c ∈ key, c ≠ '=' ∧ isWs c = false) (ha : ∀ c ∈ a, isWs c = true) (hb : ∀ c ∈ b, isWs c = true)
      (hv : KvValue L v rest d) (hr : EndsLine rest)
      (h : KvText L (off + (w.length + (key.length + (a.length + (1 + (b.length + v.length)))))) rest ts) :
      KvText L off (w ++ (key ++ (a ++ ('=' :: (b ++ (v ++ rest))))))
        (⟨⟨off + w.length, key.length⟩, .string c!"key" key⟩ ::
         ⟨⟨off + (w.length + (key.length + (a.length + (1 + b.length)))), v.length⟩, d⟩ :: ts)

/-- A key can be read: it is one word without `=` that does not begin with `#`. -/
def KeyOk (key : Str) : Prop := key ≠ [] ∧ key.head? ≠ some '#' ∧ ∀ c ∈ key, c ≠ '=' ∧ isWs c = false

/-- `key = value` on a line of its own, for each entry. -/
def kvLines : List (Str × Str × MetaData) → Str
  | [] => []
  | (key, v, _) :: es => key ++ (c!" " ++ ('=' :: (c!" " ++ (v ++ '\n' :: kvLines es))))

/-- The data of these lines. -/
def kvData : List (Str × Str × MetaData) → List MetaData
  | [] => []
  | (key, _, d) :: es => .string c!"key" key :: d :: kvData es

/-- A string as JSON. -/
def jsonString (s : Str) : Str :=
  c!"\"" ++ s.flatMap (fun c =>
    if c = '\\' then c!"\\\\" else if c = '"' then c!"\\\"" else if c = '\n' then c!"\\n"
    else if c = '\r' then c!"\\r" else if c = '\t' then c!"\\t" else [c]) ++ c!"\""

/-- A value with its name as JSON. -/
def jsonMember (fmt : F64 → Str) : MetaData → Str
  | .bool name b => jsonString name ++ c!":" ++ (if b then c!"true" else c!"false")
  | .f64 name x => jsonString name ++ c!":" ++ fmt x
  | .string name t => jsonString name ++ c!":" ++ jsonString t
  | .startNode _ | .endNode _ => []

/-- The members, with commas and new lines between them, and a new line at the end. -/
def jsonMembers (fmt : F64 → Str) (ds : List MetaData) : Str :=
  List.intercalate c!",\n" (ds.map (jsonMember fmt)) ++ c!"\n"

end Verif.Spec
