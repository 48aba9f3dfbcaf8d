import Verif.Model.ErrorHandler
/-
`{:?}` of meta data, rules and syntaxes: `derive(Debug)` writes the name of a variant with its values in
parentheses, and the name of a structure with its fields in braces, in the order of the source.

`Arc`, `Box` and `String` are written as what they hold.  Which characters the standard library writes as
they are is the parameter `plain`; it is told whether the character is the first of the string.  How it
writes an `f64` is the parameter `fmt`.
-/
namespace Verif

/-- One character within `{:?}` of a string (standard library, `char::escape_debug_ext`). -/
def debugChar (plain : Bool → Char → Bool) (first : Bool) (c : Char) : Str :=
  if c = '\x00' then c!"\\0"
  else if c = '\t' then c!"\\t"
  else if c = '\r' then c!"\\r"
  else if c = '\n' then c!"\\n"
  else if c = '"' then c!"\\\""
  else if c = '\\' then c!"\\\\"
  else if plain first c then [c]
  else c!"\\u{" ++ (Nat.toDigits 16 c.toNat ++ ['}'])

/-- The characters of a string and the quote at the end. -/
def debugChars (plain : Bool → Char → Bool) : Bool → Str → Str
  | _, [] => ['"']
  | first, c :: cs => debugChar plain first c ++ debugChars plain false cs

/-- `{:?}` of a string. -/
def debugStr (plain : Bool → Char → Bool) (s : Str) : Str := '"' :: debugChars plain true s

/-- `{:?}` of a `bool`. -/
def debugBool (b : Bool) : Str := if b then c!"true" else c!"false"

/-- `{:?}` of an `Option`. -/
def debugOption {α : Type} (f : α → Str) : Option α → Str
  | none => c!"None"
  | some a => c!"Some(" ++ (f a ++ [')'])

/-- `{:?}` of the elements of a `Vec` and the bracket at the end. -/
def debugItems {α : Type} (f : α → Str) : List α → Str
  | [] => [']']
  | [a] => f a ++ [']']
  | a :: b :: as => f a ++ (c!", " ++ debugItems f (b :: as))

/-- `{:?}` of a `Vec`. -/
def debugList {α : Type} (f : α → Str) (as : List α) : Str := '[' :: debugItems f as

/-- `Debug for MetaData` -- src/lib.rs:171-183. -/
def MetaData.debug (plain : Bool → Char → Bool) (fmt : F64 → Str) : MetaData → Str
  | .startNode n => c!"StartNode(" ++ (debugStr plain n ++ [')'])
  | .endNode n => c!"EndNode(" ++ (debugStr plain n ++ [')'])
  | .bool n v => c!"Bool(" ++ (debugStr plain n ++ (c!", " ++ (debugBool v ++ [')'])))
  | .f64 n v => c!"F64(" ++ (debugStr plain n ++ (c!", " ++ (fmt v ++ [')'])))
  | .string n v => c!"String(" ++ (debugStr plain n ++ (c!", " ++ (debugStr plain v ++ [')'])))

mutual
/-- `Debug for Rule` -- src/meta_rules/rule.rs:28 and the `derive(Debug)` on the structures of the
variants; `Debug for FastSelect`, src/meta_rules/fast_select.rs:36-40, writes nothing. -/
def Rule.debug (plain : Bool → Char → Bool) : Rule → Str
  | .whitespace o i => c!"Whitespace(Whitespace { optional: " ++ (debugBool o ++
      (c!", debug_id: " ++ (dec i ++ c!" })")))
  | .tag t n v p i => c!"Tag(Tag { text: " ++ (debugStr plain t ++ (c!", not: " ++ (debugBool n ++
      (c!", inverted: " ++ (debugBool v ++ (c!", property: " ++ (debugOption (debugStr plain) p ++
      (c!", debug_id: " ++ (dec i ++ c!" })")))))))))
  | .untilAny a o p i => c!"UntilAny(UntilAny { any_characters: " ++ (debugStr plain a ++
      (c!", optional: " ++ (debugBool o ++ (c!", property: " ++ (debugOption (debugStr plain) p ++
      (c!", debug_id: " ++ (dec i ++ c!" })")))))))
  | .untilAnyOrWs a o p i => c!"UntilAnyOrWhitespace(UntilAnyOrWhitespace { any_characters: " ++ (debugStr plain a ++
      (c!", optional: " ++ (debugBool o ++ (c!", property: " ++ (debugOption (debugStr plain) p ++
      (c!", debug_id: " ++ (dec i ++ c!" })")))))))
  | .text e p i => c!"Text(Text { allow_empty: " ++ (debugBool e ++ (c!", property: " ++
      (debugOption (debugStr plain) p ++ (c!", debug_id: " ++ (dec i ++ c!" })")))))
  | .number p u i => c!"Number(Number { property: " ++ (debugOption (debugStr plain) p ++
      (c!", debug_id: " ++ (dec i ++ (c!", allow_underscore: " ++ (debugBool u ++ c!" })")))))
  | .select rs i => c!"Select(Select { args: " ++ (Rule.debugList plain rs ++
      (c!", debug_id: " ++ (dec i ++ c!" })")))
  | .fastSelect _ _ _ _ => c!"FastSelect()"
  | .sequence rs i => c!"Sequence(Sequence { args: " ++ (Rule.debugList plain rs ++
      (c!", debug_id: " ++ (dec i ++ c!" })")))
  | .separateBy r b o t i => c!"SeparateBy(SeparateBy { rule: " ++ (Rule.debug plain r ++
      (c!", by: " ++ (Rule.debug plain b ++ (c!", optional: " ++ (debugBool o ++
      (c!", allow_trail: " ++ (debugBool t ++ (c!", debug_id: " ++ (dec i ++ c!" })")))))))))
  | .repeat_ r o i => c!"Repeat(Repeat { rule: " ++ (Rule.debug plain r ++ (c!", optional: " ++ (debugBool o ++
      (c!", debug_id: " ++ (dec i ++ c!" })")))))
  | .lines r o i => c!"Lines(Lines { rule: " ++ (Rule.debug plain r ++
      (c!", debug_id: " ++ (dec i ++ (c!", indent: " ++ (debugBool o ++ c!" })")))))
  | .node n p x i => c!"Node(Node { name: " ++ (debugStr plain n ++ (c!", property: " ++
      (debugOption (debugStr plain) p ++ (c!", debug_id: " ++ (dec i ++
      (c!", index: " ++ (debugOption dec x ++ c!" })")))))))
  | .optional r i => c!"Optional(Optional { rule: " ++ (Rule.debug plain r ++
      (c!", debug_id: " ++ (dec i ++ c!" })")))
  | .not r i => c!"Not(Not { rule: " ++ (Rule.debug plain r ++
      (c!", debug_id: " ++ (dec i ++ c!" })")))
/-- `{:?}` of a `Vec<Rule>`. -/
def Rule.debugList (plain : Bool → Char → Bool) : List Rule → Str
  | [] => c!"[]"
  | r :: rs => '[' :: (Rule.debug plain r ++ Rule.debugRest plain rs)
/-- What stands behind an element of a `Vec<Rule>`. -/
def Rule.debugRest (plain : Bool → Char → Bool) : List Rule → Str
  | [] => [']']
  | r :: rs => c!", " ++ (Rule.debug plain r ++ Rule.debugRest plain rs)
end

/-- `Debug for Syntax` -- src/lib.rs:186-192. -/
def Syntax.debug (plain : Bool → Char → Bool) (syn : Syntax) : Str :=
  c!"Syntax { rules: " ++ (Rule.debugList plain syn.rules ++ (c!", names: " ++
    (debugList (debugStr plain) syn.names ++ c!" }")))

end Verif
