import Verif.Proofs.DebugText
import Verif.Props.Syntax
import Verif.Model.Search
import Verif.Model.StdLexer
/-
What `{:?}` writes of rules, syntaxes and meta data: C108.
-/
namespace Verif.Props
open Spec DebugText

/-- Two rules have the same Debug text exactly if they are the same apart from what their tables hold. -/
theorem C108_rule (plain : Bool → Char → Bool) (r r' : Rule) :
    r.debug plain = r'.debug plain ↔ r.blank = r'.blank := by
  have := rule_iff (plain := plain) r r' [] []
  simpa using this

/-- The Debug text of a rule without tables is that of no other rule. -/
theorem C108_no_table {plain : Bool → Char → Bool} {r r' : Rule} (h : ∀ x, Occurs x r → ¬ IsTable x) :
    r.debug plain = r'.debug plain ↔ r = r' := by
  refine ⟨fun h' => ?_, fun h' => by rw [h']⟩
  have h1 := (C108_rule plain r r').1 h'
  rw [blank_of_none r h] at h1
  have := of_blank r' (by rw [← h1]; exact h)
  rw [h1, this]

/-- `==` on rules is having the same Debug text, as far as a rule is equal to itself. -/
theorem C108_equal (plain : Bool → Char → Bool) (r r' : Rule) :
    Rule.peq r r' = true ↔ r.debug plain = r'.debug plain ∧ ∀ x, Occurs x r → ¬ IsTable x := by
  constructor
  · intro h
    have := C45_sound h
    subst this
    exact ⟨rfl, (C45_reflexive_iff r).1 h⟩
  · rintro ⟨h, h'⟩
    have := (C108_no_table h').1 h
    subst this
    exact (C45_reflexive_iff r).2 h'

theorem C108_syntax (plain : Bool → Char → Bool) (a b : Syntax) :
    a.debug plain = b.debug plain ↔ Rule.blankL a.rules = Rule.blankL b.rules ∧ a.names = b.names := by
  have hi : debugItems (debugStr plain) a.names = debugItems (debugStr plain) b.names ↔ a.names = b.names := by
    have := DebugText.items_iff (plain := plain) a.names b.names [] []
    simpa using this
  simp [Syntax.debug, debugList, list_iff, hi]

/-- The Debug text of a syntax without tables is that of no other syntax. -/
theorem C108_syntax_no_table {plain : Bool → Char → Bool} {a b : Syntax} (h : ∀ x, Part a.rules x → ¬ IsTable x) :
    a.debug plain = b.debug plain ↔ a = b := by
  refine ⟨fun h' => ?_, fun h' => by rw [h']⟩
  obtain ⟨h1, h2⟩ := (C108_syntax plain a b).1 h'
  have ha : ∀ r ∈ a.rules, ∀ x, Occurs x r → ¬ IsTable x := fun r hr x hx => h x ⟨r, hr, hx⟩
  rw [blankL_of_none _ ha] at h1
  have := of_blankL b.rules (by rw [← h1]; exact ha)
  obtain ⟨ra, na⟩ := a
  obtain ⟨rb, nb⟩ := b
  simp only at h1 h2 this
  rw [h2, h1, this]

/-- A table look-up is written in the same way whatever it holds. -/
theorem C108_table (plain : Bool → Char → Bool) (t : UInt8 → UInt8) (args : List Rule) (tail : Bool) (id : DebugId) :
    (Rule.fastSelect t args tail id).debug plain = c!"FastSelect()" := rfl

/-- `{"a" "b"}` and `{"c" "d"}` as the only rule. -/
def exEither (a b : Char) : Syntax :=
  ⟨[.select [.tag [a] false false none 1, .tag [b] false false none 2] 3], [c!"doc"]⟩

/-- Syntaxes that accept different texts, have different Debug texts and the same one after optimizing. -/
theorem C108_blind (plain : Bool → Char → Bool) : ∃ a b a' b', Optimizes a a' ∧ Optimizes b b' ∧
    a.debug plain ≠ b.debug plain ∧ a'.debug plain = b'.debug plain ∧
    a'.debug plain = c!"Syntax { rules: [FastSelect()], names: [" ++ (debugStr plain c!"doc" ++ c!"] }") ∧
    Parses stdLexer a' c!"a" [] Indent.default (.ok []) ∧
    Parses stdLexer b' c!"c" [] Indent.default (.ok []) ∧
    ¬ Parses stdLexer a' c!"c" [] Indent.default (.ok []) ∧
    ¬ Parses stdLexer b' c!"a" [] Indent.default (.ok []) := by
  have no : ∀ {syn : Syntax} {text : Str},
      (match parseWithIndent stdLexer 9 syn text [] Indent.default with | .err _ _ => true | _ => false) = true →
      ¬ Parses stdLexer syn text [] Indent.default (.ok []) := fun {syn text} h h' => by
    split at h
    · rename_i e d he
      cases parses_det h' ⟨by simp, _, he⟩
    · simp at h
  refine ⟨exEither 'a' 'b', exEither 'c' 'd', _, _, ⟨5, rfl⟩, ⟨5, rfl⟩, fun h => ?_, rfl, ?_,
    ⟨by simp, 9, by decide +kernel⟩, ⟨by simp, 9, by decide +kernel⟩,
    no (by decide +kernel), no (by decide +kernel)⟩
  · rw [C108_syntax] at h
    simp [exEither, Rule.blankL, Rule.blank] at h
  · simp [Syntax.debug, Rule.debugList, Rule.debugRest, Rule.debug, debugList, debugItems, exEither]

/-- Two items have the same Debug text exactly if they are the same up to numbers printed alike. -/
theorem C108_meta_data (plain : Bool → Char → Bool) (fmt : F64 → Str) (d d' : MetaData) :
    d.debug plain fmt = d'.debug plain fmt ↔
      d = d' ∨ ∃ n v v', d = .f64 n v ∧ d' = .f64 n v' ∧ fmt v = fmt v' := by
  have hs : ∀ s s', debugStr plain s = debugStr plain s' ↔ s = s' := fun s s' => by
    have := str_iff (plain := plain) (s := s) (s' := s') (u := []) (v := [])
    simpa using this
  have hb : ∀ b b', debugBool b = debugBool b' ↔ b = b' := by decide
  cases d <;> cases d' <;> simp [MetaData.debug, str_iff, hs, hb]
  constructor
  · rintro ⟨rfl, h⟩
    exact .inr ⟨_, _, ⟨rfl, rfl⟩, _, ⟨rfl, rfl⟩, h⟩
  · rintro (⟨rfl, rfl⟩ | ⟨_, _, ⟨rfl, rfl⟩, _, ⟨rfl, rfl⟩, h⟩)
    · exact ⟨rfl, rfl⟩
    · exact ⟨rfl, h⟩

/-- A message of `Search` that another kind of item was expected says which item was found. -/
theorem C108_search (plain : Bool → Char → Bool) (fmt : F64 → Str) (kind name : Str)
    (d d' : MetaData) :
    Search.kindMsg (MetaData.debug plain fmt) kind name d = Search.kindMsg (MetaData.debug plain fmt) kind name d' ↔
      d = d' ∨ ∃ n v v', d = .f64 n v ∧ d' = .f64 n v' ∧ fmt v = fmt v' := by
  rw [← C108_meta_data plain fmt]
  simp [Search.kindMsg]

/-- The Debug text of a rule, a syntax or an item is one line. -/
theorem C108_one_line (plain : Bool → Char → Bool) :
    (∀ r : Rule, '\n' ∉ r.debug plain) ∧ (∀ syn : Syntax, '\n' ∉ syn.debug plain) ∧
    ∀ fmt : F64 → Str, (∀ x, '\n' ∉ fmt x) → ∀ d : MetaData, '\n' ∉ d.debug plain fmt := by
  refine ⟨rule_line, fun syn => ?_, fun fmt hf d => ?_⟩
  · simp [Syntax.debug, debugList, list_line, items_line]
  · cases d <;> simp [MetaData.debug, str_line, bool_line, hf]

/-- ASCII from the space to the tilde is written as it is. -/
def exPlain (_ : Bool) (c : Char) : Bool := 32 ≤ c.toNat && c.toNat ≤ 126

example : (Rule.separateBy (.tag c!"a\"b\n" true false (some c!"x") 1) (.node c!"é" none (some 7) 2) true false 30).debug exPlain =
    c!"SeparateBy(SeparateBy { rule: Tag(Tag { text: \"a\\\"b\\n\", not: true, inverted: false, property: Some(\"x\"), debug_id: 1 }), by: Node(Node { name: \"\\u{e9}\", property: None, debug_id: 2, index: Some(7) }), optional: true, allow_trail: false, debug_id: 30 })" := by
  decide +kernel
example : (Syntax.mk [.sequence [.whitespace true 1, .text false none 2, .number (some c!"n") true 3] 4, .select [] 5]
      [c!"a", c!"b"]).debug exPlain =
    c!"Syntax { rules: [Sequence(Sequence { args: [Whitespace(Whitespace { optional: true, debug_id: 1 }), Text(Text { allow_empty: false, property: None, debug_id: 2 }), Number(Number { property: Some(\"n\"), debug_id: 3, allow_underscore: true })], debug_id: 4 }), Select(Select { args: [], debug_id: 5 })], names: [\"a\", \"b\"] }" := by
  decide +kernel
example : (MetaData.bool c!"x" true).debug exPlain (fun _ => []) = c!"Bool(\"x\", true)" := by decide +kernel
example : ((Search.new [⟨⟨2, 3⟩, .string c!"a" c!"q"⟩]).bool (MetaData.debug exPlain (fun _ => [])) c!"b").1 =
    .error ⟨⟨2, 3⟩, .conversion c!"Expected bool `b`, found `String(\"a\", \"q\")`"⟩ := rfl

end Verif.Props
