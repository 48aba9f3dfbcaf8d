import Verif.Spec.Desc
/-
What assets/self-syntax.txt says, as a document.
-/
namespace Verif.Spec

/-- The strings defined there. -/
def selfDefs : List (Str × Str) := [
  (c!"opt", c!"optional"),
  (c!"inv", c!"inverted"),
  (c!"prop", c!"property"),
  (c!"any", c!"any_characters"),
  (c!"seps", c!"[]{}():.!?\"")]

/-- The nodes, with the digits of their numbers, and the numbers. -/
def selfRules : List (Str × F64 × Str × Desc) := [
  (c!"0", ⟨0⟩, c!"multi_line_comment",
    .sequence [.tag none (.value c!"/*") none none, .untilAny (.value c!"*/") (some true) none,
      .repeat_ true (.select [.sequence [.tag (some true) (.value c!"*/") none none, .tag none
      (.value c!"*") none none, .untilAny (.value c!"*/") (some true) none], .sequence [.reference
      c!"multi_line_comment" none, .untilAny (.value c!"*/") (some true) none], .sequence [.tag none
      (.value c!"/") none none, .untilAny (.value c!"*/") (some true) none]]), .tag none (.value
      c!"*/") none none]),
  (c!"1", ⟨0x3ff0000000000000⟩, c!"comment",
    .select [.reference c!"multi_line_comment" none, .sequence [.tag none (.value c!"//") none
      none, .untilAny (.value c!"\n") (some true) none]]),
  (c!"2", ⟨0x4000000000000000⟩, c!"string",
    .sequence [.tag none (.value c!"_") none none, .untilAnyOrWs (.ref c!"seps") (some false)
      (some (.value c!"name")), .tag none (.value c!":") none none, .whitespace true, .text (some
      true) (some (.value c!"text"))]),
  (c!"3", ⟨0x4008000000000000⟩, c!"node",
    .sequence [.number none (some (.value c!"id")), .whitespace false, .tag (some true) (.value
      c!"_") none none, .tag (some true) (.value c!".") none none, .untilAnyOrWs (.ref c!"seps")
      (some false) (some (.value c!"name")), .whitespace true, .tag none (.value c!"=") none none,
      .whitespace true, .reference c!"rule" (some (.value c!"rule"))]),
  (c!"4", ⟨0x4010000000000000⟩, c!"set",
    .select [.text (some false) (some (.value c!"value")), .sequence [.tag none (.value c!"_")
      none none, .untilAnyOrWs (.ref c!"seps") (some false) (some (.value c!"ref"))]]),
  (c!"5", ⟨0x4014000000000000⟩, c!"set_opt",
    .select [.text (some true) (some (.value c!"value")), .sequence [.tag none (.value c!"_") none
      none, .untilAnyOrWs (.ref c!"seps") (some false) (some (.value c!"ref"))]]),
  (c!"6", ⟨0x4018000000000000⟩, c!"opt",
    .select [.tag none (.value c!"?") none (some (.ref c!"opt")), .tag none (.value c!"!") (some
      true) (some (.ref c!"opt"))]),
  (c!"7", ⟨0x401c000000000000⟩, c!"number",
    .sequence [.tag none (.value c!".$") none none, .optional (.tag none (.value c!"_") none (some
      (.value c!"underscore"))), .optional (.sequence [.tag none (.value c!":") none none,
      .reference c!"set" (some (.ref c!"prop"))])]),
  (c!"8", ⟨0x4020000000000000⟩, c!"text",
    .sequence [.tag none (.value c!".t") none none, .select [.tag none (.value c!"?") none (some
      (.value c!"allow_empty")), .tag none (.value c!"!") (some true) (some (.value
      c!"allow_empty"))], .optional (.sequence [.tag none (.value c!":") none none, .reference
      c!"set" (some (.ref c!"prop"))])]),
  (c!"9", ⟨0x4022000000000000⟩, c!"reference",
    .sequence [.tag (some true) (.value c!"_") none none, .tag (some true) (.value c!".") none
      none, .untilAnyOrWs (.ref c!"seps") (some false) (some (.value c!"name")), .optional
      (.sequence [.tag none (.value c!":") none none, .reference c!"set" (some (.ref c!"prop"))])]),
  (c!"10", ⟨0x4024000000000000⟩, c!"sequence",
    .sequence [.tag none (.value c!"[") none none, .whitespace true, .separatedBy (some false)
      (some true) (.whitespace false) (.reference c!"rule" (some (.value c!"rule"))), .tag none
      (.value c!"]") none none]),
  (c!"11", ⟨0x4026000000000000⟩, c!"select",
    .sequence [.tag none (.value c!"{") none none, .whitespace true, .separatedBy (some false)
      (some true) (.whitespace false) (.reference c!"rule" (some (.value c!"rule"))), .tag none
      (.value c!"}") none none]),
  (c!"12", ⟨0x4028000000000000⟩, c!"separated_by",
    .sequence [.tag none (.value c!".s") none none, .reference c!"opt" none, .optional (.tag none
      (.value c!".") none (some (.value c!"allow_trail"))), .tag none (.value c!"(") none none,
      .whitespace true, .reference c!"rule" (some (.value c!"by")), .whitespace false, .reference
      c!"rule" (some (.value c!"rule")), .whitespace true, .tag none (.value c!")") none none]),
  (c!"13", ⟨0x402a000000000000⟩, c!"tag",
    .sequence [.optional (.tag none (.value c!"!") none (some (.value c!"not"))), .reference
      c!"set" (some (.value c!"text")), .optional (.sequence [.tag none (.value c!":") none none,
      .optional (.tag none (.value c!"!") none (some (.ref c!"inv"))), .reference c!"set" (some
      (.ref c!"prop"))])]),
  (c!"14", ⟨0x402c000000000000⟩, c!"optional",
    .sequence [.tag none (.value c!"?") none none, .reference c!"rule" (some (.value c!"rule"))]),
  (c!"15", ⟨0x402e000000000000⟩, c!"not",
    .sequence [.tag none (.value c!"!") none none, .reference c!"rule" (some (.value c!"rule"))]),
  (c!"16", ⟨0x4030000000000000⟩, c!"whitespace",
    .sequence [.tag none (.value c!".w") none none, .reference c!"opt" none]),
  (c!"17", ⟨0x4031000000000000⟩, c!"until_any_or_whitespace",
    .sequence [.tag none (.value c!"..") none none, .reference c!"set_opt" (some (.ref c!"any")),
      .reference c!"opt" none, .optional (.sequence [.tag none (.value c!":") none none, .reference
      c!"set" (some (.ref c!"prop"))])]),
  (c!"18", ⟨0x4032000000000000⟩, c!"until_any",
    .sequence [.tag none (.value c!"...") none none, .reference c!"set_opt" (some (.ref c!"any")),
      .reference c!"opt" none, .optional (.sequence [.tag none (.value c!":") none none, .reference
      c!"set" (some (.ref c!"prop"))])]),
  (c!"19", ⟨0x4033000000000000⟩, c!"repeat",
    .sequence [.tag none (.value c!".r") none none, .reference c!"opt" none, .tag none (.value
      c!"(") none none, .reference c!"rule" (some (.value c!"rule")), .tag none (.value c!")") none
      none]),
  (c!"20", ⟨0x4034000000000000⟩, c!"lines",
    .sequence [.tag none (.value c!".l") none none, .optional (.tag none (.value c!"+") none (some
      (.value c!"indent"))), .tag none (.value c!"(") none none, .whitespace true, .reference
      c!"rule" (some (.value c!"rule")), .whitespace true, .tag none (.value c!")") none none]),
  (c!"21", ⟨0x4035000000000000⟩, c!"rule",
    .select [.reference c!"whitespace" (some (.value c!"whitespace")), .reference
      c!"until_any_or_whitespace" (some (.value c!"until_any_or_whitespace")), .reference
      c!"until_any" (some (.value c!"until_any")), .reference c!"lines" (some (.value c!"lines")),
      .reference c!"repeat" (some (.value c!"repeat")), .reference c!"number" (some (.value
      c!"number")), .reference c!"text" (some (.value c!"text")), .reference c!"reference" (some
      (.value c!"reference")), .reference c!"sequence" (some (.value c!"sequence")), .reference
      c!"select" (some (.value c!"select")), .reference c!"separated_by" (some (.value
      c!"separated_by")), .reference c!"tag" (some (.value c!"tag")), .reference c!"optional" (some
      (.value c!"optional")), .reference c!"not" (some (.value c!"not"))]),
  (c!"22", ⟨0x4036000000000000⟩, c!"document",
    .sequence [.lines none (.sequence [.whitespace true, .select [.reference c!"string" (some
      (.value c!"string")), .reference c!"comment" none]]), .lines none (.sequence [.whitespace
      true, .select [.reference c!"node" (some (.value c!"node")), .reference c!"comment" none]]),
      .whitespace true])]

/-- The document. -/
def selfDoc : Doc := ⟨selfDefs, selfRules.map (·.2)⟩

/-- The rules of version 1.0: `lines` knows no `.l+`. -/
def selfRules10 : List (Str × F64 × Str × Desc) :=
  selfRules.set 20 (c!"20", ⟨0x4034000000000000⟩, c!"lines",
    .sequence [.tag none (.value c!".l(") none none, .whitespace true, .reference c!"rule" (some
      (.value c!"rule")), .whitespace true, .tag none (.value c!")") none none])

/-- The document of version 1.0. -/
def selfDoc10 : Doc := ⟨selfDefs, selfRules10.map (·.2)⟩

end Verif.Spec
