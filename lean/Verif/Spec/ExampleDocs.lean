import Verif.Spec.Desc
/-
What the rules in examples/ say, as documents.
-/
namespace Verif.Spec

/-- The nodes of the rules of examples/hello_world.rs, with the digits of their numbers. -/
def helloNodes : List (Str × F64 × Str × Desc) := [
  (c!"1", ⟨0x3ff0000000000000⟩, c!"say_hi",
    .sequence [.tag none (.value c!"hi") none none, .whitespace true, .select [.tag none (.value
      c!"James") none (some (.value c!"james")), .tag none (.value c!"Peter") none (some (.value
      c!"peter"))], .tag none (.value c!"!") none none]),
  (c!"2", ⟨0x4000000000000000⟩, c!"document",
    .reference c!"say_hi" none)]

/-- The rules of examples/hello_world.rs, as a document. -/
def helloDoc : Doc := ⟨[], helloNodes.map (·.2)⟩

/-- The nodes of the rules of examples/indent.rs, with the digits of their numbers. -/
def indentNodes : List (Str × F64 × Str × Desc) := [
  (c!"2", ⟨0x4000000000000000⟩, c!"node",
    .sequence [.number none (some (.value c!"num")), .lines (some true) (.reference c!"node" (some
      (.value c!"node")))]),
  (c!"1", ⟨0x3ff0000000000000⟩, c!"document",
    .sequence [.whitespace true, .reference c!"node" (some (.value c!"node")), .whitespace true])]

/-- The rules of examples/indent.rs, as a document. -/
def indentDoc : Doc := ⟨[], indentNodes.map (·.2)⟩

/-- The nodes of the rules of examples/neg_match.rs, with the digits of their numbers. -/
def negNodes : List (Str × F64 × Str × Desc) := [
  (c!"1", ⟨0x3ff0000000000000⟩, c!"document",
    .sequence [.tag (some true) (.value c!"hi") none (some (.value c!"hi_did_not_occured")),
      .untilAny (.value c!"") (some true) none])]

/-- The rules of examples/neg_match.rs, as a document. -/
def negDoc : Doc := ⟨[], negNodes.map (·.2)⟩

/-- The nodes of the rules of examples/key_value.rs, with the digits of their numbers. -/
def keyValueNodes : List (Str × F64 × Str × Desc) := [
  (c!"0", ⟨0⟩, c!"document",
    .lines none (.select [.sequence [.whitespace true, .tag none (.value c!"#") none none,
      .untilAny (.value c!"\n") (some true) none], .sequence [.whitespace true, .untilAnyOrWs
      (.value c!"=") (some false) (some (.value c!"key")), .whitespace true, .tag none (.value
      c!"=") none none, .whitespace true, .select [.number (some true) (some (.value c!"number")),
      .select [.tag none (.value c!"true") none (some (.value c!"bool")), .tag none (.value
      c!"false") (some true) (some (.value c!"bool"))], .text (some true) (some (.value
      c!"string")), .untilAnyOrWs (.value c!"") (some false) (some (.value c!"value"))], .whitespace
      true]]))]

/-- The rules of examples/key_value.rs, as a document. -/
def keyValueDoc : Doc := ⟨[], keyValueNodes.map (·.2)⟩

/-- The nodes of assets/old-syntax.txt, with the digits of their numbers. -/
def oldNodes : List (Str × F64 × Str × Desc) := [
  (c!"1", ⟨0x3ff0000000000000⟩, c!"string",
    .sequence [.whitespace true, .untilAnyOrWs (.ref c!"seps") (some false) (some (.value
      c!"name")), .tag none (.value c!":") none none, .whitespace true, .text (some true) (some
      (.value c!"text"))]),
  (c!"2", ⟨0x4000000000000000⟩, c!"node",
    .sequence [.whitespace true, .number none (some (.value c!"id")), .whitespace false, .text
      (some false) (some (.value c!"name")), .whitespace false, .reference c!"rule" (some (.value
      c!"rule"))]),
  (c!"3", ⟨0x4008000000000000⟩, c!"set",
    .select [.text (some false) (some (.value c!"value")), .untilAnyOrWs (.ref c!"seps") (some
      false) (some (.value c!"ref"))]),
  (c!"4", ⟨0x4010000000000000⟩, c!"set_opt",
    .select [.text (some true) (some (.value c!"value")), .untilAnyOrWs (.ref c!"seps") (some
      false) (some (.value c!"ref"))]),
  (c!"5", ⟨0x4014000000000000⟩, c!"opt",
    .select [.tag none (.value c!"?") none (some (.ref c!"opt")), .tag none (.value c!"!") (some
      true) (some (.ref c!"opt"))]),
  (c!"6", ⟨0x4018000000000000⟩, c!"number",
    .sequence [.tag none (.value c!"$") none none, .optional (.tag none (.value c!"_") none (some
      (.value c!"underscore"))), .optional (.reference c!"set" (some (.ref c!"prop")))]),
  (c!"7", ⟨0x401c000000000000⟩, c!"text",
    .sequence [.tag none (.value c!"t") none none, .select [.tag none (.value c!"?") none (some
      (.value c!"allow_empty")), .tag none (.value c!"!") (some true) (some (.value
      c!"allow_empty"))], .optional (.reference c!"set" (some (.ref c!"prop")))]),
  (c!"8", ⟨0x4020000000000000⟩, c!"reference",
    .sequence [.tag none (.value c!"@") none none, .text (some false) (some (.value c!"name")),
      .optional (.reference c!"set" (some (.ref c!"prop")))]),
  (c!"9", ⟨0x4022000000000000⟩, c!"sequence",
    .sequence [.tag none (.value c!"[") none none, .whitespace true, .separatedBy (some false)
      (some true) (.whitespace false) (.reference c!"rule" (some (.value c!"rule"))), .tag none
      (.value c!"]") none none]),
  (c!"10", ⟨0x4024000000000000⟩, c!"select",
    .sequence [.tag none (.value c!"{") none none, .whitespace true, .separatedBy (some false)
      (some true) (.whitespace false) (.reference c!"rule" (some (.value c!"rule"))), .tag none
      (.value c!"}") none none]),
  (c!"11", ⟨0x4026000000000000⟩, c!"separated_by",
    .sequence [.tag none (.value c!"s") none none, .reference c!"opt" none, .optional (.tag none
      (.value c!".") none (some (.value c!"allow_trail"))), .tag none (.value c!"(") none none,
      .whitespace true, .reference c!"rule" (some (.value c!"by")), .whitespace true, .tag none
      (.value c!")") none none, .whitespace true, .tag none (.value c!"{") none none, .whitespace
      true, .reference c!"rule" (some (.value c!"rule")), .whitespace true, .tag none (.value c!"}")
      none none]),
  (c!"12", ⟨0x4028000000000000⟩, c!"token",
    .sequence [.optional (.tag none (.value c!"!") none (some (.value c!"not"))), .reference
      c!"set" (some (.value c!"text")), .optional (.sequence [.optional (.tag none (.value c!"!")
      none (some (.ref c!"inv"))), .reference c!"set" (some (.ref c!"prop"))])]),
  (c!"13", ⟨0x402a000000000000⟩, c!"optional",
    .sequence [.tag none (.value c!"?") none none, .reference c!"rule" (some (.value c!"rule"))]),
  (c!"14", ⟨0x402c000000000000⟩, c!"whitespace",
    .sequence [.tag none (.value c!"w") none none, .reference c!"opt" none]),
  (c!"15", ⟨0x402e000000000000⟩, c!"until_any_or_whitespace",
    .sequence [.tag none (.value c!"..") none none, .reference c!"set_opt" (some (.ref c!"any")),
      .reference c!"opt" none, .optional (.reference c!"set" (some (.ref c!"prop")))]),
  (c!"16", ⟨0x4030000000000000⟩, c!"until_any",
    .sequence [.tag none (.value c!"...") none none, .reference c!"set_opt" (some (.ref c!"any")),
      .reference c!"opt" none, .optional (.reference c!"set" (some (.ref c!"prop")))]),
  (c!"17", ⟨0x4031000000000000⟩, c!"repeat",
    .sequence [.tag none (.value c!"r") none none, .reference c!"opt" none, .tag none (.value
      c!"(") none none, .reference c!"rule" (some (.value c!"rule")), .tag none (.value c!")") none
      none]),
  (c!"18", ⟨0x4032000000000000⟩, c!"lines",
    .sequence [.tag none (.value c!"l(") none none, .whitespace true, .reference c!"rule" (some
      (.value c!"rule")), .whitespace true, .tag none (.value c!")") none none]),
  (c!"19", ⟨0x4033000000000000⟩, c!"rule",
    .select [.reference c!"whitespace" (some (.value c!"whitespace")), .reference
      c!"until_any_or_whitespace" (some (.value c!"until_any_or_whitespace")), .reference
      c!"until_any" (some (.value c!"until_any")), .reference c!"lines" (some (.value c!"lines")),
      .reference c!"repeat" (some (.value c!"repeat")), .reference c!"number" (some (.value
      c!"number")), .reference c!"text" (some (.value c!"text")), .reference c!"reference" (some
      (.value c!"reference")), .reference c!"sequence" (some (.value c!"sequence")), .reference
      c!"select" (some (.value c!"select")), .reference c!"separated_by" (some (.value
      c!"separated_by")), .reference c!"token" (some (.value c!"tag")), .reference c!"optional"
      (some (.value c!"optional"))]),
  (c!"20", ⟨0x4034000000000000⟩, c!"document",
    .sequence [.lines none (.reference c!"string" (some (.value c!"string"))), .lines none
      (.reference c!"node" (some (.value c!"node"))), .whitespace true])]

/-- The strings of assets/old-syntax.txt. -/
def oldStrings : List (Str × Str) := [
  (c!"opt", c!"optional"),
  (c!"inv", c!"inverted"),
  (c!"prop", c!"property"),
  (c!"any", c!"any_characters"),
  (c!"seps", c!"[]{}():.!?\"")]

/-- Assets/old-syntax.txt, as a document. -/
def oldDoc : Doc := ⟨oldStrings, oldNodes.map (·.2)⟩

end Verif.Spec
