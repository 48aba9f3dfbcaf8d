import Verif.Model.Basic
/-
Rules as the meta language describes them, the meta data that stands for them -- in the shape of
assets/self-syntax.txt -- and the rules they mean.
-/
namespace Verif.Spec

/-- A text, or the name of a string defined above the nodes. -/
inductive SetV where
  | value (text : Str)
  | ref (name : Str)
deriving DecidableEq, Repr

/-- A rule with its strings by name and without ids.  An option that may be left out is `none`. -/
inductive Desc where
  | whitespace (optional : Bool)
  | untilAnyOrWs (any : SetV) (optional : Option Bool) (prop : Option SetV)
  | untilAny (any : SetV) (optional : Option Bool) (prop : Option SetV)
  | tag (neg : Option Bool) (text : SetV) (inverted : Option Bool) (prop : Option SetV)
  | text (allowEmpty : Option Bool) (prop : Option SetV)
  | number (underscore : Option Bool) (prop : Option SetV)
  | reference (name : Str) (prop : Option SetV)
  | sequence (args : List Desc)
  | select (args : List Desc)
  | optional (rule : Desc)
  | not (rule : Desc)
  | separatedBy (optional allowTrail : Option Bool) (by_ rule : Desc)
  | lines (indent : Option Bool) (rule : Desc)
  | repeat_ (optional : Bool) (rule : Desc)

/-- A whole syntax: the strings, and the numbered nodes. -/
structure Doc where
  strings : List (Str × Str)
  nodes : List (F64 × Str × Desc)

/-! ### Meta data -/

/-- A node around some data. -/
def nodeOf (name : Str) (body : List MetaData) : List MetaData :=
  .startNode name :: (body ++ [.endNode name])

def SetV.data (p : Str) : SetV → List MetaData
  | .value s => nodeOf p [.string c!"value" s]
  | .ref s => nodeOf p [.string c!"ref" s]

/-- An option that may be left out. -/
def flag (p : Str) : Option Bool → List MetaData
  | none => []
  | some b => [.bool p b]

/-- A property that may be left out. -/
def propData : Option SetV → List MetaData
  | none => []
  | some v => v.data c!"property"

mutual
def Desc.data : Desc → List MetaData
  | .whitespace o => nodeOf c!"whitespace" [.bool c!"optional" o]
  | .untilAnyOrWs any o p =>
    nodeOf c!"until_any_or_whitespace" (any.data c!"any_characters" ++ flag c!"optional" o ++ propData p)
  | .untilAny any o p =>
    nodeOf c!"until_any" (any.data c!"any_characters" ++ flag c!"optional" o ++ propData p)
  | .tag neg t inv p =>
    nodeOf c!"tag" (flag c!"not" neg ++ t.data c!"text" ++ flag c!"inverted" inv ++ propData p)
  | .text e p => nodeOf c!"text" (flag c!"allow_empty" e ++ propData p)
  | .number u p => nodeOf c!"number" (flag c!"underscore" u ++ propData p)
  | .reference name p => nodeOf c!"reference" (.string c!"name" name :: propData p)
  | .sequence args => nodeOf c!"sequence" (Desc.dataL args)
  | .select args => nodeOf c!"select" (Desc.dataL args)
  | .optional d => nodeOf c!"optional" (nodeOf c!"rule" d.data)
  | .not d => nodeOf c!"not" (nodeOf c!"rule" d.data)
  | .separatedBy o t b d =>
    nodeOf c!"separated_by"
      (flag c!"optional" o ++ flag c!"allow_trail" t ++ nodeOf c!"by" b.data ++ nodeOf c!"rule" d.data)
  | .lines i d => nodeOf c!"lines" (flag c!"indent" i ++ nodeOf c!"rule" d.data)
  | .repeat_ o d => nodeOf c!"repeat" (.bool c!"optional" o :: nodeOf c!"rule" d.data)
def Desc.dataL : List Desc → List MetaData
  | [] => []
  | d :: ds => nodeOf c!"rule" d.data ++ Desc.dataL ds
end

/-- The meta data of a document. -/
def Doc.data (doc : Doc) : List MetaData :=
  doc.strings.flatMap (fun s => nodeOf c!"string" [.string c!"name" s.1, .string c!"text" s.2]) ++
  doc.nodes.flatMap fun n =>
    nodeOf c!"node" (.f64 c!"id" n.1 :: .string c!"name" n.2.1 :: nodeOf c!"rule" n.2.2.data)

/-! ### Meaning -/

/-- The text: a name stands for its first definition. -/
def SetV.get (strings : List (Str × Str)) : SetV → Option Str
  | .value s => some s
  | .ref s => strings.lookup s

def propGet (strings : List (Str × Str)) : Option SetV → Option (Option Str)
  | none => some none
  | some v => (v.get strings).map some

mutual
/-- The rule, and the last id used, when ids start after `i`: first the parts in the order in which
they are written, then the rule itself.  `none` if a string is not defined. -/
def Desc.rule (strings : List (Str × Str)) : Desc → Nat → Option (Rule × Nat)
  | .whitespace o, i => some (.whitespace o (i + 1), i + 1)
  | .untilAnyOrWs any o p, i =>
    match any.get strings, propGet strings p with
    | some a, some p => some (.untilAnyOrWs a (o.getD false) p (i + 1), i + 1)
    | _, _ => none
  | .untilAny any o p, i =>
    match any.get strings, propGet strings p with
    | some a, some p => some (.untilAny a (o.getD false) p (i + 1), i + 1)
    | _, _ => none
  | .tag neg t inv p, i =>
    match t.get strings, propGet strings p with
    | some t, some p => some (.tag t (neg.getD false) (inv.getD false) p (i + 1), i + 1)
    | _, _ => none
  | .text e p, i =>
    match propGet strings p with
    | some p => some (.text (e.getD true) p (i + 1), i + 1)
    | none => none
  | .number u p, i =>
    match propGet strings p with
    | some p => some (.number p (u.getD false) (i + 1), i + 1)
    | none => none
  | .reference name p, i =>
    match propGet strings p with
    | some p => some (.node name p none (i + 1), i + 1)
    | none => none
  | .sequence args, i =>
    match Desc.ruleL strings args i with
    | some (rs, i) => some (.sequence rs (i + 1), i + 1)
    | none => none
  | .select args, i =>
    match Desc.ruleL strings args i with
    | some (rs, i) => some (.select rs (i + 1), i + 1)
    | none => none
  | .optional d, i =>
    match d.rule strings i with
    | some (r, i) => some (.optional r (i + 1), i + 1)
    | none => none
  | .not d, i =>
    match d.rule strings i with
    | some (r, i) => some (.not r (i + 1), i + 1)
    | none => none
  | .separatedBy o t b d, i =>
    match b.rule strings i with
    | none => none
    | some (b, i) =>
      match d.rule strings i with
      | some (r, i) => some (.separateBy r b (o.getD true) (t.getD true) (i + 1), i + 1)
      | none => none
  | .lines ind d, i =>
    match d.rule strings i with
    | some (r, i) => some (.lines r (ind.getD false) (i + 1), i + 1)
    | none => none
  | .repeat_ o d, i =>
    match d.rule strings i with
    | some (r, i) => some (.repeat_ r o (i + 1), i + 1)
    | none => none
def Desc.ruleL (strings : List (Str × Str)) : List Desc → Nat → Option (List Rule × Nat)
  | [], i => some ([], i)
  | d :: ds, i =>
    match d.rule strings i with
    | none => none
    | some (r, i) =>
      match Desc.ruleL strings ds i with
      | some (rs, i) => some (r :: rs, i)
      | none => none
end

/-- The nodes with their names, ids `1000 k + 1, ..` in the node with number `k`, and the largest
id of each. -/
def Doc.nodesOf (strings : List (Str × Str)) : List (F64 × Str × Desc) → Option (List (Str × Rule × Nat))
  | [] => some []
  | (k, name, d) :: ns =>
    match d.rule strings (k.toUsize * 1000), Doc.nodesOf strings ns with
    | some (r, i), some rs => some ((name, r, i) :: rs)
    | _, _ => none

/-! ### Undefined strings -/

/-- 1 if the name is not defined. -/
def SetV.missing (strings : List (Str × Str)) (v : SetV) : Nat := if (v.get strings).isSome then 0 else 1

def propMissing (strings : List (Str × Str)) : Option SetV → Nat
  | none => 0
  | some v => v.missing strings

/-- A rule that needs a text. -/
def needs (text : Option Str) (i m : Nat) (f : Str → Nat → Rule) : Option Rule × Nat × Nat :=
  match text with
  | some t => (some (f t (i + 1)), i + 1, m)
  | none => (none, i, m)

/-- A rule with one part. -/
def around (part : Option Rule × Nat × Nat) (f : Rule → Nat → Rule) : Option Rule × Nat × Nat :=
  match part with
  | (some r, i, m) => (some (f r (i + 1)), i + 1, m)
  | (none, i, m) => (none, i, m)

/-- One more is ignored if there is no rule. -/
def drop1 (x : Option Rule × Nat × Nat) : Nat := if x.1.isSome then x.2.2 else x.2.2 + 1

mutual
/-- What is read for a description when strings may be undefined: the rule if there is one, the
last id used, and how many items are ignored.  A property with an undefined name is ignored; a rule
without its text does not exist; a sequence or select consists of those of its rules that exist; any
other rule without one of its parts does not exist. -/
def Desc.read (strings : List (Str × Str)) : Desc → Nat → Option Rule × Nat × Nat
  | .whitespace o, i => (some (.whitespace o (i + 1)), i + 1, 0)
  | .untilAnyOrWs any o p, i =>
    needs (any.get strings) i (any.missing strings + propMissing strings p)
      fun t id => .untilAnyOrWs t (o.getD false) (p.bind (·.get strings)) id
  | .untilAny any o p, i =>
    needs (any.get strings) i (any.missing strings + propMissing strings p)
      fun t id => .untilAny t (o.getD false) (p.bind (·.get strings)) id
  | .tag neg t inv p, i =>
    needs (t.get strings) i (t.missing strings + propMissing strings p)
      fun t id => .tag t (neg.getD false) (inv.getD false) (p.bind (·.get strings)) id
  | .text e p, i =>
    (some (.text (e.getD true) (p.bind (·.get strings)) (i + 1)), i + 1, propMissing strings p)
  | .number u p, i =>
    (some (.number (p.bind (·.get strings)) (u.getD false) (i + 1)), i + 1, propMissing strings p)
  | .reference name p, i =>
    (some (.node name (p.bind (·.get strings)) none (i + 1)), i + 1, propMissing strings p)
  | .sequence args, i =>
    let x := Desc.readL strings args i
    (some (.sequence x.1 (x.2.1 + 1)), x.2.1 + 1, x.2.2)
  | .select args, i =>
    let x := Desc.readL strings args i
    (some (.select x.1 (x.2.1 + 1)), x.2.1 + 1, x.2.2)
  | .optional d, i => around (d.read strings i) .optional
  | .not d, i => around (d.read strings i) .not
  | .lines ind d, i => around (d.read strings i) fun r id => .lines r (ind.getD false) id
  | .repeat_ o d, i =>
    let x := d.read strings i
    around (x.1, x.2.1, drop1 x) fun r id => .repeat_ r o id
  | .separatedBy o t b d, i =>
    let x := b.read strings i
    let y := d.read strings x.2.1
    match x.1 with
    | none => (none, y.2.1, drop1 x + drop1 y)
    | some b => around (y.1, y.2.1, drop1 x + drop1 y) fun r id => .separateBy r b (o.getD true) (t.getD true) id
def Desc.readL (strings : List (Str × Str)) : List Desc → Nat → List Rule × Nat × Nat
  | [], i => ([], i, 0)
  | d :: ds, i =>
    let x := d.read strings i
    let y := Desc.readL strings ds x.2.1
    (x.1.toList ++ y.1, y.2.1, drop1 x + y.2.2)
end

/-- The nodes that are read, up to the first without a rule; then there is no syntax. -/
def Doc.read (strings : List (Str × Str)) : List (F64 × Str × Desc) → Option (List (Str × Rule)) × Nat
  | [] => (some [], 0)
  | (k, name, d) :: ns =>
    let x := d.read strings (k.toUsize * 1000)
    match x.1 with
    | none => (none, drop1 x)
    | some r =>
      let y := Doc.read strings ns
      (y.1.map ((name, r) :: ·), x.2.2 + y.2)

/-- The ids of a node are too large for a `usize`.  Nodes after the first without a rule are not
read. -/
def Doc.Overflow (strings : List (Str × Str)) : List (F64 × Str × Desc) → Prop
  | [] => False
  | (k, _, d) :: ns =>
    let x := d.read strings (k.toUsize * 1000)
    2 ^ 64 ≤ x.2.1 ∨ (x.1.isSome ∧ Doc.Overflow strings ns)

instance instDecidableOverflow (strings : List (Str × Str)) : ∀ ns, Decidable (Doc.Overflow strings ns)
  | [] => inferInstanceAs (Decidable False)
  | (k, _, d) :: ns =>
    have := instDecidableOverflow strings ns
    inferInstanceAs (Decidable (2 ^ 64 ≤ (d.read strings (k.toUsize * 1000)).2.1 ∨
      ((d.read strings (k.toUsize * 1000)).1.isSome ∧ Doc.Overflow strings ns)))

/-- The ids of a document are too large. -/
def Doc.Overflows (doc : Doc) : Prop := Doc.Overflow doc.strings doc.nodes

instance (doc : Doc) : Decidable doc.Overflows := instDecidableOverflow doc.strings doc.nodes

end Verif.Spec
