import Verif.Spec.Desc
/-
What `convert` reads from any well nested meta data, said on trees: without positions in a list of
tokens, attempts and cut offs.
-/
namespace Verif.Spec

/-- One item of well nested meta data: a value, or a node with the items in it. -/
inductive Piece where
  | bool (name : Str) (val : Bool)
  | string (name val : Str)
  | f64 (name : Str) (val : F64)
  | node (name : Str) (kids : List Piece)

mutual
/-- The meta data of an item. -/
def Piece.data : Piece → List MetaData
  | .bool n v => [.bool n v]
  | .string n v => [.string n v]
  | .f64 n v => [.f64 n v]
  | .node n ks => nodeOf n (Piece.dataL ks)
/-- The meta data of items, one after the other. -/
def Piece.dataL : List Piece → List MetaData
  | [] => []
  | k :: ks => k.data ++ Piece.dataL ks
end

/-- How many tokens an item takes. -/
def Piece.size (k : Piece) : Nat := k.data.length

/-! ### Fields -/

/-- The value of a field named `p`. -/
def Piece.bool? (p : Str) : Piece → Option Bool
  | .bool q v => if q = p then some v else none
  | _ => none
def Piece.string? (p : Str) : Piece → Option Str
  | .string q v => if q = p then some v else none
  | _ => none
def Piece.f64? (p : Str) : Piece → Option F64
  | .f64 q v => if q = p then some v else none
  | _ => none

/-- `value` is a text, `ref` is the name of a string that has to be defined. -/
def Piece.setVal (strings : List (Str × Str)) (k : Piece) : Option (Option Str) :=
  match k.string? c!"ref", k.string? c!"value" with
  | some s, _ => some (strings.lookup s)
  | none, some s => some (some s)
  | none, none => none

/-- The text in a node named `p`: nothing but `value` and `ref`, and the last of them counts. -/
def Piece.set? (strings : List (Str × Str)) (p : Str) : Piece → Option Str
  | .node q ks =>
    if q = p ∧ ∀ k ∈ ks, (k.setVal strings).isSome then (ks.getLast?.bind (·.setVal strings)).join else none
  | _ => none

/-- The value of the field named `p`, if there is just that. -/
def onlyBool (p : Str) : List Piece → Option Bool
  | [k] => k.bool? p
  | _ => none

/-- The last of some items that has a value. -/
def lastOf {α : Type} (f : Piece → Option α) (ks : List Piece) : Option α := (ks.filterMap f).getLast?

/-- The ranges of the items that have no value; the first item is at `off`. -/
def unread (known : Piece → Bool) : List Piece → (off : Nat) → List Range
  | [], _ => []
  | k :: ks, off => (if known k then [] else [⟨off, k.size⟩]) ++ unread known ks (off + k.size)

/-! ### Rules -/

/-- What is read as a rule: the rule, if there is one, the last id used, and the ranges of the items
that are ignored. -/
abbrev RuleRead := Option Rule × Nat × List Range

/-- A rule that needs a text. -/
def withText (text : Option Str) (i : Nat) (l : List Range) (f : Str → Nat → Rule) : RuleRead :=
  match text with
  | some t => (some (f t (i + 1)), i + 1, l)
  | none => (none, i, l)

/-- A rule that needs a part. -/
def withPart (x : RuleRead) (f : Rule → Nat → Rule) : RuleRead :=
  match x with
  | (some r, i, l) => (some (f r (i + 1)), i + 1, l)
  | (none, i, l) => (none, i, l)

/-- The last part with this name. -/
def lastPart (p : Str) (rs : List (Str × Rule)) : Option Rule :=
  ((rs.filter fun x => x.1 = p).getLast?).map (·.2)

section
variable (strings : List (Str × Str))

/-- The fields of `until_any_or_whitespace` and `until_any`. -/
def untilField (k : Piece) : Bool :=
  (k.set? strings c!"any_characters").isSome || (k.bool? c!"optional").isSome ||
  (k.set? strings c!"property").isSome
/-- The fields of `tag`. -/
def tagField (k : Piece) : Bool :=
  (k.set? strings c!"text").isSome || (k.set? strings c!"property").isSome ||
  (k.bool? c!"not").isSome || (k.bool? c!"inverted").isSome
/-- The fields of `text`. -/
def textField (k : Piece) : Bool := (k.bool? c!"allow_empty").isSome || (k.set? strings c!"property").isSome
/-- The fields of `number`. -/
def numberField (k : Piece) : Bool := (k.set? strings c!"property").isSome || (k.bool? c!"underscore").isSome
/-- The fields of `reference`. -/
def referenceField (k : Piece) : Bool := (k.string? c!"name").isSome || (k.set? strings c!"property").isSome

/-- A rule without parts: its name, the items in it, the position of the first of them, the last id
used before.  `none` if there is no such rule. -/
def plainRule (name : Str) (ks : List Piece) (off i : Nat) : Option RuleRead :=
  if name = c!"whitespace" then
    some (match onlyBool c!"optional" ks with
      | some o => (some (.whitespace o (i + 1)), i + 1, [])
      | none => (none, i, []))
  else if name = c!"until_any_or_whitespace" then
    some (withText (lastOf (·.set? strings c!"any_characters") ks) i (unread (untilField strings) ks off) fun t id =>
      .untilAnyOrWs t ((lastOf (·.bool? c!"optional") ks).getD false) (lastOf (·.set? strings c!"property") ks) id)
  else if name = c!"until_any" then
    some (withText (lastOf (·.set? strings c!"any_characters") ks) i (unread (untilField strings) ks off) fun t id =>
      .untilAny t ((lastOf (·.bool? c!"optional") ks).getD false) (lastOf (·.set? strings c!"property") ks) id)
  else if name = c!"tag" then
    some (withText (lastOf (·.set? strings c!"text") ks) i (unread (tagField strings) ks off) fun t id =>
      .tag t ((lastOf (·.bool? c!"not") ks).getD false) ((lastOf (·.bool? c!"inverted") ks).getD false)
        (lastOf (·.set? strings c!"property") ks) id)
  else if name = c!"text" then
    some (some (.text ((lastOf (·.bool? c!"allow_empty") ks).getD true) (lastOf (·.set? strings c!"property") ks)
      (i + 1)), i + 1, unread (textField strings) ks off)
  else if name = c!"number" then
    some (some (.number (lastOf (·.set? strings c!"property") ks) ((lastOf (·.bool? c!"underscore") ks).getD false)
      (i + 1)), i + 1, unread (numberField strings) ks off)
  else if name = c!"reference" then
    some (withText (lastOf (·.string? c!"name") ks) i (unread (referenceField strings) ks off) fun t id =>
      .node t (lastOf (·.set? strings c!"property") ks) none id)
  else none

/-- The fields of `separated_by` that are not rules. -/
def separatedField (k : Piece) : Bool := (k.bool? c!"optional").isSome || (k.bool? c!"allow_trail").isSome
/-- The field of `repeat` that is not a rule. -/
def repeatField (k : Piece) : Bool := (k.bool? c!"optional").isSome

mutual
/-- The rule that an item at `off` stands for. -/
def Piece.rule : Piece → (off i : Nat) → RuleRead
  | .node name ks, off, i =>
    match plainRule strings name ks (off + 1) i with
    | some x => x
    | none =>
      if name = c!"sequence" then
        let x := Piece.parts [c!"rule"] (fun _ => false) ks (off + 1) i
        (some (.sequence (x.1.map (·.2)) (x.2.1 + 1)), x.2.1 + 1, x.2.2)
      else if name = c!"select" then
        let x := Piece.parts [c!"rule"] (fun _ => false) ks (off + 1) i
        (some (.select (x.1.map (·.2)) (x.2.1 + 1)), x.2.1 + 1, x.2.2)
      else if name = c!"optional" then
        withPart (Piece.one ks (off + 1) i) .optional
      else if name = c!"not" then
        withPart (Piece.one ks (off + 1) i) .not
      else if name = c!"separated_by" then
        let x := Piece.parts [c!"by", c!"rule"] separatedField ks (off + 1) i
        match lastPart c!"by" x.1, lastPart c!"rule" x.1 with
        | some b, some r =>
          (some (.separateBy r b ((lastOf (·.bool? c!"optional") ks).getD true)
            ((lastOf (·.bool? c!"allow_trail") ks).getD true) (x.2.1 + 1)), x.2.1 + 1, x.2.2)
        | _, _ => (none, x.2)
      else if name = c!"lines" then
        match ks with
        | .bool q v :: ks =>
          if q = c!"indent" then withPart (Piece.one ks (off + 2) i) fun r id => .lines r v id else (none, i, [])
        | k :: ks => withPart (Piece.one (k :: ks) (off + 1) i) fun r id => .lines r false id
        | [] => (none, i, [])
      else if name = c!"repeat" then
        let x := Piece.parts [c!"rule"] repeatField ks (off + 1) i
        match lastPart c!"rule" x.1, lastOf (·.bool? c!"optional") ks with
        | some r, some o => (some (.repeat_ r o (x.2.1 + 1)), x.2.1 + 1, x.2.2)
        | _, _ => (none, x.2)
      else (none, i, [])
  | _, _, i => (none, i, [])
/-- The rule in a node with one of the names `ps`; nothing else may be in there. -/
def Piece.held (ps : List Str) : Piece → (off i : Nat) → RuleRead
  | .node q ks, off, i => if q ∈ ps then Piece.single ks (off + 1) i else (none, i, [])
  | _, _, i => (none, i, [])
/-- The rule, if there is just one item.  A rule that is followed by something is read in vain. -/
def Piece.single : List Piece → (off i : Nat) → RuleRead
  | [], _, i => (none, i, [])
  | k :: ks, off, i => (if ks.isEmpty then (k.rule off i).1 else none, (k.rule off i).2)
/-- The rule in the node `rule`, if there is just that. -/
def Piece.one : List Piece → (off i : Nat) → RuleRead
  | [], _, i => (none, i, [])
  | k :: ks, off, i => (if ks.isEmpty then (k.held [c!"rule"] off i).1 else none, (k.held [c!"rule"] off i).2)
/-- All the rules in nodes with names `ps`, with these names.  The fields `own` are not ignored. -/
def Piece.parts (ps : List Str) (own : Piece → Bool) : List Piece → (off i : Nat) → List (Str × Rule) × Nat × List Range
  | [], _, i => ([], i, [])
  | k :: ks, off, i =>
    if own k then Piece.parts ps own ks (off + k.size) i
    else
      let x := k.held ps off i
      let y := Piece.parts ps own ks (off + k.size) x.2.1
      match x.1, k with
      | some r, .node q _ => ((q, r) :: y.1, y.2.1, x.2.2 ++ y.2.2)
      | _, _ => (y.1, y.2.1, x.2.2 ++ ⟨off, k.size⟩ :: y.2.2)
end

/-! ### Nodes -/

/-- What is known of a node: its number, its name, its rule; the largest id used and the ranges of the
items that are ignored. -/
structure NodeRead where
  num : Option Nat := none
  name : Option Str := none
  rule : Option Rule := none
  top : Nat := 0
  ignored : List Range := []

/-- One item in a node.  Everything that is not an id or a name is tried as a rule, with ids after 1000
times the last number seen. -/
def NodeRead.add (s : NodeRead) (k : Piece) (off : Nat) : NodeRead :=
  match k.f64? c!"id", k.string? c!"name" with
  | some v, _ => { s with num := some v.toUsize }
  | none, some v => { s with name := some v }
  | none, none =>
    let x := k.held strings [c!"rule"] off (s.num.getD 0 * 1000)
    { s with
      rule := x.1.or s.rule
      top := max s.top x.2.1
      ignored := s.ignored ++ x.2.2 ++ if x.1.isSome then [] else [⟨off, k.size⟩] }

/-- The items in a node. -/
def NodeRead.addAll : NodeRead → List Piece → (off : Nat) → NodeRead
  | s, [], _ => s
  | s, k :: ks, off => NodeRead.addAll (s.add strings k off) ks (off + k.size)

/-- What is read of an item as a node. -/
def Piece.nodeRead : Piece → (off : Nat) → NodeRead
  | .node q ks, off => if q = c!"node" then NodeRead.addAll strings {} ks (off + 1) else {}
  | _, _ => {}

/-- A node needs a name and a rule. -/
def NodeRead.named (s : NodeRead) : Option (Str × Rule) :=
  match s.name, s.rule with
  | some n, some r => some (n, r)
  | _, _ => none

/-- The nodes up to the first that is none: the named rules if all are nodes, the largest id used, the
ranges of the items that are ignored. -/
def nodeReads : List Piece → (off : Nat) → Option (List (Str × Rule)) × Nat × List Range
  | [], _ => (some [], 0, [])
  | k :: ks, off =>
    let x := k.nodeRead strings off
    match x.named with
    | none => (none, x.top, x.ignored)
    | some d =>
      let y := nodeReads ks (off + k.size)
      (y.1.map (d :: ·), max x.top y.2.1, x.ignored ++ y.2.2)

end

/-- The definition of a string: nothing but `name` and `text`, the last of each counts. -/
def Piece.stringDef : Piece → Option (Str × Str)
  | .node q ks =>
    if q = c!"string" ∧ ∀ k ∈ ks, (k.string? c!"name").isSome ∨ (k.string? c!"text").isSome then
      match lastOf (·.string? c!"name") ks, lastOf (·.string? c!"text") ks with
      | some n, some t => some (n, t)
      | _, _ => none
    else none
  | _ => none

/-- The strings defined at the beginning. -/
def stringDefs (ks : List Piece) : List (Str × Str) :=
  (ks.takeWhile (·.stringDef.isSome)).filterMap (·.stringDef)

/-- What `convert` reads. -/
def pieceReads (ks : List Piece) : Option (List (Str × Rule)) × Nat × List Range :=
  nodeReads (stringDefs ks) (ks.dropWhile (·.stringDef.isSome))
    (Piece.dataL (ks.takeWhile (·.stringDef.isSome))).length

end Verif.Spec
