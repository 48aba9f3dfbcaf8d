import Verif.Model.Lexer
/-
The parser: src/tokenizer.rs, src/meta_rules/*.rs.

`Rule::parse` is recursive through references and can run for ever, so the model takes fuel:
`eval n` is the parser cut off at nesting depth (and loop length) `n`; `Out.timeout` means the cut
was reached.  A run of the real code corresponds to any `n` for which the result is not `timeout`
(`Verif.Proofs.Fuel` shows that they all agree).  `Out.panic` stands for a Rust panic (index out of
range, arithmetic overflow with overflow checks on).

`&mut` arguments (`tokens`, `indent_settings`) are passed in and returned in `St`.
-/
namespace Verif

/-- The mutable arguments of `Rule::parse`: `tokens` and `indent_settings`. -/
structure St where
  toks : List Tok
  ind : Indent
deriving DecidableEq, Repr, Inhabited

/-- `ParseResult<TokenizerState>` -- src/meta_rules/mod.rs:128-129.  A `TokenizerState`
(src/tokenizer.rs:22-29) is the number of items; `TokenizerState::new` is 0, and the parser does not
call it. -/
inductive Res where
  | ok (range : Range) (s : Nat) (err : Option RErr)
  | err (e : RErr)
deriving DecidableEq, Repr, Inhabited

/-- Outcome of a run: cut off, panic, or a result together with the mutated arguments. -/
inductive Out where
  | timeout
  | panic
  | ret (r : Res) (st : St)
deriving DecidableEq, Repr, Inhabited

/-- The type of `Rule::parse` with `refs` fixed. -/
abbrev Ev := Rule → St → Nat → Pos → Out

/-- `read_data` -- src/tokenizer.rs:10-20 (`Vec::truncate` is `List.take`). -/
def readData (toks : List Tok) (t : Tok) (s : Nat) : List Tok × Nat :=
  let toks := if s < toks.length then toks.take s else toks
  let toks := toks ++ [t]
  (toks, toks.length)

/-- `err_update` -- src/meta_rules/mod.rs:147-160.  `update` (mod.rs:131-142) is this together with
`Pos.consume`. -/
def errUpdate (err opt : Option RErr) : Option RErr :=
  match opt with
  | some o =>
    match err with
    | some e => if o.depth ≤ e.depth then some e else some o
    | none => some o
  | none => err

/-- `ret_err` -- src/meta_rules/mod.rs:165-176. -/
def retErr (a : RErr) (b : Option RErr) : RErr :=
  match b with
  | some b => if b.depth > a.depth then b else a
  | none => a

/-- `if let Some(name) = property { read_data(tokens, range.wrap(mk(name)), state) } else { state }`,
the pattern of tag.rs:49-61, 65-78, until_any.rs:40-50, until_any_or_whitespace.rs:41-51,
text.rs:45-54, number.rs:44-52, node.rs:56-64, 76-85. -/
def pushOpt (prop : Option Str) (mk : Str → MetaData) (r : Range) (st : St) (s : Nat) : St × Nat :=
  match prop with
  | some name =>
    let d := readData st.toks ⟨r, mk name⟩ s
    ({ st with toks := d.1 }, d.2)
  | none => (st, s)

/-- Success that emits one token if a property is set. -/
def emitOpt (prop : Option Str) (mk : Str → MetaData) (r : Range) (st : St) (s : Nat) : Out :=
  let d := pushOpt prop mk r st s
  .ret (.ok r d.2 none) d.1

/-- `Whitespace::parse` -- src/meta_rules/whitespace.rs:22-31 (and rule.rs:76-78). -/
def evalWhitespace (optional : Bool) (id : DebugId) (st : St) (s : Nat) (p : Pos) : Out :=
  let range := p.whitespace
  if range.length = 0 ∧ optional = false then .ret (.err ⟨range, .expectedWhitespace id⟩) st
  else .ret (.ok range s none) st

/-- `Tag::parse` -- src/meta_rules/tag.rs:37-85. -/
def evalTag (text : Str) (not inverted : Bool) (prop : Option Str) (id : DebugId)
    (st : St) (s : Nat) (p : Pos) : Out :=
  match p.tag text with
  | some range =>
    if not then .ret (.err ⟨range, .didNotExpectTag text id⟩) st
    else emitOpt prop (fun n => .bool n (!inverted)) range st s
  | none =>
    if not then emitOpt prop (fun n => .bool n (!inverted)) p.start st s
    else .ret (.err ⟨p.start, .expectedTag text id⟩) st

/-- `UntilAny::parse` -- src/meta_rules/until_any.rs:30-52. -/
def evalUntilAny (any : Str) (optional : Bool) (prop : Option Str) (id : DebugId)
    (st : St) (s : Nat) (p : Pos) : Out :=
  let range := p.untilAny any
  if range.length = 0 ∧ optional = false then .ret (.err ⟨range, .expectedSomething id⟩) st
  else emitOpt prop (fun n => .string n (p.rawString range.length)) range st s

/-- `UntilAnyOrWhitespace::parse` -- src/meta_rules/until_any_or_whitespace.rs:30-53. -/
def evalUntilAnyOrWs (any : Str) (optional : Bool) (prop : Option Str) (id : DebugId)
    (st : St) (s : Nat) (p : Pos) : Out :=
  let range := p.untilAnyOrWs any
  if range.length = 0 ∧ optional = false then .ret (.err ⟨range, .expectedSomething id⟩) st
  else emitOpt prop (fun n => .string n (p.rawString range.length)) range st s

/-- `Text::parse` -- src/meta_rules/text.rs:28-62. -/
def evalText (L : Lexer) (allowEmpty : Bool) (prop : Option Str) (id : DebugId)
    (st : St) (s : Nat) (p : Pos) : Out :=
  match L.str p.src with
  | some n =>
    if allowEmpty = false ∧ n = 2 then .ret (.err ⟨p.peek n, .emptyTextNotAllowed id⟩) st
    else
      match L.parseStr p.src n with
      | .error (r, e) => .ret (.err ⟨⟨p.off + r.offset, r.length⟩, .parseStringError e id⟩) st
      | .ok text => emitOpt prop (fun n => .string n text) (p.peek n) st s
  | none => .ret (.err ⟨p.start, .expectedText id⟩) st

/-- `Number::parse` -- src/meta_rules/number.rs:28-59. -/
def evalNumber (L : Lexer) (prop : Option Str) (underscore : Bool) (id : DebugId)
    (st : St) (s : Nat) (p : Pos) : Out :=
  match L.num underscore p.src with
  | some n =>
    match L.parseNum underscore p.src n with
    | .error e => .ret (.err ⟨p.peek n, .parseNumberError e id⟩) st
    | .ok val => emitOpt prop (fun n => .f64 n val) (p.peek n) st s
  | none => .ret (.err ⟨p.start, .expectedNumber id⟩) st

/-- `Select::parse` -- src/meta_rules/select.rs:28-55; the loop over `args` with the error
collected so far. -/
def evalSelect (ev : Ev) (id : DebugId) (s : Nat) (p : Pos) :
    List Rule → Option RErr → St → Out
  | [], none, st => .ret (.err ⟨p.start, .invalidRule .selectEmpty id⟩) st
  | [], some e, st => .ret (.err e) st
  | r :: rs, oe, st =>
    match ev r st s p with
    | .ret (.ok range s' err) st' => .ret (.ok (p.peek range.length) s' (errUpdate err oe)) st'
    | .ret (.err e) st' => evalSelect ev id s p rs (errUpdate (some e) oe) st'
    | .timeout => .timeout
    | .panic => .panic

/-- First byte of the UTF-8 encoding of a character: `ch.encode_utf8(&mut buf); buf[0]`. -/
def firstByte (c : Char) : UInt8 := (String.utf8EncodeChar c).headD 0

/-- `FastSelect::parse` -- src/meta_rules/fast_select.rs:44-111.  `args[ind]` and
`args[args.len()-1]` panic when out of range. -/
def evalFastSelect (ev : Ev) (table : UInt8 → UInt8) (args : List Rule) (tail : Bool)
    (id : DebugId) (st : St) (s : Nat) (p : Pos) : Out :=
  match p.src with
  | [] => .ret (.err ⟨p.start, .expectedSomething id⟩) st
  | ch :: _ =>
    let ind := table (firstByte ch)
    if tail then
      -- lines 71-81
      let tailRun (oe : Option RErr) (st : St) : Out :=
        match args.getLast? with
        | none => .panic
        | some sub =>
          match ev sub st s p with
          | .ret (.ok range s' err) st' =>
            .ret (.ok (p.peek range.length) s' (errUpdate err oe)) st'
          | .ret (.err e) st' => .ret (.err (retErr e oe)) st'
          | .timeout => .timeout
          | .panic => .panic
      if ind ≠ 255 then
        match args[ind.toNat]? with
        | none => .panic
        | some sub =>
          match ev sub st s p with
          | .ret (.ok range s' err) st' =>
            .ret (.ok (p.peek range.length) s' (errUpdate err none)) st'
          | .ret (.err e) st' => tailRun (errUpdate (some e) none) st'
          | .timeout => .timeout
          | .panic => .panic
      else tailRun none st
    else
      -- lines 87-109
      if ind ≠ 255 then
        match args[ind.toNat]? with
        | none => .panic
        | some sub =>
          match ev sub st s p with
          | .ret (.ok range s' err) st' => .ret (.ok (p.peek range.length) s' err) st'
          | .ret (.err e) st' => .ret (.err e) st'
          | .timeout => .timeout
          | .panic => .panic
      else .ret (.err ⟨p.start, .expectedSomething id⟩) st

/-- `Sequence::parse` -- src/meta_rules/sequence.rs:29-53; `start` is the position of the whole
sequence. -/
def evalSequence (ev : Ev) (start : Pos) :
    List Rule → Pos → Nat → Option RErr → St → Out
  | [], p, s, oe, st => .ret (.ok (p.subtract start) s oe) st
  | r :: rs, p, s, oe, st =>
    match ev r st s p with
    | .ret (.ok range s' err) st' =>
      evalSequence ev start rs (p.consume range.length) s' (errUpdate err oe) st'
    | .ret (.err e) st' => .ret (.err (retErr e oe)) st'
    | .timeout => .timeout
    | .panic => .panic

/-- `Repeat::parse` -- src/meta_rules/repeat.rs:31-62; the loop takes fuel. -/
def evalRepeat (ev : Ev) (rule : Rule) (optional : Bool) (start : Pos) :
    Nat → Bool → Pos → Nat → Option RErr → St → Out
  | 0, _, _, _, _, _ => .timeout
  | fuel + 1, first, p, s, oe, st =>
    match ev rule st s p with
    | .ret (.ok range s' err) st' =>
      evalRepeat ev rule optional start fuel false (p.consume range.length) s'
        (errUpdate err oe) st'
    | .ret (.err e) st' =>
      if first = true ∧ optional = false then .ret (.err (retErr e oe)) st'
      else .ret (.ok (p.subtract start) s (errUpdate (some e) oe)) st'
    | .timeout => .timeout
    | .panic => .panic

/-- `SeparateBy::parse` -- src/meta_rules/separate_by.rs:35-83; the loop takes fuel. -/
def evalSeparateBy (ev : Ev) (rule by_ : Rule) (optional allowTrail : Bool) (start : Pos) :
    Nat → Bool → Pos → Nat → Option RErr → St → Out
  | 0, _, _, _, _, _ => .timeout
  | fuel + 1, first, p, s, oe, st =>
    match ev rule st s p with
    | .ret (.err e) st' =>
      -- lines 51-61
      if (first = true ∧ optional = false) ∨ (first = false ∧ allowTrail = false) then
        .ret (.err (retErr e oe)) st'
      else .ret (.ok (p.subtract start) s (errUpdate (some e) oe)) st'
    | .ret (.ok range s1 err) st1 =>
      let p1 := p.consume range.length
      let oe1 := errUpdate err oe
      match ev by_ st1 s1 p1 with
      | .ret (.err e) st2 => .ret (.ok (p1.subtract start) s1 (errUpdate (some e) oe1)) st2
      | .ret (.ok range2 s2 err2) st2 =>
        evalSeparateBy ev rule by_ optional allowTrail start fuel false
          (p1.consume range2.length) s2 (errUpdate err2 oe1) st2
      | .timeout => .timeout
      | .panic => .panic
    | .timeout => .timeout
    | .panic => .panic

/-- `Node::parse` -- src/meta_rules/node.rs:34-89.  `refs[index]` panics when out of range. -/
def evalNode (ev : Ev) (refs : List Rule) (prop : Option Str) (index : Option Nat)
    (id : DebugId) (st : St) (s : Nat) (start : Pos) : Out :=
  match index with
  | none => .ret (.err ⟨start.start, .invalidRule .nodeNotUpdated id⟩) st
  | some i =>
    let d := pushOpt prop .startNode start.start st s
    match refs[i]? with
    | none => .panic
    | some rule =>
      match ev rule d.1 d.2 start with
      | .ret (.err e) st2 => .ret (.err (retErr e none)) st2
      | .ret (.ok range s2 err) st2 =>
        let p := start.consume range.length
        let range := p.subtract start
        let d2 := pushOpt prop .endNode range st2 s2
        .ret (.ok range d2.2 (errUpdate err none)) d2.1
      | .timeout => .timeout
      | .panic => .panic

/-- `Optional::parse` -- src/meta_rules/optional.rs:29-54 (and rule.rs:115-117). -/
def evalOptional (ev : Ev) (rule : Rule) (st : St) (s : Nat) (start : Pos) : Out :=
  match ev rule st s start with
  | .ret (.ok range s' err) st' =>
    .ret (.ok ((start.consume range.length).subtract start) s' (errUpdate err none)) st'
  | .ret (.err e) st' => .ret (.ok start.start s (some (retErr e none))) st'
  | .timeout => .timeout
  | .panic => .panic

/-- `Not::parse` -- src/meta_rules/not.rs:27-49. -/
def evalNot (ev : Ev) (rule : Rule) (id : DebugId) (st : St) (s : Nat) (p : Pos) : Out :=
  match ev rule st s p with
  | .ret (.ok range _ _) st' =>
    .ret (.err ⟨range, .didNotExpectTag (p.rawString range.length) id⟩) st'
  | .ret (.err _) st' => .ret (.ok p.start s none) st'
  | .timeout => .timeout
  | .panic => .panic

/-- Eat the current indentation -- src/meta_rules/lines.rs:49-64: `n` columns, a tab counting
`tab` columns.  Returns the number of characters eaten, or `none` when the line is shallower. -/
def eatIndent (tab : Nat) : List Char → Nat → Option Nat
  | _, 0 => some 0
  | [], _ + 1 => none
  | c :: cs, n + 1 =>
    if c = ' ' then (eatIndent tab cs n).map (· + 1)
    else if c = '\t' then
      if n + 1 ≤ tab then some 1 else (eatIndent tab cs (n + 1 - tab)).map (· + 1)
    else none

/-- Align to the first line -- src/meta_rules/lines.rs:67-77.  Returns the number of characters
eaten and the columns they add to the indentation. -/
def eatAlign (tab : Nat) : List Char → Nat × Nat
  | [] => (0, 0)
  | c :: cs =>
    if c = ' ' then let (k, w) := eatAlign tab cs; (k + 1, w + 1)
    else if c = '\t' then let (k, w) := eatAlign tab cs; (k + 1, w + tab)
    else (0, 0)

/-- The variables captured by the closure of `Lines::parse`: `state`, `opt_error`, `first`, and
the mutable arguments. -/
structure LineSt where
  s : Nat
  oe : Option RErr
  first : Bool
  st : St

/-- Result of one call of the closure. -/
inductive LineOut where
  | timeout
  | panic
  | ret (r : Option Range) (x : LineSt)

/-- The closure of `Lines::parse` without indentation -- src/meta_rules/lines.rs:115-127. -/
def lineClosure (ev : Ev) (rule : Rule) (x : LineSt) (p : Pos) : LineOut :=
  match ev rule x.st x.s p with
  | .ret (.err e) st' => .ret none { x with st := st', oe := errUpdate (some e) x.oe }
  | .ret (.ok range s' err) st' =>
    .ret (some range) { x with st := st', s := s', oe := errUpdate err x.oe }
  | .timeout => .timeout
  | .panic => .panic

/-- The second half of the closure of `Lines::parse` with indentation: run the rule one deeper --
src/meta_rules/lines.rs:85-103.  `p0` is the start of the line, `p` the position after the
indentation.  The `u32` increment panics on overflow. -/
def lineItem (ev : Ev) (rule : Rule) (x : LineSt) (p0 p : Pos) : LineOut :=
  let old := x.st.ind.indent
  if old + 1 ≥ 2 ^ 32 then .panic
  else
    match ev rule { x.st with ind := { x.st.ind with indent := old + 1 } } x.s p with
    | .ret (.err e) st' =>
      .ret none { x with
        st := { st' with ind := { st'.ind with indent := old } }
        oe := errUpdate (some e) x.oe }
    | .ret (.ok range s' err) st' =>
      let end_ := range.offset + range.length
      .ret (some ⟨p0.off, end_ - p0.off⟩) { x with
        st := { st' with ind := { st'.ind with indent := old } }
        s := s'
        oe := errUpdate err x.oe }
    | .timeout => .timeout
    | .panic => .panic

/-- The closure of `Lines::parse` with indentation -- src/meta_rules/lines.rs:45-104. -/
def lineClosureIndent (ev : Ev) (rule : Rule) (x : LineSt) (p0 : Pos) : LineOut :=
  match eatIndent x.st.ind.tabSpaces p0.src x.st.ind.indent with
  | none => .ret none x
  | some k =>
    let p := p0.consume k
    if x.first = true ∧ x.st.ind.alignFirst = true then
      let (k', w) := eatAlign x.st.ind.tabSpaces p.src
      let indent := x.st.ind.indent + w
      if indent ≥ 2 ^ 32 then .panic
      else
        lineItem ev rule
          { x with first := false, st := { x.st with ind := { x.st.ind with indent := indent } } }
          p0 (p.consume k')
    else
      match p.tag [' '] with
      | some _ => .ret none x
      | none => lineItem ev rule x p0 p

/-- `ReadToken::lines` (crate `read_token`): ask `lineNext` what to do, call the closure at the
start of a line, stop when it returns `None`.  Then `Lines::parse` -- src/meta_rules/lines.rs:105-113,
128-136 -- wraps the result.  `first`/`item` are the arguments of `lineNext`; the loop takes fuel. -/
def evalLines (L : Lexer) (closure : LineSt → Pos → LineOut) (id : DebugId) (start : Pos) :
    Nat → Bool → List Char → Pos → LineSt → Out
  | 0, _, _, _, _ => .timeout
  | fuel + 1, first, item, p, x =>
    match L.lineNext first item p.src with
    | .done k => .ret (.ok ((p.consume k).subtract start) x.s x.oe) x.st
    | .fail k => .ret (.err (retErr ⟨(p.consume k).start, .expectedNewLine id⟩ x.oe)) x.st
    | .call k =>
      let p := p.consume k
      match closure x p with
      | .ret none x' => .ret (.ok (p.subtract start) x'.s x'.oe) x'.st
      | .ret (some range) x' =>
        evalLines L closure id start fuel false (p.src.take range.length)
          (p.consume range.length) x'
      | .timeout => .timeout
      | .panic => .panic

/-- `Rule::parse` -- src/meta_rules/rule.rs:67-122, one level; `ev` parses the sub rules and
`fuel` bounds the loops. -/
def step (L : Lexer) (refs : List Rule) (ev : Ev) (fuel : Nat) : Ev :=
  fun rule st s p =>
    match rule with
    | .whitespace optional id => evalWhitespace optional id st s p
    | .tag text not inverted prop id => evalTag text not inverted prop id st s p
    | .untilAny any optional prop id => evalUntilAny any optional prop id st s p
    | .untilAnyOrWs any optional prop id => evalUntilAnyOrWs any optional prop id st s p
    | .text allowEmpty prop id => evalText L allowEmpty prop id st s p
    | .number prop underscore id => evalNumber L prop underscore id st s p
    | .select args id => evalSelect ev id s p args none st
    | .fastSelect table args tail id => evalFastSelect ev table args tail id st s p
    | .sequence args _ => evalSequence ev p args p s none st
    | .separateBy rule by_ optional allowTrail _ =>
      evalSeparateBy ev rule by_ optional allowTrail p fuel true p s none st
    | .repeat_ rule optional _ => evalRepeat ev rule optional p fuel true p s none st
    | .lines rule indent id =>
      evalLines L (if indent then lineClosureIndent ev rule else lineClosure ev rule) id p
        fuel true [] p ⟨s, none, true, st⟩
    | .node _ prop index id => evalNode ev refs prop index id st s p
    | .optional rule _ => evalOptional ev rule st s p
    | .not rule id => evalNot ev rule id st s p

/-- `Rule::parse` cut off at depth `n`. -/
def eval (L : Lexer) (refs : List Rule) : Nat → Ev
  | 0 => fun _ _ _ _ => .timeout
  | n + 1 => step L refs (eval L refs n) n

/-- Outcome of `parse`: `Ok(())`/`Err` together with the caller's vector afterwards. -/
inductive POut where
  | timeout
  | panic
  | ok (toks : List Tok)
  | err (e : RErr) (toks : List Tok)
deriving DecidableEq, Repr, Inhabited

/-- `parse_with_indent` -- src/meta_rules/mod.rs:58-88.  The indentation settings are cloned
(line 70), so the caller's copy does not change. -/
def parseWithIndent (L : Lexer) (n : Nat) (syn : Syntax) (text : Str) (toks : List Tok)
    (ind : Indent) : POut :=
  match syn.rules.getLast? with
  | none => .err ⟨Range.empty 0, .noRules⟩ toks
  | some rule =>
    match eval L syn.rules n rule ⟨toks, ind⟩ toks.length (Pos.new text 0) with
    | .ret (.ok range s oe) st =>
      if range.next < text.length then
        .err (retErr ⟨Range.empty range.next, .expectedEnd⟩ oe) st.toks
      else .ok (st.toks.take s)
    | .ret (.err e) st => .err e st.toks
    | .timeout => .timeout
    | .panic => .panic

/-- `parse` -- src/meta_rules/mod.rs:49-55. -/
def parse (L : Lexer) (n : Nat) (syn : Syntax) (text : Str) (toks : List Tok) : POut :=
  parseWithIndent L n syn text toks Indent.default

end Verif
