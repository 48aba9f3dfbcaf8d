import Verif.Model.Eval
/-
How often and how deep `Rule::parse` calls itself.

`subcalls` lists the calls of `Rule::parse` that one call makes, in order, each with its arguments.
It follows the control flow of Model/Eval.lean; the results of the calls are taken from `ev`.
Nothing is simplified beyond Model/Eval.lean.
-/
namespace Verif

/-- A call `rule.parse(tokens, state, read_token, refs, indent_settings)` -- src/meta_rules/rule.rs:67-74. -/
structure Call where
  rule : Rule
  st : St
  s : Nat
  p : Pos

/-- What the call comes to. -/
def Call.run (ev : Ev) (c : Call) : Out := ev c.rule c.st c.s c.p

/-- The calls of `Select::parse` -- src/meta_rules/select.rs:37-52 (line 38). -/
def selectCalls (ev : Ev) (s : Nat) (p : Pos) : List Rule → St → List Call
  | [], _ => []
  | r :: rs, st =>
    ⟨r, st, s, p⟩ ::
      match ev r st s p with
      | .ret (.err _) st' => selectCalls ev s p rs st'
      | _ => []

/-- The calls of `FastSelect::parse` -- src/meta_rules/fast_select.rs:60-109 (lines 60, 72 and 93). -/
def fastSelectCalls (ev : Ev) (table : UInt8 → UInt8) (args : List Rule) (tail : Bool) (st : St) (s : Nat)
    (p : Pos) : List Call :=
  match p.src with
  | [] => []
  | ch :: _ =>
    let ind := table (firstByte ch)
    let last (st : St) : List Call :=
      if tail then
        match args.getLast? with
        | none => []
        | some sub => [⟨sub, st, s, p⟩]
      else []
    if ind ≠ 255 then
      match args[ind.toNat]? with
      | none => []
      | some sub =>
        ⟨sub, st, s, p⟩ ::
          match ev sub st s p with
          | .ret (.err _) st' => last st'
          | _ => []
    else last st

/-- The calls of `Sequence::parse` -- src/meta_rules/sequence.rs:41-51 (line 42). -/
def sequenceCalls (ev : Ev) : List Rule → Pos → Nat → St → List Call
  | [], _, _, _ => []
  | r :: rs, p, s, st =>
    ⟨r, st, s, p⟩ ::
      match ev r st s p with
      | .ret (.ok range s' _) st' => sequenceCalls ev rs (p.consume range.length) s' st'
      | _ => []

/-- The calls of `Repeat::parse` -- src/meta_rules/repeat.rs:44-60 (line 45). -/
def repeatCalls (ev : Ev) (rule : Rule) : Nat → Pos → Nat → St → List Call
  | 0, _, _, _ => []
  | fuel + 1, p, s, st =>
    ⟨rule, st, s, p⟩ ::
      match ev rule st s p with
      | .ret (.ok range s' _) st' => repeatCalls ev rule fuel (p.consume range.length) s' st'
      | _ => []

/-- The calls of `SeparateBy::parse` -- src/meta_rules/separate_by.rs:48-81 (lines 49 and 68). -/
def separateByCalls (ev : Ev) (rule by_ : Rule) : Nat → Pos → Nat → St → List Call
  | 0, _, _, _ => []
  | fuel + 1, p, s, st =>
    ⟨rule, st, s, p⟩ ::
      match ev rule st s p with
      | .ret (.ok range s1 _) st1 =>
        let p1 := p.consume range.length
        ⟨by_, st1, s1, p1⟩ ::
          match ev by_ st1 s1 p1 with
          | .ret (.ok range2 s2 _) st2 =>
            separateByCalls ev rule by_ fuel (p1.consume range2.length) s2 st2
          | _ => []
      | _ => []

/-- The call of the closure of `Lines::parse` without indentation -- src/meta_rules/lines.rs:115-127
(line 116). -/
def lineClosureCalls (rule : Rule) (x : LineSt) (p : Pos) : List Call := [⟨rule, x.st, x.s, p⟩]

/-- The call that `lineItem` makes -- src/meta_rules/lines.rs:85-103 (line 88). -/
def lineItemCalls (rule : Rule) (x : LineSt) (p : Pos) : List Call :=
  let old := x.st.ind.indent
  if old + 1 ≥ 2 ^ 32 then []
  else [⟨rule, { x.st with ind := { x.st.ind with indent := old + 1 } }, x.s, p⟩]

/-- The call of the closure of `Lines::parse` with indentation, if it comes to it --
src/meta_rules/lines.rs:45-104. -/
def lineClosureIndentCalls (rule : Rule) (x : LineSt) (p0 : Pos) : List Call :=
  match eatIndent x.st.ind.tabSpaces p0.src x.st.ind.indent with
  | none => []
  | some k =>
    let p := p0.consume k
    if x.first = true ∧ x.st.ind.alignFirst = true then
      let (k', w) := eatAlign x.st.ind.tabSpaces p.src
      let indent := x.st.ind.indent + w
      if indent ≥ 2 ^ 32 then []
      else
        lineItemCalls rule
          { x with first := false, st := { x.st with ind := { x.st.ind with indent := indent } } }
          (p.consume k')
    else
      match p.tag [' '] with
      | some _ => []
      | none => lineItemCalls rule x p

/-- The calls of `Lines::parse` -- src/meta_rules/lines.rs:33-137. -/
def linesCalls (L : Lexer) (closure : LineSt → Pos → LineOut) (closureCalls : LineSt → Pos → List Call) :
    Nat → Bool → List Char → Pos → LineSt → List Call
  | 0, _, _, _, _ => []
  | fuel + 1, first, item, p, x =>
    match L.lineNext first item p.src with
    | .done _ => []
    | .fail _ => []
    | .call k =>
      let p := p.consume k
      closureCalls x p ++
        match closure x p with
        | .ret (some range) x' =>
          linesCalls L closure closureCalls fuel false (p.src.take range.length) (p.consume range.length) x'
        | _ => []

/-- The call of `Node::parse` -- src/meta_rules/node.rs:66. -/
def nodeCalls (refs : List Rule) (prop : Option Str) (index : Option Nat) (st : St) (s : Nat) (start : Pos) :
    List Call :=
  match index with
  | none => []
  | some i =>
    let d := pushOpt prop .startNode start.start st s
    match refs[i]? with
    | none => []
    | some rule => [⟨rule, d.1, d.2, start⟩]

/-- The calls of `Rule::parse` that a call of `Rule::parse` makes itself -- src/meta_rules/rule.rs:67-122. -/
def subcalls (L : Lexer) (refs : List Rule) (ev : Ev) (fuel : Nat) (c : Call) : List Call :=
  match c.rule with
  | .whitespace .. => []
  | .tag .. => []
  | .untilAny .. => []
  | .untilAnyOrWs .. => []
  | .text .. => []
  | .number .. => []
  | .select args _ => selectCalls ev c.s c.p args c.st
  | .fastSelect table args tail _ => fastSelectCalls ev table args tail c.st c.s c.p
  | .sequence args _ => sequenceCalls ev args c.p c.s c.st
  | .separateBy rule by_ _ _ _ => separateByCalls ev rule by_ fuel c.p c.s c.st
  | .repeat_ rule _ _ => repeatCalls ev rule fuel c.p c.s c.st
  | .lines rule indent _ =>
    linesCalls L (if indent then lineClosureIndent ev rule else lineClosure ev rule)
      (if indent then lineClosureIndentCalls rule else lineClosureCalls rule) fuel true [] c.p
      ⟨c.s, none, true, c.st⟩
  | .node _ prop index _ => nodeCalls refs prop index c.st c.s c.p
  | .optional rule _ => [⟨rule, c.st, c.s, c.p⟩]
  | .not rule _ => [⟨rule, c.st, c.s, c.p⟩]

/-- How many calls of `Rule::parse` a call comes to, itself included, cut off at depth `n`. -/
def callCount (L : Lexer) (refs : List Rule) : Nat → Call → Nat
  | 0, _ => 0
  | n + 1, c => 1 + ((subcalls L refs (eval L refs n) n c).map (callCount L refs n)).sum

/-- How many calls of `Rule::parse` are on the stack at most, the call itself included, cut off at depth `n`. -/
def callDepth (L : Lexer) (refs : List Rule) : Nat → Call → Nat
  | 0, _ => 0
  | n + 1, c => 1 + ((subcalls L refs (eval L refs n) n c).map (callDepth L refs n)).foldr max 0

/-- The call of `Rule::parse` that `parse_with_indent` makes -- src/meta_rules/mod.rs:64-71. -/
def firstCall (syn : Syntax) (text : Str) (toks : List Tok) (ind : Indent) : Option Call :=
  syn.rules.getLast?.map fun rule => ⟨rule, ⟨toks, ind⟩, toks.length, Pos.new text 0⟩

end Verif
