import Verif.Model.Lexer
/-
The meaning of rules, as a relation.

`Run E g p i o j tr`: trying `g` at position `p` with current indentation `i` gives outcome `o`
(`none`: it fails; `some (n, ts)`: it reads `n` characters and yields the data `ts`), leaves the
indentation `j`, and meets the elementary failures `tr` on the way, in this order.

There is no token vector here, no truncation, no bookkeeping of the best error and no fuel: data is
built by concatenation and backtracking is just the use of another clause.  The parser of
`Verif.Model.Eval` is proved equivalent to this relation in `Verif.Proofs.Sound` and
`Verif.Proofs.Complete`.
-/
namespace Verif.Spec

/-- What stays fixed during a parse: the lexer, the rules that references point to, and the
settings `align_first` and `tab_spaces`. -/
structure Env where
  L : Lexer
  refs : List Rule
  align : Bool
  tab : Nat

/-- Move a position forward. -/
def adv (p : Pos) (n : Nat) : Pos := ⟨p.src.drop n, p.off + n⟩

/-- `n` is the length of the longest prefix of `cs` whose characters satisfy `P`. -/
def Longest (P : Char → Prop) (cs : List Char) (n : Nat) : Prop :=
  n ≤ cs.length ∧ (∀ c ∈ cs.take n, P c) ∧ ∀ c, (cs.drop n).head? = some c → ¬ P c

/-- A space or a tab. -/
def Blank (c : Char) : Prop := c = ' ' ∨ c = '\t'

/-- Columns of a text of spaces and tabs. -/
def width (tab : Nat) : List Char → Nat
  | [] => 0
  | c :: cs => (if c = '\t' then tab else 1) + width tab cs

/-- The first `k` characters of the line are spaces and tabs that reach column `n`, and fewer do
not. -/
def Carries (tab n : Nat) (line : List Char) (k : Nat) : Prop :=
  k ≤ line.length ∧ (∀ c ∈ line.take k, Blank c) ∧ n ≤ width tab (line.take k) ∧
  ∀ j < k, width tab (line.take j) < n

/-- An outcome: failure, or the number of characters read and the data. -/
abbrev Outcome := Option (Nat × List Tok)

/-- The outcome of reading `n` characters and data `ts` before `o`. -/
def before (n : Nat) (ts : List Tok) : Outcome → Outcome
  | none => none
  | some (m, us) => some (n + m, ts ++ us)

/-- The data of a named rule: one token; of an unnamed rule: nothing. -/
def named (prop : Option Str) (off len : Nat) (f : Str → MetaData) : List Tok :=
  match prop with
  | none => []
  | some n => [⟨⟨off, len⟩, f n⟩]

/-- The data of a node: bracketed if it is named, as it is otherwise. -/
def wrapped (prop : Option Str) (off len : Nat) (ts : List Tok) : List Tok :=
  match prop with
  | none => ts
  | some n => ⟨⟨off, 0⟩, .startNode n⟩ :: ts ++ [⟨⟨off, len⟩, .endNode n⟩]

/-- An elementary failure at the position itself. -/
def here (p : Pos) (e : ParseError) : List RErr := [⟨⟨p.off, 0⟩, e⟩]

/-- What can be tried at a position: a rule, or a part of a rule. -/
inductive Goal where
  | rule (r : Rule)
  /-- one of the remaining alternatives of a select -/
  | sel (rs : List Rule)
  /-- the remaining rules of a sequence -/
  | seq (rs : List Rule)
  /-- as many as possible -/
  | rep (r : Rule)
  /-- what follows an item of a separated list -/
  | sepTail (r b : Rule) (trail : Bool)
  /-- the remaining lines; `first`: no line has been read, `item`: the text of the last line -/
  | lines (r : Rule) (indent : Bool) (id : DebugId) (first : Bool) (item : List Char)
  /-- one line, from its very start -/
  | line (r : Rule) (indent : Bool) (first : Bool)

/-- The meaning of rules. -/
inductive Run (E : Env) : Goal → Pos → Nat → Outcome → Nat → List RErr → Prop
  -- whitespace
  | ws_ok {opt id p i n} (h : Longest (fun c => isWs c = true) p.src n) (h0 : n = 0 → opt = true) :
      Run E (.rule (.whitespace opt id)) p i (some (n, [])) i []
  | ws_fail {id p i} (h : Longest (fun c => isWs c = true) p.src 0) :
      Run E (.rule (.whitespace false id)) p i none i (here p (.expectedWhitespace id))
  -- tag
  | tag_ok {t inv prop id p i} (h : t <+: p.src) :
      Run E (.rule (.tag t false inv prop id)) p i
        (some (t.length, named prop p.off t.length fun n => .bool n (!inv))) i []
  | tag_fail {t inv prop id p i} (h : ¬ t <+: p.src) :
      Run E (.rule (.tag t false inv prop id)) p i none i (here p (.expectedTag t id))
  | notTag_ok {t inv prop id p i} (h : ¬ t <+: p.src) :
      Run E (.rule (.tag t true inv prop id)) p i
        (some (0, named prop p.off 0 fun n => .bool n (!inv))) i []
  | notTag_fail {t inv prop id p i} (h : t <+: p.src) :
      Run E (.rule (.tag t true inv prop id)) p i none i
        [⟨⟨p.off, t.length⟩, .didNotExpectTag t id⟩]
  -- until
  | until_ok {any opt prop id p i n} (h : Longest (fun c => c ∉ any) p.src n)
      (h0 : n = 0 → opt = true) :
      Run E (.rule (.untilAny any opt prop id)) p i
        (some (n, named prop p.off n fun x => .string x (p.src.take n))) i []
  | until_fail {any prop id p i} (h : Longest (fun c => c ∉ any) p.src 0) :
      Run E (.rule (.untilAny any false prop id)) p i none i (here p (.expectedSomething id))
  | untilWs_ok {any opt prop id p i n}
      (h : Longest (fun c => c ∉ any ∧ isWs c = false) p.src n) (h0 : n = 0 → opt = true) :
      Run E (.rule (.untilAnyOrWs any opt prop id)) p i
        (some (n, named prop p.off n fun x => .string x (p.src.take n))) i []
  | untilWs_fail {any prop id p i}
      (h : Longest (fun c => c ∉ any ∧ isWs c = false) p.src 0) :
      Run E (.rule (.untilAnyOrWs any false prop id)) p i none i (here p (.expectedSomething id))
  -- text
  | text_ok {empty prop id p i n t} (h : E.L.str p.src = some n) (h2 : n = 2 → empty = true)
      (ht : E.L.parseStr p.src n = .ok t) :
      Run E (.rule (.text empty prop id)) p i
        (some (n, named prop p.off n fun x => .string x t)) i []
  | text_none {empty prop id p i} (h : E.L.str p.src = none) :
      Run E (.rule (.text empty prop id)) p i none i (here p (.expectedText id))
  | text_empty {prop id p i} (h : E.L.str p.src = some 2) :
      Run E (.rule (.text false prop id)) p i none i [⟨⟨p.off, 2⟩, .emptyTextNotAllowed id⟩]
  | text_bad {empty prop id p i n r e} (h : E.L.str p.src = some n) (h2 : n = 2 → empty = true)
      (ht : E.L.parseStr p.src n = .error (r, e)) :
      Run E (.rule (.text empty prop id)) p i none i
        [⟨⟨p.off + r.offset, r.length⟩, .parseStringError e id⟩]
  -- number
  | num_ok {prop us id p i n v} (h : E.L.num us p.src = some n)
      (hv : E.L.parseNum us p.src n = .ok v) :
      Run E (.rule (.number prop us id)) p i (some (n, named prop p.off n fun x => .f64 x v)) i []
  | num_none {prop us id p i} (h : E.L.num us p.src = none) :
      Run E (.rule (.number prop us id)) p i none i (here p (.expectedNumber id))
  | num_bad {prop us id p i n e} (h : E.L.num us p.src = some n)
      (hv : E.L.parseNum us p.src n = .error e) :
      Run E (.rule (.number prop us id)) p i none i [⟨⟨p.off, n⟩, .parseNumberError e id⟩]
  -- select
  | select_empty {id p i} :
      Run E (.rule (.select [] id)) p i none i (here p (.invalidRule .selectEmpty id))
  | select {r rs id p i o j tr} (h : Run E (.sel (r :: rs)) p i o j tr) :
      Run E (.rule (.select (r :: rs) id)) p i o j tr
  | sel_nil {p i} : Run E (.sel []) p i none i []
  | sel_here {r rs p i x j tr} (h : Run E (.rule r) p i (some x) j tr) :
      Run E (.sel (r :: rs)) p i (some x) j tr
  | sel_next {r rs p i j tr o k tr'} (h : Run E (.rule r) p i none j tr)
      (h' : Run E (.sel rs) p j o k tr') : Run E (.sel (r :: rs)) p i o k (tr ++ tr')
  -- select with a look-up table for the first byte
  | fast_end {tb args tail id p i} (h : p.src = []) :
      Run E (.rule (.fastSelect tb args tail id)) p i none i (here p (.expectedSomething id))
  | fast_miss {tb args id p i c cs b bs} (h : p.src = c :: cs)
      (hb : String.utf8EncodeChar c = b :: bs) (ht : tb b = 255) :
      Run E (.rule (.fastSelect tb args false id)) p i none i (here p (.expectedSomething id))
  | fast_hit {tb args id p i c cs b bs r o j tr} (h : p.src = c :: cs)
      (hb : String.utf8EncodeChar c = b :: bs) (ht : tb b ≠ 255)
      (hr : args[(tb b).toNat]? = some r) (h' : Run E (.rule r) p i o j tr) :
      Run E (.rule (.fastSelect tb args false id)) p i o j tr
  | fastTail_miss {tb args id p i c cs b bs r o j tr} (h : p.src = c :: cs)
      (hb : String.utf8EncodeChar c = b :: bs) (ht : tb b = 255)
      (hr : args.getLast? = some r) (h' : Run E (.rule r) p i o j tr) :
      Run E (.rule (.fastSelect tb args true id)) p i o j tr
  | fastTail_hit {tb args id p i c cs b bs r x j tr} (h : p.src = c :: cs)
      (hb : String.utf8EncodeChar c = b :: bs) (ht : tb b ≠ 255)
      (hr : args[(tb b).toNat]? = some r) (h' : Run E (.rule r) p i (some x) j tr) :
      Run E (.rule (.fastSelect tb args true id)) p i (some x) j tr
  | fastTail_next {tb args id p i c cs b bs r r' j tr o k tr'} (h : p.src = c :: cs)
      (hb : String.utf8EncodeChar c = b :: bs) (ht : tb b ≠ 255)
      (hr : args[(tb b).toNat]? = some r) (h' : Run E (.rule r) p i none j tr)
      (hr' : args.getLast? = some r') (h'' : Run E (.rule r') p j o k tr') :
      Run E (.rule (.fastSelect tb args true id)) p i o k (tr ++ tr')
  -- sequence
  | sequence {rs id p i o j tr} (h : Run E (.seq rs) p i o j tr) :
      Run E (.rule (.sequence rs id)) p i o j tr
  | seq_nil {p i} : Run E (.seq []) p i (some (0, [])) i []
  | seq_fail {r rs p i j tr} (h : Run E (.rule r) p i none j tr) :
      Run E (.seq (r :: rs)) p i none j tr
  | seq_cons {r rs p i n ts j tr o k tr'} (h : Run E (.rule r) p i (some (n, ts)) j tr)
      (h' : Run E (.seq rs) (adv p n) j o k tr') :
      Run E (.seq (r :: rs)) p i (before n ts o) k (tr ++ tr')
  -- repeat
  | repeat_opt {r id p i o j tr} (h : Run E (.rep r) p i o j tr) :
      Run E (.rule (.repeat_ r true id)) p i o j tr
  | repeat_fail {r id p i j tr} (h : Run E (.rule r) p i none j tr) :
      Run E (.rule (.repeat_ r false id)) p i none j tr
  | repeat_ok {r id p i n ts j tr o k tr'} (h : Run E (.rule r) p i (some (n, ts)) j tr)
      (h' : Run E (.rep r) (adv p n) j o k tr') :
      Run E (.rule (.repeat_ r false id)) p i (before n ts o) k (tr ++ tr')
  | rep_stop {r p i j tr} (h : Run E (.rule r) p i none j tr) :
      Run E (.rep r) p i (some (0, [])) j tr
  | rep_more {r p i n ts j tr o k tr'} (h : Run E (.rule r) p i (some (n, ts)) j tr)
      (h' : Run E (.rep r) (adv p n) j o k tr') :
      Run E (.rep r) p i (before n ts o) k (tr ++ tr')
  -- separated by
  | sep_none {r b trail id p i j tr} (h : Run E (.rule r) p i none j tr) :
      Run E (.rule (.separateBy r b true trail id)) p i (some (0, [])) j tr
  | sep_fail {r b trail id p i j tr} (h : Run E (.rule r) p i none j tr) :
      Run E (.rule (.separateBy r b false trail id)) p i none j tr
  | sep_first {r b opt trail id p i n ts j tr o k tr'}
      (h : Run E (.rule r) p i (some (n, ts)) j tr)
      (h' : Run E (.sepTail r b trail) (adv p n) j o k tr') :
      Run E (.rule (.separateBy r b opt trail id)) p i (before n ts o) k (tr ++ tr')
  | sep_stop {r b trail p i j tr} (h : Run E (.rule b) p i none j tr) :
      Run E (.sepTail r b trail) p i (some (0, [])) j tr
  | sep_trail {r b p i m us j tr k tr'} (h : Run E (.rule b) p i (some (m, us)) j tr)
      (h' : Run E (.rule r) (adv p m) j none k tr') :
      Run E (.sepTail r b true) p i (some (m, us)) k (tr ++ tr')
  | sep_noTrail {r b p i m us j tr k tr'} (h : Run E (.rule b) p i (some (m, us)) j tr)
      (h' : Run E (.rule r) (adv p m) j none k tr') :
      Run E (.sepTail r b false) p i none k (tr ++ tr')
  | sep_more {r b trail p i m us j tr n ts k tr' o l tr''}
      (h : Run E (.rule b) p i (some (m, us)) j tr)
      (h' : Run E (.rule r) (adv p m) j (some (n, ts)) k tr')
      (h'' : Run E (.sepTail r b trail) (adv p (m + n)) k o l tr'') :
      Run E (.sepTail r b trail) p i (before (m + n) (us ++ ts) o) l (tr ++ (tr' ++ tr''))
  -- lines
  | lines {r ind id p i o j tr} (h : Run E (.lines r ind id true []) p i o j tr) :
      Run E (.rule (.lines r ind id)) p i o j tr
  | lines_done {r ind id first item p i k} (h : E.L.lineNext first item p.src = .done k) :
      Run E (.lines r ind id first item) p i (some (k, [])) i []
  | lines_fail {r ind id first item p i k} (h : E.L.lineNext first item p.src = .fail k) :
      Run E (.lines r ind id first item) p i none i (here (adv p k) (.expectedNewLine id))
  | lines_stop {r ind id first item p i k j tr} (h : E.L.lineNext first item p.src = .call k)
      (h' : Run E (.line r ind first) (adv p k) i none j tr) :
      Run E (.lines r ind id first item) p i (some (k, [])) j tr
  | lines_more {r ind id first item p i k n ts j tr o l tr'}
      (h : E.L.lineNext first item p.src = .call k)
      (h' : Run E (.line r ind first) (adv p k) i (some (n, ts)) j tr)
      (h'' : Run E (.lines r ind id false ((p.src.drop k).take n)) (adv p (k + n)) j o l tr') :
      Run E (.lines r ind id first item) p i (before (k + n) ts o) l (tr ++ tr')
  | line_plain {r first p i o j tr} (h : Run E (.rule r) p i o j tr) :
      Run E (.line r false first) p i o j tr
  | line_shallow {r first p i} (h : ¬ ∃ k, Carries E.tab i p.src k) :
      Run E (.line r true first) p i none i []
  | line_deep {r first p i k} (ha : ¬ (first = true ∧ E.align = true))
      (h : Carries E.tab i p.src k) (hd : (p.src.drop k).head? = some ' ') :
      Run E (.line r true first) p i none i []
  | line_body {r first p i k o j tr} (ha : ¬ (first = true ∧ E.align = true))
      (h : Carries E.tab i p.src k) (hd : (p.src.drop k).head? ≠ some ' ')
      (hi : i + 1 < 2 ^ 32) (h' : Run E (.rule r) (adv p k) (i + 1) o j tr) :
      Run E (.line r true first) p i (before k [] o) i tr
  | line_align {r p i k m o j tr} (ha : E.align = true)
      (h : Carries E.tab i p.src k) (hm : Longest Blank (p.src.drop k) m)
      (hi : i + width E.tab ((p.src.drop k).take m) + 1 < 2 ^ 32)
      (h' : Run E (.rule r) (adv p (k + m)) (i + width E.tab ((p.src.drop k).take m) + 1) o j tr) :
      Run E (.line r true true) p i (before (k + m) [] o)
        (i + width E.tab ((p.src.drop k).take m)) tr
  -- node
  | node_unresolved {name prop id p i} :
      Run E (.rule (.node name prop none id)) p i none i
        (here p (.invalidRule .nodeNotUpdated id))
  | node_fail {name prop ix id p i r j tr} (hr : E.refs[ix]? = some r)
      (h : Run E (.rule r) p i none j tr) :
      Run E (.rule (.node name prop (some ix) id)) p i none j tr
  | node_ok {name prop ix id p i r n ts j tr} (hr : E.refs[ix]? = some r)
      (h : Run E (.rule r) p i (some (n, ts)) j tr) :
      Run E (.rule (.node name prop (some ix) id)) p i (some (n, wrapped prop p.off n ts)) j tr
  -- optional
  | optional_none {r id p i j tr} (h : Run E (.rule r) p i none j tr) :
      Run E (.rule (.optional r id)) p i (some (0, [])) j tr
  | optional_some {r id p i x j tr} (h : Run E (.rule r) p i (some x) j tr) :
      Run E (.rule (.optional r id)) p i (some x) j tr
  -- not
  | not_ok {r id p i j tr} (h : Run E (.rule r) p i none j tr) :
      Run E (.rule (.not r id)) p i (some (0, [])) j []
  | not_fail {r id p i n ts j tr} (h : Run E (.rule r) p i (some (n, ts)) j tr) :
      Run E (.rule (.not r id)) p i none j
        [⟨⟨p.off, n⟩, .didNotExpectTag (p.src.take n) id⟩]

/-- `e` is the error to report after the elementary failures `tr`: none ends further into the
text, and those met later do not even end as far. -/
def Reported (tr : List RErr) (e : RErr) : Prop :=
  ∃ a b, tr = a ++ e :: b ∧ (∀ x ∈ a, x.depth ≤ e.depth) ∧ ∀ x ∈ b, x.depth < e.depth

end Verif.Spec
