import Verif.Proofs.Viable
import Verif.Props.Generates
/-
C118: where the next character decides and everything that has been read can be continued, the text before the error is
the beginning of a text that is accepted.
-/
namespace Verif.Props
open Spec

section
variable {L : Lexer} {M : Nat → Mark} {N A : Nat → Char → Prop} {K : Char → Prop} {syn : Syntax} {I : Nat}

/-- Before every failure met while rejecting a text there is the beginning of a text that is accepted. -/
theorem C118_failures (hL : L.Lawful) (hX : L.Exact) (hU : LL1 L M N syn.rules) (hI : ∀ i, (M i).idle ≤ I)
    (hC : Continues L K M A syn.rules) (hs : SyntaxOk syn) (hne : syn.rules ≠ []) {ind : Indent} (hP : Productive L syn.rules ind)
    {text : Str} {tr : List RErr} (h : Rejects L syn text ind tr) :
    ∀ e ∈ tr, ¬ InString e.err → ∃ y ts, text.take e.range.offset <+: y ∧ Accepts L syn y ind ts := by
  have key : ∀ {r o j tr}, syn.rules.getLast? = some r →
      Run (envOf L syn.rules ind) (.rule r) ⟨text, 0⟩ ind.indent o j tr →
      ∀ e ∈ tr, ¬ InString e.err → ∃ y ts, text.take e.range.offset <+: y ∧ Accepts L syn y ind ts := by
    intro r o j tr hr h e he hn
    have hq : Part syn.rules r := ⟨r, List.mem_of_getLast? hr, .refl⟩
    obtain ⟨y, ⟨ts, h1⟩, h2⟩ := run_viable (E := envOf L syn.rules ind) hL hX hU hI hC hP (plainly_of hU) h hq hq e he hn
    exact ⟨y, ts, h2, (C111_generated hL hU hI hs).2 ⟨r, hr, h1⟩⟩
  cases h with
  | noRules h => exact absurd h hne
  | fails hr h => exact key hr h
  | @short r n ts j tr hr h hn =>
    intro e he hs'
    rcases List.mem_append.1 he with he | he
    · exact key hr h e he hs'
    · simp only [List.mem_singleton] at he
      subst he
      have hq : Part syn.rules r := ⟨r, List.mem_of_getLast? hr, .refl⟩
      obtain ⟨us, h1⟩ := yields_of_generates (E := envOf L syn.rules ind) hL hX hU hI hC hq
        (runs_generates (E := envOf L syn.rules ind) (plainly_of hU) h hq _ _ rfl)
      exact ⟨_, us, List.prefix_refl _, (C111_generated hL hU hI hs).2 ⟨r, hr, h1⟩⟩

/-- So it is for the error that is reported. -/
theorem C118_viable (hL : L.Lawful) (hX : L.Exact) (hU : LL1 L M N syn.rules) (hI : ∀ i, (M i).idle ≤ I)
    (hC : Continues L K M A syn.rules) (hs : SyntaxOk syn) (hne : syn.rules ≠ []) {ind : Indent} (hP : Productive L syn.rules ind)
    {text : Str} {toks toks' : List Tok} {e : RErr} (h : Parses L syn text toks ind (.err e toks')) (hn : ¬ InString e.err) :
    ∃ rest ts, Parses L syn (text.take e.range.offset ++ rest) toks ind (.ok (toks ++ ts)) := by
  obtain ⟨tr, h1, h2⟩ := parses_err_run.1 ⟨toks', h⟩
  obtain ⟨y, ts, ⟨rest, rfl⟩, h3⟩ := C118_failures hL hX hU hI hC hs hne hP h1 e (reported_mem h2) hn
  exact ⟨rest, ts, (C04_ok_iff_meaning hL).2 ⟨ts, h3, rfl⟩⟩

/-- An error at the end of the text means that something is missing. -/
theorem C118_incomplete (hL : L.Lawful) (hX : L.Exact) (hU : LL1 L M N syn.rules) (hI : ∀ i, (M i).idle ≤ I)
    (hC : Continues L K M A syn.rules) (hs : SyntaxOk syn) (hne : syn.rules ≠ []) {ind : Indent} (hP : Productive L syn.rules ind)
    {text : Str} {toks toks' : List Tok} {e : RErr} (h : Parses L syn text toks ind (.err e toks')) (hn : ¬ InString e.err)
    (he : e.range.offset = text.length) :
    ∃ rest ts, rest ≠ [] ∧ Parses L syn (text ++ rest) toks ind (.ok (toks ++ ts)) := by
  obtain ⟨rest, ts, h1⟩ := C118_viable hL hX hU hI hC hs hne hP h hn
  rw [he, List.take_length] at h1
  refine ⟨rest, ts, ?_, h1⟩
  rintro rfl
  rw [List.append_nil] at h1
  cases parses_det h h1

end

/-! ### Examples -/

/-- Whatever has been read of texts, lists and tables within each other can be continued. -/
theorem C118_continues (L : Lexer) : Continues L (fun _ => True) Nested.marks
    (fun i c => i ≠ 0 ∧ isWs c = true) Nested.syn.rules where
  apart := by
    apply eachPart_part
    simp [EachPart, EachPartOf, SetApart, SetApartSequence, afterOf, afterSequence, Nested.syn, Nested.value, Nested.item,
      Nested.entry, Nested.doc, Nested.list, Nested.w, Nested.c, markOf, markSequence, Mark.leaf, Mark.then_,
      Mark.called, Mark.turns, Mark.nothing, Nested.marks, NoShared, Nested.starts]
    and_intros <;> intro c h <;> and_intros <;> (rintro rfl; revert h; decide)
  after i q h := by
    match i, h with
    | 0, h | 1, h | 2, h | 3, h =>
      cases h
      simp [afterOf, afterSequence, afterSelect, Nested.value, Nested.item,
        Nested.entry, Nested.doc, Nested.list, Nested.w, Nested.c, markOf, markSequence, Mark.leaf, Mark.then_,
        Mark.called, Mark.turns, Mark.nothing, Nested.marks]

namespace Nested

variable {L : Lexer} {ind : Indent}

theorem tag_yields {x : Char} {id : DebugId} {off : Nat} {s : Str} :
    Generates (envOf L syn.rules ind) (.rule (c x id)) ⟨x :: s, off⟩ 1 [] :=
  .token (i := 0) trivial (.tag_ok (t := [x]) ⟨s, rfl⟩)

theorem w_yields {id : DebugId} {off : Nat} {s : Str} (h : ¬ Heads s fun c => isWs c = true) :
    Generates (envOf L syn.rules ind) (.rule (w id)) ⟨s, off⟩ 0 [] := by
  refine .token (i := 0) trivial (.ws_ok ⟨Nat.zero_le _, by simp, ?_⟩ fun _ => rfl)
  intro c hc hw
  match s, hc with
  | d :: s, hc =>
    cases hc
    exact h ⟨_, _, rfl, hw⟩

theorem heads_plain {x : Char} {s : Str} (hx : isWs x = false) : ¬ Heads (x :: s) fun c => isWs c = true := by
  rintro ⟨c, t, h, hc⟩
  cases h
  rw [hx] at hc
  cases hc

/-- A list without items. -/
theorem list_yields {l r : Char} {x : Rule} (hr : isWs r = false) : Yields (envOf L syn.rules ind) (.rule (list l r x)) [l, r] :=
  ⟨_, .sequence (.seq_cons tag_yields (.seq_cons (w_yields (heads_plain hr)) (.seq_cons .sep_none (.seq_cons tag_yields .seq_nil))))⟩

theorem text_yields (hL : L.Lawful) {prop : Option Str} {id : DebugId} {off : Nat} {s : Str} :
    ∃ ts, Generates (envOf L syn.rules ind) (.rule (.text true prop id)) ⟨'"' :: '"' :: s, off⟩ 2 ts :=
  ⟨_, .token (i := 0) trivial (.text_ok (hL.str_items [] s).1 (fun _ => rfl) (hL.str_items [] s).2)⟩

theorem value_yields (hL : L.Lawful) {off : Nat} {s : Str} :
    ∃ ts, Generates (envOf L syn.rules ind) (.rule value) ⟨'"' :: '"' :: s, off⟩ 2 ts := by
  obtain ⟨ts, h⟩ := text_yields (ind := ind) hL (s := s) (off := off)
  exact ⟨ts, .select (List.mem_cons_self ..) h⟩

theorem item_yields (hL : L.Lawful) {off : Nat} :
    ∃ ts, Generates (envOf L syn.rules ind) (.rule item) ⟨['"', '"'], off⟩ 2 ts := by
  obtain ⟨ts, h⟩ := value_yields (ind := ind) hL (s := []) (off := off)
  exact ⟨_, .sequence (.seq_cons (.node rfl h) (.seq_cons (w_yields not_heads_nil) .seq_nil))⟩

theorem entry_yields (hL : L.Lawful) : Yields (envOf L syn.rules ind) (.rule entry) c!"\"\":\"\"" := by
  obtain ⟨ts, h⟩ := text_yields (ind := ind) hL (prop := some ['k']) (id := 17) (s := c!":\"\"") (off := 0)
  obtain ⟨us, h'⟩ := item_yields (ind := ind) hL (off := 3)
  exact ⟨_, .sequence (.seq_cons (n := 2) (m := 3) h (.seq_cons (n := 0) (m := 3)
    (w_yields (heads_plain (x := ':') (by decide))) (.seq_cons (n := 1) (m := 2) tag_yields
    (.seq_cons (n := 0) (m := 2) (w_yields (heads_plain (x := '"') (by decide))) (.seq_cons (n := 2) (m := 0) (.node rfl h') .seq_nil)))))⟩

theorem doc_yields (hL : L.Lawful) : Yields (envOf L syn.rules ind) (.rule doc) c!"\"\"" := by
  obtain ⟨us, h'⟩ := item_yields (ind := ind) hL (off := 0)
  exact ⟨_, .sequence (.seq_cons (n := 0) (m := 2) (w_yields (heads_plain (x := '"') (by decide)))
    (.seq_cons (n := 2) (m := 0) (.node rfl h') .seq_nil))⟩

theorem productive (hL : L.Lawful) : Productive L syn.rules ind := by
  obtain ⟨_, hv⟩ := value_yields (ind := ind) hL (s := []) (off := 0)
  obtain ⟨_, hi⟩ := item_yields (ind := ind) hL (off := 0)
  have ht : ∀ prop id, ∃ y, Yields (envOf L syn.rules ind) (.rule (.text true prop id)) y := by
    intro prop id
    obtain ⟨_, h⟩ := text_yields (ind := ind) hL (prop := prop) (id := id) (s := []) (off := 0)
    exact ⟨c!"\"\"", _, h⟩
  have hw : ∀ id, ∃ y, Yields (envOf L syn.rules ind) (.rule (.whitespace true id)) y :=
    fun id => ⟨[], _, w_yields not_heads_nil⟩
  have hc : ∀ x id, ∃ y, Yields (envOf L syn.rules ind) (.rule (.tag [x] false false none id)) y :=
    fun x id => ⟨[x], _, tag_yields⟩
  have hsep : ∃ y, Yields (envOf L syn.rules ind) (.rule (.sequence [c ',' 3, w 4] 5)) y :=
    ⟨[','], _, .sequence (.seq_cons (n := 1) (m := 0) tag_yields (.seq_cons (w_yields not_heads_nil) .seq_nil))⟩
  have hn0 : ∃ y, Yields (envOf L syn.rules ind) (.rule (.node ['v'] (some ['v']) (some 0) 14)) y := ⟨c!"\"\"", _, .node rfl hv⟩
  have hn1 : ∀ id, ∃ y, Yields (envOf L syn.rules ind) (.rule (.node ['i'] none (some 1) id)) y := fun id => ⟨c!"\"\"", _, .node rfl hi⟩
  have hn2 : ∃ y, Yields (envOf L syn.rules ind) (.rule (.node ['e'] none (some 2) 12)) y := by
    obtain ⟨_, h⟩ := entry_yields (ind := ind) hL
    exact ⟨_, _, .node rfl h⟩
  have hls : ∀ x, ∃ y, Yields (envOf L syn.rules ind) (.rule (list '[' ']' x)) y := fun x => ⟨_, list_yields (by decide)⟩
  have hlc : ∀ x, ∃ y, Yields (envOf L syn.rules ind) (.rule (list '{' '}' x)) y := fun x => ⟨_, list_yields (by decide)⟩
  have hse : ∀ r b id, ∃ y, Yields (envOf L syn.rules ind) (.rule (.separateBy r b true true id)) y := fun r b id => ⟨[], _, .sep_none⟩
  apply eachPart_part
  simp only [EachPart, EachPartOf, syn, value, item, entry, doc, list, w, c]
  simp only [list, w, c] at hls hlc hsep
  and_intros
  all_goals first
    | exact trivial | apply ht | apply hw | apply hc | exact hsep | exact hn0 | apply hn1 | exact hn2 | apply hls | apply hlc | apply hse
    | exact ⟨_, _, hv⟩ | exact ⟨_, _, hi⟩ | exact ⟨_, entry_yields hL⟩ | exact ⟨_, doc_yields hL⟩

end Nested

/-- What stands before an error in texts, lists and tables within each other is the beginning of such a text. -/
theorem C118_nested {L : Lexer} (hL : L.Lawful) (hX : L.Exact) {text : Str} {toks toks' : List Tok} {ind : Indent} {e : RErr}
    (h : Parses L Nested.syn text toks ind (.err e toks')) (hn : ¬ InString e.err) :
    ∃ rest ts, Parses L Nested.syn (text.take e.range.offset ++ rest) toks ind (.ok (toks ++ ts)) :=
  C118_viable hL hX (C111_nested L) (I := 13) (fun i => by
    match i with
    | 0 | 1 | 2 | i + 3 => simp [Nested.marks]) (C118_continues L) Nested.syntaxOk (by simp [Nested.syn]) (Nested.productive hL) h hn

/-- `{"x":"y" ` can be continued, but not by another text. -/
example : Parses stdLexer Nested.syn c!"{\"x\":\"y\" \"z\"}" [] Indent.default (.err ⟨⟨9, 0⟩, .expectedTag ['}'] 7⟩
    [⟨⟨0, 0⟩, .startNode ['v']⟩, ⟨⟨1, 3⟩, .string ['k'] ['x']⟩, ⟨⟨5, 0⟩, .startNode ['v']⟩, ⟨⟨5, 3⟩, .string ['s'] ['y']⟩,
      ⟨⟨5, 3⟩, .endNode ['v']⟩]) ∧
    ∃ rest ts, Parses stdLexer Nested.syn (c!"{\"x\":\"y\" " ++ rest) [] Indent.default (.ok ts) := by
  have h : Parses stdLexer Nested.syn c!"{\"x\":\"y\" \"z\"}" [] Indent.default (.err ⟨⟨9, 0⟩, .expectedTag ['}'] 7⟩
    [⟨⟨0, 0⟩, .startNode ['v']⟩, ⟨⟨1, 3⟩, .string ['k'] ['x']⟩, ⟨⟨5, 0⟩, .startNode ['v']⟩, ⟨⟨5, 3⟩, .string ['s'] ['y']⟩,
      ⟨⟨5, 3⟩, .endNode ['v']⟩]) := ⟨by simp, 32, by decide +kernel⟩
  refine ⟨h, ?_⟩
  obtain ⟨rest, ts, h⟩ := C118_nested stdLexer_lawful stdLexer_exact h id
  exact ⟨rest, _, h⟩

namespace Lost

def a : Rule := .tag ['a'] false false none 1
def b : Rule := .tag ['b'] false false none 2
def w : Rule := .whitespace false 3
/-- `{"b" ["a" .w!]}`. -/
def ab : Rule := .select [b, .sequence [a, w] 4] 5
/-- `[{"b" ["a" .w!]} .w!]`. -/
def syn : Syntax := ⟨[.sequence [ab, w] 6], [['x']]⟩

variable {L : Lexer} {ind : Indent}

def marks (L : Lexer) (_ : Nat) : Mark := markOf L (fun _ => .nothing) (.sequence [ab, w] 6)

theorem ll1 (L : Lexer) : LL1 L (marks L) (fun _ _ => False) syn.rules where
  decided := by
    apply eachPart_part
    simp [EachPart, EachPartOf, Decided, DecidedSelect, DecidedSequence, syn, ab, a, b, w, markOf, markSelect,
      markSequence, Mark.leaf, Mark.then_, Mark.else_, Mark.called, Mark.nothing, Mark.fail, NoShared]
  covers i q h := by
    match i, h with
    | 0, h =>
      cases h
      constructor <;> simp [marks, ab, a, b, w, markOf, markSelect, markSequence, Mark.leaf, Mark.then_, Mark.else_, Mark.called,
        Mark.nothing, Mark.fail]
  oneWay := by
    apply eachPart_part
    simp [EachPart, EachPartOf, OneWay, OneWaySelect, OneWaySequence, moreOf, moreSequence, moreSelect, syn, ab, a, b, w, markOf, markSelect,
      markSequence, Mark.leaf, Mark.then_, Mark.else_, Mark.called, Mark.nothing, Mark.fail, NoShared]
  more i q h := by
    match i, h with
    | 0, h =>
      cases h
      simp [moreOf, moreSequence, moreSelect, ab, a, b, w, markOf, markSelect,
        markSequence, Mark.leaf, Mark.then_, Mark.else_, Mark.called, Mark.nothing, Mark.fail]

theorem w_yields : Generates (envOf L syn.rules ind) (.rule w) ⟨[' '], off⟩ 1 [] :=
  .token (i := 0) trivial (.ws_ok ⟨Nat.le_refl _, by simp [isWs], by simp⟩ (by omega))

theorem productive : Productive L syn.rules ind := by
  apply eachPart_part
  simp only [EachPart, EachPartOf, syn, ab, a, b]
  have ha : ∀ {s off}, Generates (envOf L syn.rules ind) (.rule a) ⟨'a' :: s, off⟩ 1 [] :=
    fun {s off} => .token (i := 0) trivial (.tag_ok (t := ['a']) ⟨s, rfl⟩)
  have hb : ∀ {s off}, Generates (envOf L syn.rules ind) (.rule b) ⟨'b' :: s, off⟩ 1 [] :=
    fun {s off} => .token (i := 0) trivial (.tag_ok (t := ['b']) ⟨s, rfl⟩)
  and_intros
  all_goals first
    | exact trivial
    | exact ⟨[' '], _, w_yields⟩
    | exact ⟨['a'], _, ha⟩
    | exact ⟨['b'], _, hb⟩
    | exact ⟨['b'], _, .select (List.mem_cons_self ..) hb⟩
    | exact ⟨['a', ' '], _, .sequence (.seq_cons (n := 1) (m := 1) ha (.seq_cons (n := 1) (m := 0) w_yields .seq_nil))⟩
    | exact ⟨['b', ' '], _, .sequence (.seq_cons (n := 1) (m := 1) (.select (List.mem_cons_self ..) hb)
        (.seq_cons (n := 1) (m := 0) w_yields .seq_nil))⟩

/-- After the longest there is nothing more. -/
theorem longest_again {P : Char → Prop} {x : Str} {m n : Nat} (h : Longest P x m) (h' : Longest P (x.drop m) n) : n = 0 := by
  have h5 := h.2.2
  have h6 := h'.2.1
  have h7 := h'.1
  generalize x.drop m = y at h5 h6 h7
  match y, n with
  | _, 0 => rfl
  | [], n + 1 => simp at h7
  | c :: y, n + 1 => exact absurd (h6 c (by simp)) (h5 c rfl)

/-- Nothing that begins with `a` is accepted. -/
theorem rejects {s : Str} {ts : List Tok} : ¬ Accepts L syn ('a' :: s) ind ts := by
  intro hacc
  obtain ⟨r, hr, h⟩ := C111_accepted (plainly_of (ll1 L)) hacc
  clear hacc
  cases hr
  generalize ('a' :: s).length = k at h
  cases h with
  | token hr => exact hr.elim
  | sequence h =>
  cases h with
  | seq_cons h h' =>
  cases h with
  | token hr => exact hr.elim
  | select hr h =>
  simp only [List.mem_cons, List.not_mem_nil, or_false] at hr
  rcases hr with rfl | rfl
  · cases h with
    | token hr h =>
    cases h with
    | tag_ok h => simp at h
  · cases h with
    | token hr => exact hr.elim
    | sequence h =>
    cases h with
    | seq_cons h h'' =>
    cases h with
    | token hr h =>
    cases h with
    | tag_ok h =>
    cases h'' with
    | seq_cons h1 h2 =>
    cases h2
    cases h1 with
    | token hr h1 =>
    cases h1 with
    | ws_ok h1 h0 =>
    cases h' with
    | seq_cons h3 h4 =>
    cases h3 with
    | token hr h3 =>
    cases h3 with
    | ws_ok h3 h0' =>
    refine absurd (h0' (longest_again h1 ?_)) (by simp)
    simp only [adv, List.drop_drop] at h3 ⊢
    exact h3

end Lost

/-- The condition is needed: of `a x`, the text before the error is not the beginning of any text that is accepted, though
the next character decides and every rule generates some text. -/
theorem C118_needed (L : Lexer) (ind : Indent) : LL1 L (Lost.marks L) (fun _ _ => False) Lost.syn.rules ∧
    Productive L Lost.syn.rules ind ∧
    (∃ toks', Parses L Lost.syn c!"a x" [] ind (.err ⟨⟨2, 0⟩, .expectedWhitespace 3⟩ toks')) ∧
    ∀ rest ts, ¬ Accepts L Lost.syn (c!"a " ++ rest) ind ts := by
  refine ⟨Lost.ll1 L, Lost.productive, ?_, fun _ _ => Lost.rejects⟩
  refine parses_err_run.2 ⟨_, .fails rfl (.sequence (.seq_cons (n := 2) (.select (.sel_next (.tag_fail (by decide)) (.sel_here (.sequence
    (.seq_cons (.tag_ok ⟨c!" x", rfl⟩) (.seq_cons (.ws_ok (n := 1) ?_ (by omega)) .seq_nil))))))
    (.seq_fail (.ws_fail ?_)))), ?_⟩
  · exact ⟨by simp, by simp [isWs], by simp [isWs]⟩
  · exact ⟨by simp, by simp, by simp [adv, isWs]⟩
  · exact ⟨[_], [], rfl, by simp [RErr.depth, Range.next], by simp⟩

end Verif.Props
