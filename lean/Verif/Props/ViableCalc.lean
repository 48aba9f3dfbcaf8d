import Verif.Proofs.NumbersEnd
import Verif.Props.Viable
import Verif.Props.Predictable
import Verif.Props.Origin
/-
C118 for a syntax with numbers.
-/
namespace Verif.Props
open Spec

/-- Numbers end before whatever cannot be a part of them. -/
theorem C118_numbers (us : Bool) : NumbersEnd stdLexer Std.Ends us := Std.numbersEnd us

namespace Calc

/-- What a number begins with. -/
def digit (c : Char) : Prop := c ∈ c!"-0123456789"

theorem digit_iff {c : Char} : (∃ s n, stdLexer.num false (c :: s) = some n) ↔ digit c := C112_numbers false c

/-- What a value begins with. -/
def starts (c : Char) : Prop := digit c ∨ c = '('

def marks : Nat → Mark
  | 0 => ⟨starts, fun _ => False, false, false, false, 10⟩
  | 1 => ⟨starts, fun c => c = '*', false, false, false, 30⟩
  | 2 => ⟨starts, fun c => c = '*' ∨ c = '+' ∨ c = '-', false, false, false, 60⟩
  | _ => ⟨fun x => isWs x ∨ starts x, fun c => c = '*' ∨ c = '+' ∨ c = '-', false, false, false, 100⟩

def further : Nat → Char → Prop
  | 0 => fun _ => False
  | 1 => fun c => c = '*'
  | _ => fun c => c = '*' ∨ c = '+' ∨ c = '-'

theorem predictive : Predictive stdLexer marks syn.rules where
  decided := by
    apply eachPart_part
    simp [EachPart, EachPartOf, Decided, DecidedSelect, DecidedSequence, syn, value, product, sum, doc, w, c, markOf, markSelect,
      markSequence, Mark.leaf, Mark.then_, Mark.else_, Mark.called, Mark.loop, Mark.nothing, Mark.fail, Mark.left, marks, NoShared, starts, digit_iff]
    rintro c h rfl
    simp [digit] at h
  covers i q h := by
    match i, h with
    | 0, h | 1, h | 2, h | 3, h =>
      cases h
      constructor <;> simp [value, product, sum, doc, w, c, markOf, markSelect, markSequence, Mark.leaf, Mark.then_, Mark.else_,
        Mark.called, Mark.loop, Mark.nothing, Mark.fail, Mark.left, marks, starts, digit_iff]
      all_goals grind

theorem ll1 : LL1 stdLexer marks further syn.rules where
  toPredictive := predictive
  oneWay := by
    apply eachPart_part
    simp [EachPart, EachPartOf, OneWay, OneWaySelect, OneWaySequence, moreOf, moreSequence, moreSelect, syn, value, product, sum, doc, w, c, markOf,
      markSequence, markSelect, Mark.leaf, Mark.then_, Mark.else_, Mark.called, Mark.loop, Mark.nothing, Mark.fail, marks, further, NoShared, starts, digit_iff]
  more i q h := by
    match i, h with
    | 0, h | 1, h | 2, h | 3, h =>
      cases h
      simp [moreOf, moreSequence, moreSelect, value, product, sum, doc, w, c, markOf, markSelect, markSequence, Mark.leaf, Mark.then_, Mark.else_,
        Mark.called, Mark.loop, Mark.nothing, Mark.fail, Mark.left, marks, further, digit_iff]
      all_goals grind

/-- What must not follow. -/
def after : Nat → Char → Prop
  | 0 => fun c => ¬ Std.Ends c
  | _ => fun c => ¬ Std.Ends c ∨ isWs c = true

theorem ends_ws {c : Char} (h : isWs c = true) : Std.Ends c := by
  refine ⟨?_, ?_, ?_, ?_, ?_⟩
  · cases hd : Std.isDigit c with
    | false => rfl
    | true =>
      simp only [Std.isDigit, Bool.and_eq_true, decide_eq_true_eq] at hd
      simp [isWs] at h
      omega
  all_goals (rintro rfl; revert h; decide)

theorem continues : Continues stdLexer Std.Ends marks after syn.rules where
  apart := by
    apply eachPart_part
    simp [EachPart, EachPartOf, SetApart, SetApartSequence, afterOf, afterSequence, afterSelect, syn, value, product, sum, doc, w, c, markOf,
      markSequence, markSelect, Mark.leaf, Mark.then_, Mark.else_, Mark.called, Mark.loop, Mark.nothing, Mark.fail, marks, after, NoShared, starts,
      C118_numbers]
    have h1 : ∀ c, isWs c = true → Std.Ends c := fun _ => ends_ws
    have h2 : ∀ c, isWs c = true → ¬ digit c := by
      intro c h hd
      have h3 := (ends_ws h).1
      simp only [digit, List.mem_cons, List.not_mem_nil, or_false] at hd
      rcases hd with rfl | rfl | rfl | rfl | rfl | rfl | rfl | rfl | rfl | rfl | rfl <;> revert h h3 <;> decide
    have h3 : Std.Ends ')' ∧ Std.Ends '*' ∧ Std.Ends '+' ∧ Std.Ends '-' := by simp [Std.Ends, Std.isDigit]
    have h4 : isWs '(' = false ∧ isWs ')' = false ∧ isWs '*' = false ∧ isWs '+' = false ∧ isWs '-' = false := by decide
    and_intros <;> intro c h <;> grind
  after i q h := by
    match i, h with
    | 0, h | 1, h | 2, h | 3, h =>
      cases h
      simp [afterOf, afterSequence, afterSelect, value, product, sum, doc, w, c, markOf, markSelect, markSequence, Mark.leaf, Mark.then_, Mark.else_,
        Mark.called, Mark.loop, Mark.nothing, Mark.fail, Mark.left, marks, after]
      all_goals grind

variable {ind : Indent}

theorem goalOk {rs : List Rule} {id : DebugId} (h : Part syn.rules (.sequence rs id)) :
    GoalOk (envOf stdLexer syn.rules ind) marks further (.seq rs) := ok_sequence (E := envOf stdLexer syn.rules ind) ll1 h

theorem seq_yields {id : DebugId} : ∀ {rs : List Rule}, GoalOk (envOf stdLexer syn.rules ind) marks further (.seq rs) →
    SetApartSequence stdLexer Std.Ends marks after rs →
    (∀ r ∈ rs, ∃ y, Yields (envOf stdLexer syn.rules ind) (.rule r) y) →
    ∃ y, Yields (envOf stdLexer syn.rules ind) (.seq rs) y
  | [], _, _, _ => ⟨[], [], .seq_nil⟩
  | r :: rs, hg, ha, h => by
    obtain ⟨x, hx⟩ := h r (by simp)
    obtain ⟨y, hy⟩ := seq_yields (id := id) (ok_cons hg).2.1 ha.2 fun q hq => h q (by simp [hq])
    exact ⟨_, yields_cons (E := envOf stdLexer syn.rules ind) (I := 100) stdLexer_lawful stdLexer_exact ll1 (fun i => by
      match i with
      | 0 | 1 | 2 | i + 3 => simp [marks]) continues hg ha hx hy⟩

theorem sequence_yields {rs : List Rule} {id : DebugId} (h : Part syn.rules (.sequence rs id))
    (hr : ∀ r ∈ rs, ∃ y, Yields (envOf stdLexer syn.rules ind) (.rule r) y) :
    ∃ y, Yields (envOf stdLexer syn.rules ind) (.rule (.sequence rs id)) y := by
  obtain ⟨y, ts, h1⟩ := seq_yields (id := id) (goalOk h) (continues.apart _ h) hr
  exact ⟨y, ts, .sequence h1⟩

theorem productive : Productive stdLexer syn.rules ind := by
  have hw : ∀ id, ∃ y, Yields (envOf stdLexer syn.rules ind) (.rule (.whitespace true id)) y :=
    fun id => ⟨[], [], .token (i := 0) trivial (.ws_ok ⟨Nat.zero_le _, by simp, by simp⟩ fun _ => rfl)⟩
  have hc : ∀ x inv prop id, ∃ y, Yields (envOf stdLexer syn.rules ind) (.rule (.tag [x] false inv prop id)) y :=
    fun x inv prop id => ⟨[x], _, .token (i := 0) trivial (.tag_ok (List.prefix_refl _))⟩
  have hn : ∃ y, Yields (envOf stdLexer syn.rules ind) (.rule (.number (some c!"num") false 1)) y :=
    ⟨['1'], _, .token (i := 0) trivial (.num_ok (n := 1) (by rfl) (by rfl))⟩
  have hr : ∀ r id, ∃ y, Yields (envOf stdLexer syn.rules ind) (.rule (.repeat_ r true id)) y := fun r id => ⟨[], _, .repeat_any .rep_nil⟩
  have hnode : ∀ {ix q name prop id}, syn.rules[ix]? = some q → (∃ y, Yields (envOf stdLexer syn.rules ind) (.rule q) y) →
      ∃ y, Yields (envOf stdLexer syn.rules ind) (.rule (.node name prop (some ix) id)) y := by
    rintro ix q name prop id hq ⟨y, ts, h⟩
    exact ⟨y, _, .node hq h⟩
  have hsel : ∀ {r rs id}, (∃ y, Yields (envOf stdLexer syn.rules ind) (.rule r) y) →
      ∃ y, Yields (envOf stdLexer syn.rules ind) (.rule (.select (r :: rs) id)) y := by
    rintro r rs id ⟨y, ts, h⟩
    exact ⟨y, _, .select (List.mem_cons_self ..) h⟩
  have hpart : ∀ {ix q}, syn.rules[ix]? = some q → Part syn.rules q := fun h => ⟨_, List.mem_of_getElem? h, .refl⟩
  have hv : ∃ y, Yields (envOf stdLexer syn.rules ind) (.rule value) y := hsel hn
  have hp : ∃ y, Yields (envOf stdLexer syn.rules ind) (.rule product) y := by
    refine sequence_yields (hpart (ix := 1) rfl) ?_
    simp only [List.mem_cons, List.not_mem_nil, or_false]
    rintro r (rfl | rfl | rfl)
    · exact hnode rfl hv
    · exact hw _
    · exact hr _ _
  have hs : ∃ y, Yields (envOf stdLexer syn.rules ind) (.rule sum) y := by
    refine sequence_yields (hpart (ix := 2) rfl) ?_
    simp only [List.mem_cons, List.not_mem_nil, or_false]
    rintro r (rfl | rfl)
    · exact hnode rfl hp
    · exact hr _ _
  have hleaf : ∀ x, Part syn.rules x → (match x with | .sequence _ _ => True | _ => ∃ y, Yields (envOf stdLexer syn.rules ind) (.rule x) y) := by
    apply eachPart_part
    simp only [EachPart, EachPartOf, syn, value, product, sum, doc, w, c]
    and_intros
    all_goals first
      | exact trivial | apply hw | apply hc | exact hn | apply hr
      | exact hnode (ix := 0) rfl hv | exact hnode (ix := 1) rfl hp | exact hnode (ix := 2) rfl hs
      | exact hsel hn | exact hsel (hc _ _ _ _)
  have hflat : ∀ x, Part syn.rules x → (match x with
      | .sequence rs _ => ∀ r ∈ rs, ∀ qs id, r ≠ .sequence qs id
      | _ => True) := by
    apply eachPart_part
    simp [EachPart, EachPartOf, syn, value, product, sum, doc, w, c]
  intro x hx
  match x, hx with
  | .sequence rs id, hx =>
    refine sequence_yields hx fun r hr => ?_
    have h1 := hflat _ hx r hr
    have h2 := hleaf r (decided_part hx (.sequence hr))
    split at h2
    · exact absurd rfl (h1 _ _)
    · exact h2
  | .whitespace _ _, hx | .tag _ _ _ _ _, hx | .untilAny _ _ _ _, hx | .untilAnyOrWs _ _ _ _, hx | .text _ _ _, hx | .number _ _ _, hx
  | .node _ _ _ _, hx | .select _ _, hx | .fastSelect _ _ _ _, hx | .separateBy _ _ _ _ _, hx | .repeat_ _ _ _, hx | .lines _ _ _, hx
  | .optional _ _, hx | .not _ _, hx => exact hleaf _ hx

theorem idle (i : Nat) : (marks i).idle ≤ 100 := by
  match i with
  | 0 | 1 | 2 | i + 3 => simp [marks]

theorem syntaxOk : SyntaxOk syn := C26_check_sound (by decide +kernel)

theorem no_texts : ∀ x, Part syn.rules x → ∀ b p id, x ≠ .text b p id := by
  apply eachPart_part
  simp [EachPart, EachPartOf, syn, value, product, sum, doc, w, c]

end Calc

/-- Where there are no texts there are no errors in them. -/
theorem no_text_error {L : Lexer} (hL : L.Lawful) {syn : Syntax} (ht : ∀ x, Part syn.rules x → ∀ b p id, x ≠ .text b p id)
    {text : Str} {toks toks' : List Tok} {ind : Indent} {e : RErr} (h : Parses L syn text toks ind (.err e toks')) :
    ¬ InString e.err := by
  obtain ⟨tr, h1, h2⟩ := parses_err_run.1 ⟨toks', h⟩
  have h3 := C56_every_failure hL h1 e (reported_mem h2)
  intro hs
  cases h3 with
  | rule hx hb =>
    cases hb with
    | badText => exact ht _ hx _ _ _ rfl
    | _ => exact hs
  | _ => exact hs

/-- What stands before an error in a sum is the beginning of a sum. -/
theorem C118_calc {text : Str} {toks toks' : List Tok} {ind : Indent} {e : RErr}
    (h : Parses stdLexer Calc.syn text toks ind (.err e toks')) :
    ∃ rest ts, Parses stdLexer Calc.syn (text.take e.range.offset ++ rest) toks ind (.ok (toks ++ ts)) :=
  C118_viable stdLexer_lawful stdLexer_exact Calc.ll1 Calc.idle Calc.continues Calc.syntaxOk (by simp [Calc.syn]) Calc.productive h
    (no_text_error stdLexer_lawful Calc.no_texts h)

/-- Something is missing after `2*(3+`. -/
example : ∃ rest ts, rest ≠ [] ∧ Parses stdLexer Calc.syn (c!"2*(3+" ++ rest) [] Indent.default (.ok ts) := by
  have h0 : (match parseWithIndent stdLexer 40 Calc.syn c!"2*(3+" [] Indent.default with
      | .err e _ => e.range.offset == 5 | _ => false) = true := by decide +kernel
  split at h0
  · rename_i e toks' h
    have h : Parses stdLexer Calc.syn c!"2*(3+" [] Indent.default (.err e toks') := ⟨by simp, 40, h⟩
    obtain ⟨rest, ts, h1, h2⟩ := C118_incomplete stdLexer_lawful stdLexer_exact Calc.ll1 Calc.idle Calc.continues Calc.syntaxOk
      (by simp [Calc.syn]) Calc.productive h (no_text_error stdLexer_lawful Calc.no_texts h) (by simpa using h0)
    exact ⟨rest, _, h1, h2⟩
  · cases h0

end Verif.Props
