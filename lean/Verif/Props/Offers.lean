import Verif.Proofs.Offers
import Verif.Props.ViableCalc
import Verif.Props.Continuable
/-
C121: what an error says was expected could have stood there.
-/
namespace Verif.Props
open Spec

section
variable {L : Lexer} {M : Nat → Mark} {N A : Nat → Char → Prop} {K : Char → Prop} {syn : Syntax} {I : Nat}

/-- The only errors without a rule are those about the end of the text. -/
def AtEnd : ParseError → Prop
  | .expectedEnd => True
  | _ => False

/-- For every failure met while rejecting a text there is a rule that failed, and whatever that rule generates could have
stood there. -/
theorem C121_failures (hL : L.Lawful) (hX : L.Exact) (hU : LL1 L M N syn.rules) (hI : ∀ i, (M i).idle ≤ I)
    (hC : Continues L K M A syn.rules) (hs : SyntaxOk syn) (hne : syn.rules ≠ []) {ind : Indent} (hP : Productive L syn.rules ind)
    {text : Str} {tr : List RErr} (h : Rejects L syn text ind tr) :
    ∀ e ∈ tr, ¬ InString e.err → ¬ AtEnd e.err → ∃ x, Part syn.rules x ∧ Misses x e.err ∧
      ∀ w, Yields (envOf L syn.rules ind) (.rule x) w →
        ∃ y ts, text.take e.range.offset ++ w <+: y ∧ Accepts L syn y ind ts := by
  have key : ∀ {r o j tr}, syn.rules.getLast? = some r →
      Run (envOf L syn.rules ind) (.rule r) ⟨text, 0⟩ ind.indent o j tr →
      ∀ e ∈ tr, ¬ InString e.err → ∃ x, Part syn.rules x ∧ Misses x e.err ∧
      ∀ w, Yields (envOf L syn.rules ind) (.rule x) w →
        ∃ y ts, text.take e.range.offset ++ w <+: y ∧ Accepts L syn y ind ts := by
    intro r o j tr hr h e he hn
    have hq : Part syn.rules r := ⟨r, List.mem_of_getLast? hr, .refl⟩
    obtain ⟨_, x, hx, hx', hf⟩ := run_offers (E := envOf L syn.rules ind) hL hX hU hI hC hP (plainly_of hU) h hq hq e he hn
    refine ⟨x, hx, hx', fun w hw => ?_⟩
    obtain ⟨y, ⟨ts, h1⟩, h2⟩ := hf w hw
    exact ⟨y, ts, h2, (C111_generated hL hU hI hs).2 ⟨r, hr, h1⟩⟩
  cases h with
  | noRules h => exact absurd h hne
  | fails hr h => exact fun e he hn _ => key hr h e he hn
  | @short r n ts j tr hr h hn =>
    intro e he hs' ha
    rcases List.mem_append.1 he with he | he
    · exact key hr h e he hs'
    · simp only [List.mem_singleton] at he
      subst he
      exact absurd trivial ha

/-- So it is for the error that is reported. -/
theorem C121_expected (hL : L.Lawful) (hX : L.Exact) (hU : LL1 L M N syn.rules) (hI : ∀ i, (M i).idle ≤ I)
    (hC : Continues L K M A syn.rules) (hs : SyntaxOk syn) (hne : syn.rules ≠ []) {ind : Indent} (hP : Productive L syn.rules ind)
    {text : Str} {toks toks' : List Tok} {e : RErr} (h : Parses L syn text toks ind (.err e toks')) (hn : ¬ InString e.err)
    (ha : ¬ AtEnd e.err) :
    ∃ x, Part syn.rules x ∧ Misses x e.err ∧ ∀ w, Yields (envOf L syn.rules ind) (.rule x) w →
      ∃ rest ts, Parses L syn (text.take e.range.offset ++ (w ++ rest)) toks ind (.ok (toks ++ ts)) := by
  obtain ⟨tr, h1, h2⟩ := parses_err_run.1 ⟨toks', h⟩
  obtain ⟨x, hx, hx', hf⟩ := C121_failures hL hX hU hI hC hs hne hP h1 e (reported_mem h2) hn ha
  refine ⟨x, hx, hx', fun w hw => ?_⟩
  obtain ⟨y, ts, ⟨rest, rfl⟩, h3⟩ := hf w hw
  rw [List.append_assoc] at h3
  exact ⟨rest, ts, (C04_ok_iff_meaning hL).2 ⟨ts, h3, rfl⟩⟩

/-- A tag that is expected could have stood there. -/
theorem C121_tag (hL : L.Lawful) (hX : L.Exact) (hU : LL1 L M N syn.rules) (hI : ∀ i, (M i).idle ≤ I)
    (hC : Continues L K M A syn.rules) (hs : SyntaxOk syn) (hne : syn.rules ≠ []) {ind : Indent} (hP : Productive L syn.rules ind)
    {text t : Str} {toks toks' : List Tok} {range : Range} {id : DebugId}
    (h : Parses L syn text toks ind (.err ⟨range, .expectedTag t id⟩ toks')) :
    ∃ rest ts, Parses L syn (text.take range.offset ++ (t ++ rest)) toks ind (.ok (toks ++ ts)) := by
  obtain ⟨x, hx, hx', hf⟩ := C121_expected hL hX hU hI hC hs hne hP h (fun h => h) (fun h => h)
  cases hx' with
  | tag => exact hf t ⟨_, .token (i := 0) trivial (.tag_ok (List.prefix_refl t))⟩

/-- If whitespace is expected, any could have stood there. -/
theorem C121_whitespace (hL : L.Lawful) (hX : L.Exact) (hU : LL1 L M N syn.rules) (hI : ∀ i, (M i).idle ≤ I)
    (hC : Continues L K M A syn.rules) (hs : SyntaxOk syn) (hne : syn.rules ≠ []) {ind : Indent} (hP : Productive L syn.rules ind)
    {text : Str} {toks toks' : List Tok} {range : Range} {id : DebugId}
    (h : Parses L syn text toks ind (.err ⟨range, .expectedWhitespace id⟩ toks')) {w : Str} (hw : w ≠ []) (hw' : ∀ c ∈ w, isWs c = true) :
    ∃ rest ts, Parses L syn (text.take range.offset ++ (w ++ rest)) toks ind (.ok (toks ++ ts)) := by
  obtain ⟨x, hx, hx', hf⟩ := C121_expected hL hX hU hI hC hs hne hP h (fun h => h) (fun h => h)
  cases hx' with
  | whitespace =>
    exact hf w ⟨_, .token (i := 0) trivial (.ws_ok ⟨Nat.le_refl _, by simpa using hw', by simp⟩
      fun h0 => absurd (List.eq_nil_of_length_eq_zero h0) hw)⟩

/-- If the end is expected, the text could have ended there. -/
theorem C121_end (hL : L.Lawful) (hX : L.Exact) (hU : LL1 L M N syn.rules) (hI : ∀ i, (M i).idle ≤ I)
    (hC : Continues L K M A syn.rules) (hs : SyntaxOk syn) (hne : syn.rules ≠ []) {ind : Indent} (hP : Productive L syn.rules ind)
    {text : Str} {toks toks' : List Tok} {range : Range}
    (h : Parses L syn text toks ind (.err ⟨range, .expectedEnd⟩ toks')) :
    ∃ ts, Parses L syn (text.take range.offset) toks ind (.ok (toks ++ ts)) := by
  obtain ⟨tr, h1, h2⟩ := parses_err_run.1 ⟨toks', h⟩
  have h3 := reported_mem h2
  have key : ∀ {r o j tr}, syn.rules.getLast? = some r →
      Run (envOf L syn.rules ind) (.rule r) ⟨text, 0⟩ ind.indent o j tr → ⟨range, .expectedEnd⟩ ∉ tr := by
    intro r o j tr hr h hm
    have hq : Part syn.rules r := ⟨r, List.mem_of_getLast? hr, .refl⟩
    obtain ⟨_, x, hx, hx', hf⟩ := run_offers (E := envOf L syn.rules ind) hL hX hU hI hC hP (plainly_of hU) h hq hq _ hm (fun h => h)
    cases hx'
  cases h1 with
  | noRules h => exact absurd h hne
  | fails hr h => exact absurd h3 (key hr h)
  | @short r n ts j tr hr h' hn =>
    rcases List.mem_append.1 h3 with he | he
    · exact absurd he (key hr h')
    · simp only [List.mem_singleton] at he
      cases he
      have hq : Part syn.rules r := ⟨r, List.mem_of_getLast? hr, .refl⟩
      obtain ⟨us, h1⟩ := yields_of_generates (E := envOf L syn.rules ind) hL hX hU hI hC hq
        (runs_generates (E := envOf L syn.rules ind) (plainly_of hU) h' hq _ _ rfl)
      exact ⟨us, (C04_ok_iff_meaning hL).2 ⟨us, (C111_generated hL hU hI hs).2 ⟨r, hr, h1⟩, rfl⟩⟩

/-- The conditions are those that C120 checks. -/
theorem C121_checked {nums : Bool → List Char} {ends : List Char} {o : Char} (hL : L.Lawful) (hX : L.Exact) (hn : NumbersBegin L nums) (hS : NumbersStop L ends)
    (ho : o ∉ alphabet nums syn.rules) {ms : List Found} {ns gs : List (List (Option Char))} {k : Nat}
    (h : confirmsAll nums syn.rules ms ns = true) (h' : confirmsContinues nums ends syn.rules ms gs k = true) (hs : SyntaxOk syn)
    (hne : syn.rules ≠ []) {text : Str} {toks toks' : List Tok} {ind : Indent} {e : RErr}
    (he : Parses L syn text toks ind (.err e toks')) (hns : ¬ InString e.err) (ha : ¬ AtEnd e.err) :
    ∃ x, Part syn.rules x ∧ Misses x e.err ∧ ∀ w, Yields (envOf L syn.rules ind) (.rule x) w →
      ∃ rest ts, Parses L syn (text.take e.range.offset ++ (w ++ rest)) toks ind (.ok (toks ++ ts)) := by
  obtain ⟨M, N, B, I, hI, hU, hC, hP⟩ := C120_sound hL hX hn hS ho h h' ind
  exact C121_expected hL hX hU hI hC hs hne hP he hns ha

end

/-! ### Examples -/

/-- What is expected in a sum could have stood there. -/
theorem C121_calc {text : Str} {toks toks' : List Tok} {ind : Indent} {e : RErr}
    (h : Parses stdLexer Calc.syn text toks ind (.err e toks')) (ha : ¬ AtEnd e.err) :
    ∃ x, Part Calc.syn.rules x ∧ Misses x e.err ∧ ∀ w, Yields (envOf stdLexer Calc.syn.rules ind) (.rule x) w →
      ∃ rest ts, Parses stdLexer Calc.syn (text.take e.range.offset ++ (w ++ rest)) toks ind (.ok (toks ++ ts)) :=
  C121_expected stdLexer_lawful stdLexer_exact Calc.ll1 Calc.idle Calc.continues Calc.syntaxOk (by simp [Calc.syn]) Calc.productive h
    (no_text_error stdLexer_lawful Calc.no_texts h) ha

/-- In `2*(3;` a parenthesis is expected, and after `2*(3)` there is a way to go on. -/
example : ∃ rest ts, Parses stdLexer Calc.syn (c!"2*(3)" ++ rest) [] Indent.default (.ok ts) := by
  have h0 : (match parseWithIndent stdLexer 60 Calc.syn c!"2*(3;" [] Indent.default with
      | .err ⟨⟨4, 0⟩, .expectedTag [')'] 5⟩ _ => true | _ => false) = true := by decide +kernel
  split at h0
  · rename_i toks' h
    obtain ⟨rest, ts, h1⟩ := C121_tag stdLexer_lawful stdLexer_exact Calc.ll1 Calc.idle Calc.continues Calc.syntaxOk
      (by simp [Calc.syn]) Calc.productive (⟨by simp, 60, h⟩ : Parses stdLexer Calc.syn c!"2*(3;" [] Indent.default _)
    exact ⟨rest, _, h1⟩
  · cases h0

/-- In `2)` the end is expected after `2`, which is a sum. -/
example : ∃ ts, Parses stdLexer Calc.syn c!"2" [] Indent.default (.ok ts) := by
  have h0 : (match parseWithIndent stdLexer 60 Calc.syn c!"2)" [] Indent.default with
      | .err ⟨⟨1, 0⟩, .expectedEnd⟩ _ => true | _ => false) = true := by decide +kernel
  split at h0
  · rename_i toks' h
    obtain ⟨ts, h1⟩ := C121_end stdLexer_lawful stdLexer_exact Calc.ll1 Calc.idle Calc.continues Calc.syntaxOk
      (by simp [Calc.syn]) Calc.productive (⟨by simp, 60, h⟩ : Parses stdLexer Calc.syn c!"2)" [] Indent.default _)
    exact ⟨_, h1⟩
  · cases h0

/-- The condition is needed: where the next character decides, but what has been read cannot be continued, an error may
expect whitespace where none could have stood. -/
theorem C121_needed (L : Lexer) (ind : Indent) : LL1 L (Lost.marks L) (fun _ _ => False) Lost.syn.rules ∧
    Productive L Lost.syn.rules ind ∧
    (∃ toks', Parses L Lost.syn c!"a x" [] ind (.err ⟨⟨2, 0⟩, .expectedWhitespace 3⟩ toks')) ∧
    ∀ w rest ts, ¬ Accepts L Lost.syn (c!"a " ++ (w ++ rest)) ind ts :=
  ⟨(C118_needed L ind).1, (C118_needed L ind).2.1, (C118_needed L ind).2.2.1, fun w rest => (C118_needed L ind).2.2.2 (w ++ rest)⟩

end Verif.Props
