import Verif.Proofs.Origin
import Verif.Proofs.Api
import Verif.Proofs.StdLexer
import Verif.Props.Syntax
/-
C56: errors tell the truth.  C57: every item comes from a rule and from the text at its range.
-/
namespace Verif.Props
open Spec

theorem inside_zero (text : Str) : Inside text ⟨text, 0⟩ := by simp [Inside]

theorem part_last {refs : List Rule} {r : Rule} (h : refs.getLast? = some r) : Part refs r :=
  ⟨r, List.mem_of_getLast? h, .refl⟩

/-- C56: every elementary failure met while a text is rejected is true. -/
theorem C56_every_failure {L : Lexer} (hL : L.Lawful) {syn : Syntax} {text : Str} {ind : Indent}
    {tr : List RErr} (h : Rejects L syn text ind tr) : ∀ e ∈ tr, Truthful L syn text ind e := by
  cases h with
  | noRules h => simpa using Truthful.noRules h
  | fails hr h =>
    intro e he
    obtain ⟨x, hx, hb⟩ := (run_told (E := envOf L syn.rules ind) hL text h (inside_zero text)
      (part_last hr)).errs e he
    exact .rule hx hb
  | short hr h hn =>
    intro e he
    rcases List.mem_append.1 he with he | he
    · obtain ⟨x, hx, hb⟩ := (run_told (E := envOf L syn.rules ind) hL text h (inside_zero text)
        (part_last hr)).errs e he
      exact .rule hx hb
    · simp at he; subst he; exact .stopped hr hn ⟨_, _, _, h⟩

/-- C56: the error that a parse returns is true of the text. -/
theorem C56_returned {L : Lexer} (hL : L.Lawful) {syn : Syntax} {text : Str} {toks toks' : List Tok}
    {ind : Indent} {e : RErr} (h : Parses L syn text toks ind (.err e toks')) :
    Truthful L syn text ind e := by
  obtain ⟨tr, h1, h2⟩ := parses_err_run.1 ⟨toks', h⟩
  exact C56_every_failure hL h1 e (reported_mem h2)

/-- C56: "expected tag": the syntax has a rule for the tag with the reported number, and the text
does not have the tag at the reported place. -/
theorem C56_expected_tag {L : Lexer} (hL : L.Lawful) {syn : Syntax} {text : Str}
    {toks toks' : List Tok} {ind : Indent} {rg : Range} {t : Str} {id : Nat}
    (h : Parses L syn text toks ind (.err ⟨rg, .expectedTag t id⟩ toks')) :
    rg.length = 0 ∧ ¬ t <+: text.drop rg.offset ∧
      ∃ inv prop, Part syn.rules (.tag t false inv prop id) := by
  cases C56_returned hL h with
  | rule hx hb => cases hb with
    | tag ht => exact ⟨rfl, ht, _, _, hx⟩

/-- C56: "expected end": the last rule matches the text up to the reported place, and there is more
text. -/
theorem C56_expected_end {L : Lexer} (hL : L.Lawful) {syn : Syntax} {text : Str}
    {toks toks' : List Tok} {ind : Indent} {rg : Range}
    (h : Parses L syn text toks ind (.err ⟨rg, .expectedEnd⟩ toks')) :
    rg.length = 0 ∧ rg.offset < text.length ∧ ∃ r, syn.rules.getLast? = some r ∧
      ∃ ts j tr, Run (envOf L syn.rules ind) (.rule r) ⟨text, 0⟩ ind.indent
        (some (rg.offset, ts)) j tr := by
  cases C56_returned hL h with
  | stopped hr hn hrun => exact ⟨rfl, hn, _, hr, hrun⟩
  | rule hx hb => cases hb

/-- C56: "did not expect": the reported characters are in the text at the reported range. -/
theorem C56_did_not_expect {L : Lexer} (hL : L.Lawful) {syn : Syntax} {text : Str}
    {toks toks' : List Tok} {ind : Indent} {rg : Range} {t : Str} {id : Nat}
    (h : Parses L syn text toks ind (.err ⟨rg, .didNotExpectTag t id⟩ toks')) :
    t = (text.drop rg.offset).take rg.length := by
  cases C56_returned hL h with
  | rule hx hb => cases hb with
    | notTag ht => exact (List.prefix_iff_eq_take.1 ht)
    | not ht => rfl

/-- C57: every item that a parse adds comes from a rule of the syntax and from the text at its
range. -/
theorem C57_items {L : Lexer} (hL : L.Lawful) {syn : Syntax} {text : Str} {toks toks' : List Tok}
    {ind : Indent} (h : Parses L syn text toks ind (.ok toks')) :
    ∃ ts, toks' = toks ++ ts ∧ ∀ t ∈ ts, ∃ x, Part syn.rules x ∧
      Records (envOf L syn.rules ind) text x t := by
  obtain ⟨r, n, ts, j, tr, hr, h1, -, h2⟩ := parses_ok_run.1 h
  exact ⟨ts, h2, (run_told (E := envOf L syn.rules ind) hL text h1 (inside_zero text)
    (part_last hr)).toks n ts rfl⟩

/-- C57: the same for a single rule of the syntax at any place of the text. -/
theorem C57_items_of_rule {L : Lexer} (hL : L.Lawful) {refs : List Rule} {text : Str} {off i n j}
    {ind : Indent} {r : Rule} {ts : List Tok} {tr : List RErr} (hr : Part refs r)
    (h : Run (envOf L refs ind) (.rule r) (from_ text off) i (some (n, ts)) j tr) :
    ∀ t ∈ ts, ∃ x, Part refs x ∧ Records (envOf L refs ind) text x t :=
  (run_told (E := envOf L refs ind) hL text h (by simp [Inside, from_]) hr).toks n ts rfl

/-- C57: a flag is the value of a tag rule with its name: not inverted iff the flag is true. -/
theorem C57_bool {L : Lexer} (hL : L.Lawful) {syn : Syntax} {text : Str} {toks' : List Tok}
    {ind : Indent} (h : Parses L syn text [] ind (.ok toks')) {rg : Range} {n : Str} {b : Bool}
    (ht : ⟨rg, .bool n b⟩ ∈ toks') :
    ∃ s neg id, Part syn.rules (.tag s neg (!b) (some n) id) ∧
      (neg = false → rg.length = s.length ∧ s <+: text.drop rg.offset) ∧
      (neg = true → rg.length = 0 ∧ ¬ s <+: text.drop rg.offset) := by
  obtain ⟨ts, rfl, hts⟩ := C57_items hL h
  obtain ⟨x, hx, hr⟩ := hts _ ht
  cases hr with
  | tag h => exact ⟨_, false, _, by simpa using hx, by simp [h], by simp⟩
  | notTag h => exact ⟨_, true, _, by simpa using hx, by simp, by simp [h]⟩

/-- `"a":!"x" ..";"!:"s" ";"`. -/
def exOrigin : Syntax :=
  ⟨[.sequence [.tag c!"a" false true (some c!"x") 1, .untilAny c!";" false (some c!"s") 2,
    .tag c!";" false false none 3] 4], [c!"doc"]⟩

/-- An error of the syntax, and what it says: there is no `;` at the end of the text. -/
example : ∃ e toks', Parses stdLexer exOrigin c!"abc" [] Indent.default (.err e toks') ∧
    e = ⟨⟨3, 0⟩, .expectedTag c!";" 3⟩ ∧ ¬ c!";" <+: (c!"abc").drop 3 := by
  have h : Parses stdLexer exOrigin c!"abc" [] Indent.default
      (.err ⟨⟨3, 0⟩, .expectedTag c!";" 3⟩ [⟨⟨0, 1⟩, .bool c!"x" false⟩,
        ⟨⟨1, 2⟩, .string c!"s" c!"bc"⟩]) := ⟨by simp, 9, by decide +kernel⟩
  exact ⟨_, _, h, rfl, (C56_expected_tag stdLexer_lawful h).2.1⟩

example : Parses stdLexer exOrigin c!"abc;" [] Indent.default (.ok
    [⟨⟨0, 1⟩, .bool c!"x" false⟩, ⟨⟨1, 2⟩, .string c!"s" c!"bc"⟩]) ∧
    ∃ s neg id, Part exOrigin.rules (.tag s neg true (some c!"x") id) ∧
      (neg = false → 1 = s.length ∧ s <+: c!"abc;") ∧ (neg = true → 1 = 0 ∧ ¬ s <+: c!"abc;") := by
  have h : Parses stdLexer exOrigin c!"abc;" [] Indent.default (.ok
    [⟨⟨0, 1⟩, .bool c!"x" false⟩, ⟨⟨1, 2⟩, .string c!"s" c!"bc"⟩]) := ⟨by simp, 9, by decide +kernel⟩
  exact ⟨h, C57_bool stdLexer_lawful h (List.mem_cons_self ..)⟩

end Verif.Props
