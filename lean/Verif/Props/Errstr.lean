import Verif.Props.Syntax
/-
`parse_errstr` and `parse_errstr_with_indent`: C65.
-/
namespace Verif.Props
open Verif Verif.Spec

variable {L : Lexer} {E : ErrText} {syn : Syntax} {text : Str} {toks toks' : List Tok} {ind : Indent}

/-- `parse_errstr_with_indent` accepts what `parse_with_indent` accepts, with the same data, and
otherwise returns the report of its error. -/
theorem C65_errstr {r : Except Str Unit} :
    ParseErrstr L E syn text toks ind r toks' ↔
      (Parses L syn text toks ind (.ok toks') ∧ r = .ok ()) ∨
      ∃ e msg, Parses L syn text toks ind (.err e toks') ∧ reportErr E text e = .ok msg ∧ r = .error msg := by
  constructor
  · rintro ⟨n, h⟩
    unfold parseErrstrWithIndent at h
    split at h
    · cases h
    · cases h
    · rename_i hp
      cases h
      exact .inl ⟨⟨by simp, n, hp⟩, rfl⟩
    · rename_i e _ hp
      obtain ⟨msg, hm, h⟩ := Comp.bind_ok.1 h
      cases h
      exact .inr ⟨e, msg, ⟨by simp, n, hp⟩, hm, rfl⟩
  · rintro (⟨⟨_, n, h⟩, rfl⟩ | ⟨e, msg, ⟨_, n, h⟩, hm, rfl⟩)
    · exact ⟨n, by unfold parseErrstrWithIndent; rw [h]; rfl⟩
    · refine ⟨n, ?_⟩
      unfold parseErrstrWithIndent
      rw [h]
      exact Comp.bind_ok.2 ⟨msg, hm, rfl⟩

/-- `parse_errstr` has no indentation to begin with, aligns the first line, and takes four spaces for
a tab. -/
theorem C65_default {r : Except Str Unit} :
    (∃ n, parseErrstr L E n syn text toks = .ok (r, toks')) ↔ ParseErrstr L E syn text toks ⟨0, true, 4⟩ r toks' :=
  Iff.rfl

/-- It runs for ever when `parse_with_indent` does, and panics when it does; writing the report adds
no panic. -/
theorem C65_no_other_outcome :
    ((∀ n, parseErrstrWithIndent L E n syn text toks ind = .timeout) ↔ ParseDiverges L syn text toks ind) ∧
    ((∃ n, parseErrstrWithIndent L E n syn text toks ind = .panic) ↔ Parses L syn text toks ind .panic) := by
  have key : ∀ n, (parseErrstrWithIndent L E n syn text toks ind = .timeout ↔
      parseWithIndent L n syn text toks ind = .timeout) ∧
      (parseErrstrWithIndent L E n syn text toks ind = .panic ↔ parseWithIndent L n syn text toks ind = .panic) := by
    intro n
    unfold parseErrstrWithIndent
    cases h : parseWithIndent L n syn text toks ind with
    | timeout => simp
    | panic => simp
    | ok t => simp [pure]
    | err e t =>
      obtain ⟨msg, hm⟩ := writeErr_ok E (handlerLines text) e
      simp [reportErr, hm, Bind.bind, Comp.bind, pure]
  constructor
  · exact forall_congr' fun n => (key n).1
  · constructor
    · rintro ⟨n, h⟩
      exact ⟨by simp, n, (key n).2.1 h⟩
    · rintro ⟨_, n, h⟩
      exact ⟨n, (key n).2.2 h⟩

/-- The report says what the error is, and, if the lines before it have single-byte characters only,
shows the line and the column in which it is, with a caret under it. -/
theorem C65_report (hL : L.Lawful) {msg : Str} (h : ParseErrstr L E syn text toks ind (.error msg) toks') :
    ∃ e, Parses L syn text toks ind (.err e toks') ∧
      (∃ rest, msg = c!"Error " ++ e.err.text E ++ ['\n'] ++ rest) ∧
      (Ascii (linesAbove text e.range.offset) → ∃ skip before rest,
        msg = c!"Error " ++ e.err.text E ++ ['\n'] ++ before ++ excerptText text e.range.offset skip ++ rest) := by
  rcases C65_errstr.1 h with ⟨_, h⟩ | ⟨e, msg', hp, hm, hr⟩
  · cases h
  · cases hr
    refine ⟨e, hp, ?_, fun ha => ?_⟩
    · obtain ⟨rest, h'⟩ := C62_report_shows_message E text e
      rw [h'] at hm
      cases hm
      exact ⟨rest, rfl⟩
    · obtain ⟨skip, before, rest, h'⟩ := C35_parse_error hL E hp ha
      rw [h'] at hm
      cases hm
      exact ⟨skip, before, rest, rfl⟩

/-- `load_syntax_data` is `syntax_errstr` on the first file, then `parse_errstr` with the result on
the second. -/
theorem C65_load {s d : Str} {r : Except Str (List Tok)} :
    LoadReturns L E s d r ↔
      (∃ msg, ErrstrReturns L E s (.error msg) ∧ r = .error msg) ∨
      ∃ syn, ErrstrReturns L E s (.ok syn) ∧
        ((∃ toks, ParseErrstr L E syn d [] ⟨0, true, 4⟩ (.ok ()) toks ∧ r = .ok toks) ∨
         ∃ msg toks, ParseErrstr L E syn d [] ⟨0, true, 4⟩ (.error msg) toks ∧ r = .error msg) := by
  rw [C52_load]
  constructor
  · rintro (⟨e, msg, h1, h2, h3⟩ | ⟨syn, h1, ⟨toks, h2, h3⟩ | ⟨e, toks, msg, h2, h3, h4⟩⟩)
    · exact .inl ⟨msg, C52_errstr.2 (.inr ⟨e, msg, h1, h2, rfl⟩), h3⟩
    · exact .inr ⟨syn, C52_errstr.2 (.inl ⟨syn, h1, rfl⟩), .inl ⟨toks, C65_errstr.2 (.inl ⟨h2, rfl⟩), h3⟩⟩
    · exact .inr ⟨syn, C52_errstr.2 (.inl ⟨syn, h1, rfl⟩), .inr ⟨msg, toks,
        C65_errstr.2 (.inr ⟨e, msg, h2, h3, rfl⟩), h4⟩⟩
  · rintro (⟨msg, h1, h2⟩ | ⟨syn, h1, h2⟩)
    · rcases C52_errstr.1 h1 with ⟨_, _, h⟩ | ⟨e, msg', h3, h4, h5⟩
      · cases h
      · cases h5
        exact .inl ⟨e, msg, h3, h4, h2⟩
    · rcases C52_errstr.1 h1 with ⟨syn', h3, h⟩ | ⟨e, msg', h3, h4, h5⟩
      · cases h
        refine .inr ⟨syn, h3, ?_⟩
        rcases h2 with ⟨toks, h4, h5⟩ | ⟨msg, toks, h4, h5⟩
        · rcases C65_errstr.1 h4 with ⟨h6, _⟩ | ⟨_, _, _, _, h⟩
          · exact .inl ⟨toks, h6, h5⟩
          · cases h
        · rcases C65_errstr.1 h4 with ⟨_, h⟩ | ⟨e, msg', h6, h7, h⟩
          · cases h
          · cases h
            exact .inr ⟨e, toks, msg, h6, h7, h5⟩
      · cases h5

/-- `syntax_errstr` panics when `syntax` does, and runs for ever when `syntax` does. -/
theorem C52_errstr_otherwise {text : Str} :
    ((∃ n, readSyntaxErrstr L E n text = .panic) ↔ SyntaxPanics L text) ∧
    ((∀ n, readSyntaxErrstr L E n text = .timeout) ↔ SyntaxRuns L text) := by
  have key : ∀ n, (readSyntaxErrstr L E n text = .panic ↔ readSyntax L n text = .panic) ∧
      (readSyntaxErrstr L E n text = .timeout ↔ readSyntax L n text = .timeout) := by
    intro n
    unfold readSyntaxErrstr
    cases h : readSyntax L n text with
    | timeout => simp [Bind.bind, Comp.bind]
    | panic => simp [Bind.bind, Comp.bind]
    | ok x =>
      cases x with
      | ok syn => simp [Bind.bind, Comp.bind, pure]
      | error e =>
        obtain ⟨msg, hm⟩ := writeErr_ok E (handlerLines text) e
        simp [reportErr, hm, Bind.bind, Comp.bind, pure]
  exact ⟨exists_congr fun n => (key n).1, forall_congr' fun n => (key n).2⟩

/-- `load_syntax_data` panics without a report when `syntax` does or the parser does with the rules it returns, and runs
for ever when one of them does. -/
theorem C65_load_otherwise {s d : Str} :
    ((∃ n, loadSyntaxData L E n s d = .panic) ↔
      SyntaxPanics L s ∨ ∃ syn, SyntaxReturns L s (.ok syn) ∧ Parses L syn d [] ⟨0, true, 4⟩ .panic) ∧
    ((∀ n, loadSyntaxData L E n s d = .timeout) ↔
      SyntaxRuns L s ∨ ∃ syn, SyntaxReturns L s (.ok syn) ∧ ParseDiverges L syn d [] ⟨0, true, 4⟩) := by
  have herr : ∀ {n e}, readSyntax L n s = .ok (.error e) → ∃ w, loadSyntaxData L E n s d = .ok w := by
    intro n e h
    obtain ⟨msg, hm⟩ := writeErr_ok E (handlerLines s) e
    exact ⟨.error msg, by simp [loadSyntaxData, h, reportErr, hm, Bind.bind, Comp.bind, pure]⟩
  have hnot : ∀ {n}, readSyntax L n s = .timeout → loadSyntaxData L E n s d = .timeout := by
    intro n h
    simp [loadSyntaxData, h, Bind.bind, Comp.bind]
  have hpan : ∀ {n}, readSyntax L n s = .panic → loadSyntaxData L E n s d = .panic := by
    intro n h
    simp [loadSyntaxData, h, Bind.bind, Comp.bind]
  have hok : ∀ {n syn}, readSyntax L n s = .ok (.ok syn) →
      (loadSyntaxData L E n s d = .panic ↔ parseWithIndent L n syn d [] ⟨0, true, 4⟩ = .panic) ∧
      (loadSyntaxData L E n s d = .timeout ↔ parseWithIndent L n syn d [] ⟨0, true, 4⟩ = .timeout) := by
    intro n syn h
    have e : loadSyntaxData L E n s d = (match parseWithIndent L n syn d [] ⟨0, true, 4⟩ with
        | .timeout => .timeout
        | .panic => .panic
        | .ok tokens => pure (.ok tokens)
        | .err e _ => do
          let w ← reportErr E d e
          return .error w) := by
      simp only [loadSyntaxData, h]
      rfl
    rw [e]
    cases hp : parseWithIndent L n syn d [] ⟨0, true, 4⟩ with
    | timeout => simp
    | panic => simp
    | ok t => simp [pure]
    | err e t =>
      obtain ⟨msg, hm⟩ := writeErr_ok E (handlerLines d) e
      simp [reportErr, hm, Bind.bind, Comp.bind, pure]
  have hle : ∀ {n m x}, n ≤ m → readSyntax L n s = .ok x → readSyntax L m s = .ok x := fun h hx =>
    ((readSyntax_le h s).eq (by simp [hx])).trans hx
  refine ⟨⟨?_, ?_⟩, ?_, ?_⟩
  · rintro ⟨n, h⟩
    cases hr : readSyntax L n s with
    | timeout => rw [hnot hr] at h; cases h
    | panic => exact .inl ⟨n, hr⟩
    | ok x =>
      cases x with
      | error e =>
        obtain ⟨w, hw⟩ := herr hr
        rw [hw] at h
        cases h
      | ok syn => exact .inr ⟨syn, ⟨n, hr⟩, by simp, n, (hok hr).1.1 h⟩
  · rintro (⟨n, h⟩ | ⟨syn, ⟨n, h⟩, -, m, hm⟩)
    · exact ⟨n, hpan h⟩
    · exact ⟨max n m, (hok (hle (Nat.le_max_left _ _) h)).1.2
        ((parse_mono (Nat.le_max_right _ _) (by simp [hm])).trans hm)⟩
  · intro h
    rcases C46_one_outcome (L := L) (text := s) |>.2.2.2.2 with ⟨x, n, hx⟩ | ⟨n, hp⟩ | hr
    · cases x with
      | error e =>
        obtain ⟨w, hw⟩ := herr hx
        rw [h n] at hw
        cases hw
      | ok syn =>
        refine .inr ⟨syn, ⟨n, hx⟩, fun m => ?_⟩
        by_cases ht : parseWithIndent L m syn d [] ⟨0, true, 4⟩ = .timeout
        · exact ht
        · have h1 := (hok (hle (Nat.le_max_left n m) hx)).2.1 (h _)
          rw [parse_mono (Nat.le_max_right n m) ht] at h1
          exact h1
    · have := hpan hp
      rw [h n] at this
      cases this
    · exact .inl hr
  · rintro (h | ⟨syn, ⟨n, hx⟩, h⟩) m
    · exact hnot (h m)
    · cases hr : readSyntax L m s with
      | timeout => exact hnot hr
      | panic => exact absurd ⟨m, hr⟩ (C46_one_outcome.2.1 _ ⟨n, hx⟩)
      | ok x =>
        cases C46_one_outcome.1 _ _ ⟨n, hx⟩ ⟨m, hr⟩
        exact (hok hr).2.2 (h m)

/-- Loading with rules on which `syntax` panics, or runs for ever. -/
example (E : ErrText) (d : Str) : (∃ n, loadSyntaxData stdLexer E n c!"18446744073709552 a = \"x\"" d = .panic) ∧
    ∀ n, loadSyntaxData stdLexer E n c!"0 a = [a \"x\"]\n1 b = {a \"y\"}\n" d = .timeout :=
  ⟨C65_load_otherwise.1.2 (.inl exPanics), C65_load_otherwise.2.2 (.inl exRuns)⟩

/-- The message, if there is one, and the data. -/
def errstrOut : Comp (Except Str Unit × List Tok) → Option (Option Str × List Tok)
  | .ok (.ok _, toks) => some (none, toks)
  | .ok (.error msg, toks) => some (some msg, toks)
  | _ => none

/-- A letter and a text in the next line. -/
def exErrstr : Syntax := ⟨[.sequence [.tag c!"a" false false none 1, .whitespace false 2,
  .text true (some c!"t") 3] 4], [c!"doc"]⟩

example : errstrOut (parseErrstr stdLexer exErrText 9 exErrstr c!"a\n \"b\"" []) =
    some (none, [⟨⟨3, 3⟩, .string c!"t" c!"b"⟩]) := by decide +kernel
example : errstrOut (parseErrstr stdLexer exErrText 9 exErrstr c!"a\n 1" []) =
    some (some c!"Error #3, Expected text\n2,2:  1\n2,2:  ^\n", []) := by decide +kernel

end Verif.Props
