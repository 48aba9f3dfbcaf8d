import Verif.Proofs.Api
import Verif.Proofs.RunProps
import Verif.Proofs.Erase
import Verif.Proofs.StdLexer
import Verif.Proofs.Spans
/-
Properties of `parse` as a whole: C01 - C09, C47, C48.
-/
namespace Verif.Props
open Spec

/-! A syntax used to show that the hypotheses below can be met:
`list = "(" .s?.({"," ";"}:sep item:item) ")"`, `item = {["a" "b"] .$:num}` roughly. -/

/-- `item = {["a":"a" "b"] "a":"a2"}` -/
def exItem : Rule :=
  .select [.sequence [.tag c!"a" false false (some c!"a") 1, .tag c!"b" false false none 2] 3,
    .tag c!"a" false true (some c!"a2") 4] 5

/-- `list = ["(" .s?.("," item:"item") ")"]` -/
def exSyntax : Syntax :=
  ⟨[exItem, .sequence [.tag c!"(" false false none 6,
      .separateBy (.node c!"item" (some c!"item") (some 0) 7) (.tag c!"," false false none 8) true true 9,
      .tag c!")" false false none 10] 11],
   [c!"item", c!"list"]⟩

/-- The data of `(ab,a,)`. -/
def exData : List Tok :=
  [⟨⟨1, 0⟩, .startNode c!"item"⟩, ⟨⟨1, 1⟩, .bool c!"a" true⟩, ⟨⟨1, 2⟩, .endNode c!"item"⟩,
   ⟨⟨4, 0⟩, .startNode c!"item"⟩, ⟨⟨4, 1⟩, .bool c!"a2" false⟩, ⟨⟨4, 1⟩, .endNode c!"item"⟩]

/-- A token the caller already has. -/
def exTok : Tok := ⟨⟨7, 7⟩, .bool c!"old" true⟩

theorem ex_ok : Parses stdLexer exSyntax c!"(ab,a,)" [exTok] Indent.default (.ok (exTok :: exData)) :=
  ⟨by simp, 20, by decide +kernel⟩

/-- The third item starts with `a`, so the vector holds the tokens of the failed attempts. -/
theorem ex_err : Parses stdLexer exSyntax c!"(ab,a" [exTok] Indent.default
    (.err ⟨⟨5, 0⟩, .expectedTag c!")" 10⟩ (exTok :: exData)) :=
  ⟨by simp, 20, by decide +kernel⟩

/-- Input left over after the last rule; the vector keeps a token of the failed item. -/
theorem ex_short : Parses stdLexer exSyntax c!"()x" [] Indent.default
    (.err ⟨⟨2, 0⟩, .expectedEnd⟩ [⟨⟨1, 0⟩, .startNode c!"item"⟩]) :=
  ⟨by simp, 20, by decide +kernel⟩

/-! ### C01 -/

/-- A successful parse has matched the last rule with exactly the whole text. -/
theorem C01_ok_reads_everything {L : Lexer} (hL : L.Lawful) {syn text toks ind toks'}
    (h : Parses L syn text toks ind (.ok toks')) :
    ∃ r ts ind' err, syn.rules.getLast? = some r ∧
      Succeeds L syn.rules r ⟨text, 0⟩ ind text.length ts ind' err ∧ toks' = toks ++ ts := by
  obtain ⟨r, n, ts, j, tr, hr, h1, h2, h3⟩ := parses_ok_run.1 h
  have hn := ((run_bounded hL h1).1 _ _ rfl).1
  have : n = text.length := by simp at hn; omega
  subst this
  exact ⟨r, ts, _, _, hr, succeeds_iff.2 ⟨j, tr, h1, rfl, rfl⟩, h3⟩

/-- If the last rule matches but stops early, parsing is an error at or after that place, and
nothing else can be returned. -/
theorem C01_short_match_is_error {L : Lexer} {syn : Syntax} {text : Str} {toks ind r n ts ind' err}
    (hr : syn.rules.getLast? = some r)
    (h : Succeeds L syn.rules r ⟨text, 0⟩ ind n ts ind' err) (hn : n < text.length) :
    (∃ e toks', Parses L syn text toks ind (.err e toks') ∧ n ≤ e.range.next) ∧
      ∀ o, Parses L syn text toks ind o → ∃ e toks', o = .err e toks' ∧ n ≤ e.range.next := by
  obtain ⟨j, tr, h1, _, rfl⟩ := succeeds_iff.1 h
  have hrej := Rejects.short (L := L) hr h1 hn
  obtain ⟨e, he⟩ := best_ne_none (tr := tr ++ [⟨⟨n, 0⟩, .expectedEnd⟩]) (by simp)
  have hrep := best_iff.1 he
  have hd : n ≤ e.range.next :=
    reported_max hrep ⟨⟨n, 0⟩, .expectedEnd⟩ (by simp)
  obtain ⟨toks', hp⟩ := (parses_err_run (toks := toks)).2 ⟨_, hrej, hrep⟩
  refine ⟨⟨e, toks', hp, hd⟩, ?_⟩
  rintro o ⟨ho, m, hm⟩
  obtain ⟨N, s', toks1, ha, hb, hc⟩ := h toks toks.length (Nat.le_refl _)
  have hev : eval L syn.rules m r ⟨toks, ind⟩ toks.length (Pos.new text 0) ≠ .timeout := by
    intro ht
    apply ho
    rw [← hm]
    simp only [parseWithIndent, hr, ht]
  have hc' : eval L syn.rules m r ⟨toks, ind⟩ toks.length (Pos.new text 0) =
      .ret (.ok ⟨0, n⟩ s' (best tr)) ⟨toks1, ind'⟩ := by
    have h2 := hc N (Nat.le_refl _)
    have := eval_det (n := N) hev (by change eval L syn.rules N r ⟨toks, ind⟩ toks.length ⟨text, 0⟩ ≠ _; rw [h2]; simp)
    rw [this]; exact h2
  simp only [parseWithIndent, hr, hc'] at hm
  rw [if_pos (by simpa [Range.next] using hn)] at hm
  refine ⟨_, _, hm.symm, ?_⟩
  have := le_retErr ⟨Range.empty (⟨0, n⟩ : Range).next, .expectedEnd⟩ (best tr)
  simpa [RErr.depth, Range.next, Range.empty] using this

example : ∃ r ts ind' err, exSyntax.rules.getLast? = some r ∧
    Succeeds stdLexer exSyntax.rules r ⟨c!"(ab,a,)", 0⟩ Indent.default 7 ts ind' err ∧
    exTok :: exData = [exTok] ++ ts :=
  C01_ok_reads_everything stdLexer_lawful ex_ok

/-! ### C02 -/

/-- Whatever `parse` returns, the old tokens are still there, in front; on Ok they are followed by
the data that the documented meaning of the rules assigns to the text, and nothing else. -/
theorem C02_old_tokens_untouched {L : Lexer} (hL : L.Lawful) {syn text toks ind} :
    (∀ e toks', Parses L syn text toks ind (.err e toks') → toks <+: toks') ∧
    (∀ toks', Parses L syn text toks ind (.ok toks') →
      ∃ ts, toks' = toks ++ ts ∧ Accepts L syn text ind ts) := by
  constructor
  · rintro e toks' ⟨_, n, h⟩
    exact parse_err_prefix h
  · intro toks' h
    obtain ⟨r, n, ts, j, tr, hr, h1, h2, h3⟩ := parses_ok_run.1 h
    have hn := ((run_bounded hL h1).1 _ _ rfl).1
    have : n = text.length := by simp at hn; omega
    subst this
    exact ⟨ts, h3, r, j, tr, hr, h1⟩

example : [exTok] <+: exTok :: exData :=
  (C02_old_tokens_untouched stdLexer_lawful).1 _ _ ex_err

/-! ### C03 -/

/-- The kind of outcome, the error and the tokens appended are the same for every vector the
caller passes; also running for ever and panicking do not depend on it. -/
theorem C03_independent_of_vector {L : Lexer} {syn text ind} (toks₁ toks₂ : List Tok) :
    (∀ ts, Parses L syn text toks₁ ind (.ok (toks₁ ++ ts)) →
      Parses L syn text toks₂ ind (.ok (toks₂ ++ ts))) ∧
    (∀ e t₁, Parses L syn text toks₁ ind (.err e t₁) →
      ∃ t₂, Parses L syn text toks₂ ind (.err e t₂)) ∧
    (Parses L syn text toks₁ ind .panic → Parses L syn text toks₂ ind .panic) ∧
    (ParseDiverges L syn text toks₁ ind → ParseDiverges L syn text toks₂ ind) := by
  refine ⟨fun ts h => ?_, fun e t₁ h => ?_, fun h => ?_, fun h n => ?_⟩
  · obtain ⟨r, n, ts', j, tr, hr, h1, h2, h3⟩ := parses_ok_run.1 h
    simp at h3
    subst h3
    exact parses_ok_run.2 ⟨r, n, ts, j, tr, hr, h1, h2, rfl⟩
  · exact parses_err_run.2 (parses_err_run.1 ⟨t₁, h⟩)
  · obtain ⟨_, n, h⟩ := h
    refine ⟨by simp, n, ?_⟩
    unfold parseWithIndent at h ⊢
    split
    · rename_i hr; simp [hr] at h
    · rename_i r hr
      have hs := eval_sim L syn.rules n r toks₁ toks₁.length toks₂ toks₂.length ind (Pos.new text 0)
      simp only [hr] at h
      revert hs h
      generalize eval L syn.rules n r ⟨toks₁, ind⟩ toks₁.length (Pos.new text 0) = a
      generalize eval L syn.rules n r ⟨toks₂, ind⟩ toks₂.length (Pos.new text 0) = b
      intro hs h
      cases hs with
      | timeout => simp at h
      | panic => rfl
      | ok => simp only at h; split at h <;> simp at h
      | err => simp at h
  · have h := h n
    unfold parseWithIndent at h ⊢
    split
    · rename_i hr; simp [hr] at h
    · rename_i r hr
      have hs := eval_sim L syn.rules n r toks₁ toks₁.length toks₂ toks₂.length ind (Pos.new text 0)
      simp only [hr] at h
      revert hs h
      generalize eval L syn.rules n r ⟨toks₁, ind⟩ toks₁.length (Pos.new text 0) = a
      generalize eval L syn.rules n r ⟨toks₂, ind⟩ toks₂.length (Pos.new text 0) = b
      intro hs h
      cases hs with
      | timeout => rfl
      | panic => simp at h
      | ok => simp only at h; split at h <;> simp at h
      | err => simp at h

example : Parses stdLexer exSyntax c!"(ab,a,)" [] Indent.default (.ok exData) :=
  (C03_independent_of_vector [exTok] []).1 exData ex_ok

/-! ### C04 -/

/-- The parser succeeds with data `ts` exactly when the documented meaning of the rules (no vector,
no truncation, no state) assigns `ts` to the text. -/
theorem C04_ok_iff_meaning {L : Lexer} (hL : L.Lawful) {syn text toks ind toks'} :
    Parses L syn text toks ind (.ok toks') ↔ ∃ ts, Accepts L syn text ind ts ∧ toks' = toks ++ ts := by
  constructor
  · intro h
    obtain ⟨ts, h1, h2⟩ := (C02_old_tokens_untouched hL).2 toks' h
    exact ⟨ts, h2, h1⟩
  · rintro ⟨ts, ⟨r, j, tr, hr, h⟩, rfl⟩
    exact parses_ok_run.2 ⟨r, _, ts, j, tr, hr, h, Nat.le_refl _, rfl⟩

/-- It fails exactly when the documented meaning rejects the text. -/
theorem C04_err_iff_meaning {L : Lexer} {syn text toks ind} :
    (∃ e toks', Parses L syn text toks ind (.err e toks')) ↔ ∃ tr, Rejects L syn text ind tr := by
  constructor
  · rintro ⟨e, toks', h⟩
    obtain ⟨tr, h, _⟩ := parses_err_run.1 ⟨toks', h⟩
    exact ⟨tr, h⟩
  · rintro ⟨tr, h⟩
    have : ∃ e, best tr = some e := by
      cases h with
      | noRules => exact ⟨_, rfl⟩
      | fails _ h => exact run_none_trace h
      | short => exact best_ne_none (by simp)
    obtain ⟨e, he⟩ := this
    obtain ⟨toks', h⟩ := (parses_err_run (toks := toks)).2 ⟨tr, h, best_iff.1 he⟩
    exact ⟨e, toks', h⟩

/-- The data of a text is unique. -/
theorem C04_data_unique {L : Lexer} {syn text ind ts ts'} (h : Accepts L syn text ind ts)
    (h' : Accepts L syn text ind ts') : ts = ts' := by
  obtain ⟨r, j, tr, hr, h⟩ := h
  obtain ⟨r', j', tr', hr', h'⟩ := h'
  rw [hr] at hr'
  cases hr'
  have := (h.det h').1
  simpa using this

example : Accepts stdLexer exSyntax c!"(ab,a,)" Indent.default exData := by
  obtain ⟨ts, h, he⟩ := (C04_ok_iff_meaning stdLexer_lawful).1 ex_ok
  simp at he
  exact he ▸ h

/-! ### C05 -/

/-- The data of a successful parse is well nested. -/
theorem C05_data_well_nested {L : Lexer} {syn text toks ind toks'}
    (h : Parses L syn text toks ind (.ok toks')) :
    ∃ ts, toks' = toks ++ ts ∧ WellNested (ts.map Tok.data) := by
  obtain ⟨r, n, ts, j, tr, hr, h1, h2, h3⟩ := parses_ok_run.1 h
  exact ⟨ts, h3, run_wellNested h1 _ _ rfl⟩

example : WellNested (exData.map Tok.data) := by
  obtain ⟨ts, h, h'⟩ := C05_data_well_nested ex_ok
  simp at h
  exact h ▸ h'

/-- Node by node: a node starts with an empty range, ends with the range of the text it was parsed
from, and its data lies in that range, in source order. -/
theorem C05_node_ranges {L : Lexer} (hL : L.Lawful) {syn text toks ind toks'}
    (h : Parses L syn text toks ind (.ok toks')) :
    ∃ ts, toks' = toks ++ ts ∧ Spans 0 text.length ts := by
  obtain ⟨r, n, ts, j, tr, hr, h1, h2, h3⟩ := parses_ok_run.1 h
  refine ⟨ts, h3, (run_spans h1 _ _ rfl).upper ?_⟩
  have := ((run_bounded hL h1).1 _ _ rfl).1
  simpa using this

/-! ### C06, C07 -/

/-- Every token of a successful parse lies inside the text. -/
theorem C06_ranges_in_text {L : Lexer} (hL : L.Lawful) {syn text toks ind toks'}
    (h : Parses L syn text toks ind (.ok toks')) :
    ∃ ts, toks' = toks ++ ts ∧ ∀ t ∈ ts, Within 0 text.length t.range := by
  obtain ⟨r, n, ts, j, tr, hr, h1, h2, h3⟩ := parses_ok_run.1 h
  have hb := (run_bounded hL h1).1 _ _ rfl
  refine ⟨ts, h3, fun t ht => ?_⟩
  have := hb.2.1 t ht
  have := hb.1
  simp [Within] at *
  omega

/-- Every token of a rule lies inside the range that the rule matched. -/
theorem C06_ranges_in_match {L : Lexer} (hL : L.Lawful) {refs r p ind n ts ind' err}
    (h : Succeeds L refs r p ind n ts ind' err) :
    n ≤ p.src.length ∧ ∀ t ∈ ts, Within p.off (p.off + n) t.range := by
  obtain ⟨j, tr, h, _⟩ := succeeds_iff.1 h
  have hb := (run_bounded hL h).1 _ _ rfl
  exact ⟨hb.1, hb.2.1⟩

/-- The tokens of a successful parse come in source order. -/
theorem C07_source_order {L : Lexer} (hL : L.Lawful) {syn text toks ind toks'}
    (h : Parses L syn text toks ind (.ok toks')) :
    ∃ ts, toks' = toks ++ ts ∧ InOrder ts := by
  obtain ⟨r, n, ts, j, tr, hr, h1, h2, h3⟩ := parses_ok_run.1 h
  exact ⟨ts, h3, ((run_bounded hL h1).1 _ _ rfl).2.2⟩

example : InOrder exData ∧ ∀ t ∈ exData, Within 0 7 t.range := by
  obtain ⟨ts, h, h'⟩ := C07_source_order stdLexer_lawful ex_ok
  obtain ⟨us, h1, h1'⟩ := C06_ranges_in_text stdLexer_lawful ex_ok
  simp at h h1
  exact ⟨h ▸ h', h1 ▸ h1'⟩

/-! ### C08 -/

/-- A reported error lies inside the text. -/
theorem C08_error_in_text {L : Lexer} (hL : L.Lawful) {syn text toks ind e toks'}
    (h : Parses L syn text toks ind (.err e toks')) : Within 0 text.length e.range := by
  obtain ⟨tr, h, hr⟩ := parses_err_run.1 ⟨toks', h⟩
  have hm := reported_mem hr
  cases h with
  | noRules => simp at hm; subst hm; simp [Within, Range.next]
  | fails _ h =>
    have := (run_bounded hL h).2 e hm
    simpa [Pos.stop] using this
  | short _ h hn =>
    rcases List.mem_append.1 hm with hm | hm
    · have := (run_bounded hL h).2 e hm
      simpa [Pos.stop] using this
    · simp at hm; subst hm; simp [Within, Range.next]; omega

/-- Also for a single rule: its error lies between the position and the end of the text. -/
theorem C08_rule_error_in_text {L : Lexer} (hL : L.Lawful) {refs r p ind e ind'}
    (h : Fails L refs r p ind e ind') : Within p.off (p.off + p.src.length) e.range := by
  obtain ⟨j, tr, h, _, hr⟩ := fails_iff.1 h
  exact (run_bounded hL h).2 e (reported_mem hr)

example : Within 0 5 (⟨5, 0⟩ : Range) :=
  C08_error_in_text stdLexer_lawful ex_err

/-! ### C09 -/

/-- The error returned is one of the elementary failures met, and none of them ended further into
the text. -/
theorem C09_deepest_error {L : Lexer} {syn text toks ind e toks'}
    (h : Parses L syn text toks ind (.err e toks')) :
    ∃ tr, Rejects L syn text ind tr ∧ e ∈ tr ∧ ∀ x ∈ tr, x.range.next ≤ e.range.next := by
  obtain ⟨tr, h, hr⟩ := parses_err_run.1 ⟨toks', h⟩
  exact ⟨tr, h, reported_mem hr, reported_max hr⟩

/-- Every failure that reaches the end of the trace is met; the failures of a text are determined,
so "the deepest" is well defined. -/
theorem C09_trace_unique {L : Lexer} {syn text ind tr tr'} (h : Rejects L syn text ind tr)
    (h' : Rejects L syn text ind tr') : tr = tr' := by
  cases h with
  | noRules h =>
    cases h' with
    | noRules => rfl
    | fails hr => simp [h] at hr
    | short hr => simp [h] at hr
  | fails hr h =>
    cases h' with
    | noRules h1 => simp [h1] at hr
    | fails hr' h' => rw [hr] at hr'; cases hr'; exact (h.det h').2.2
    | short hr' h' => rw [hr] at hr'; cases hr'; simpa using (h.det h').1
  | short hr h =>
    cases h' with
    | noRules h1 => simp [h1] at hr
    | fails hr' h' => rw [hr] at hr'; cases hr'; simpa using (h.det h').1
    | short hr' h' =>
      rw [hr] at hr'; cases hr'
      obtain ⟨h1, _, h2⟩ := h.det h'
      simp at h1
      rw [h2, h1.1]

/-- The alternatives fail one after the other, with these errors. -/
inductive AllFail (L : Lexer) (refs : List Rule) (p : Pos) :
    List Rule → Indent → List RErr → Indent → Prop
  | nil {ind} : AllFail L refs p [] ind [] ind
  | cons {r rs ind e ind₁ es ind₂} (h : Fails L refs r p ind e ind₁)
      (h' : AllFail L refs p rs ind₁ es ind₂) : AllFail L refs p (r :: rs) ind (e :: es) ind₂

theorem allFail_length {L refs p rs ind es ind'} (h : AllFail L refs p rs ind es ind') :
    rs.length = es.length := by
  induction h with
  | nil => rfl
  | cons _ _ ih => simp [ih]

theorem allFail_run {L refs p rs ind es ind'} (h : AllFail L refs p rs ind es ind') :
    ∃ j tr, Run (envOf L refs ind) (.sel rs) p ind.indent none j tr ∧
      ind' = { ind with indent := j } ∧ best tr = best es := by
  induction h with
  | nil => exact ⟨_, _, .sel_nil, rfl, rfl⟩
  | cons h _ ih =>
    obtain ⟨j, tr, h1, rfl, hr⟩ := fails_iff.1 h
    obtain ⟨j', tr', h2, rfl, hb⟩ := ih
    refine ⟨j', tr ++ tr', .sel_next h1 h2, rfl, ?_⟩
    rw [best_append, hb, best_iff.2 hr]
    rfl

/-- When every alternative of a select fails, the error is the deepest, and of several equally deep
ones the one of the last alternative. -/
theorem C09_select_reports_last_deepest {L refs p args ind es ind'} (id : DebugId)
    (h : AllFail L refs p args ind es ind') (hne : args ≠ []) :
    ∃ e, Fails L refs (.select args id) p ind e ind' ∧ Reported es e := by
  obtain ⟨j, tr, h1, rfl, hb⟩ := allFail_run h
  have : ∃ e, best es = some e := by
    apply best_ne_none
    rintro rfl
    exact hne (List.eq_nil_of_length_eq_zero (allFail_length h))
  obtain ⟨e, he⟩ := this
  cases args with
  | nil => exact absurd rfl hne
  | cons r rs =>
    exact ⟨e, fails_iff.2 ⟨j, tr, .select h1, rfl, best_iff.1 (by rw [hb, he])⟩, best_iff.1 he⟩

/-- Both alternatives of `exItem` fail on `c`, at the same place: the second is reported. -/
example : Parses stdLexer ⟨[exItem], [c!"item"]⟩ c!"c" [] Indent.default
    (.err ⟨⟨0, 0⟩, .expectedTag c!"a" 4⟩ []) := ⟨by simp, 20, by decide +kernel⟩

/-- The first alternative fails deeper than the second: the first is reported. -/
example : Parses stdLexer ⟨[.select [exItem, .tag c!"x" false false none 9] 8], [c!"item"]⟩ c!"ac" []
    Indent.default (.err ⟨⟨1, 0⟩, .expectedEnd⟩ [⟨⟨0, 1⟩, .bool c!"a2" false⟩]) :=
  ⟨by simp, 20, by decide +kernel⟩

/-! ### C47 -/

/-- A rule does the same at another offset, with all ranges moved by the difference. -/
theorem C47_success_position_independent {L refs r src} {o d n : Nat} {ind ts ind' err}
    (h : Succeeds L refs r ⟨src, o⟩ ind n ts ind' err) :
    Succeeds L refs r ⟨src, o + d⟩ ind n (shiftToks d ts) ind' (err.map (shiftErr d)) := by
  obtain ⟨j, tr, h1, rfl, rfl⟩ := succeeds_iff.1 h
  exact succeeds_iff.2 ⟨j, _, run_shift d h1, rfl, (best_shift d tr).symm⟩

theorem C47_failure_position_independent {L refs r src} {o d : Nat} {ind ind' e}
    (h : Fails L refs r ⟨src, o⟩ ind e ind') :
    Fails L refs r ⟨src, o + d⟩ ind (shiftErr d e) ind' := by
  obtain ⟨j, tr, h1, rfl, hr⟩ := fails_iff.1 h
  exact fails_iff.2 ⟨j, _, run_shift d h1, rfl,
    best_iff.1 (by rw [best_shift, best_iff.2 hr]; rfl)⟩

/-- The first item of `(ab,a,)`, at its own place and at the start of a text. -/
example : Succeeds stdLexer [] (.tag c!"ab" false false (some c!"x") 1) ⟨c!"ab,a,)", 1⟩
    Indent.default 2 [⟨⟨1, 2⟩, .bool c!"x" true⟩] Indent.default none :=
  C47_success_position_independent (o := 0) (d := 1) (ts := [⟨⟨0, 2⟩, .bool c!"x" true⟩]) (err := none)
    (succeeds_iff.2 ⟨0, [], .tag_ok (p := ⟨c!"ab,a,)", 0⟩) (by decide), rfl, rfl⟩)

/-! ### C48 -/

/-- One step in the life of a token vector: record a token in the current state, or go back to an
earlier state, the one after `k` tokens. -/
inductive VecOp where
  | read (t : Tok)
  | rewind (k : Nat)

/-- The code: the vector and the current state. -/
def vecStep : List Tok × Nat → VecOp → List Tok × Nat
  | (toks, s), .read t => readData toks t s
  | (toks, s), .rewind k => (toks, min k s)

/-- The meaning: the list of tokens recorded on the path that led here. -/
def pathStep : List Tok → VecOp → List Tok
  | path, .read t => path ++ [t]
  | path, .rewind k => path.take k

/-- After any history of reads and rewinds, the tokens up to the current state are those recorded
on the path that led to it. -/
theorem C48_read_data_protocol (init : List Tok) (ops : List VecOp) :
    let r := ops.foldl vecStep (init, init.length)
    r.2 ≤ r.1.length ∧ r.1.take r.2 = ops.foldl pathStep init := by
  suffices h : ∀ (ops : List VecOp) (toks : List Tok) (s : Nat) (path : List Tok), s ≤ toks.length →
      toks.take s = path → (ops.foldl vecStep (toks, s)).2 ≤ (ops.foldl vecStep (toks, s)).1.length ∧
        (ops.foldl vecStep (toks, s)).1.take (ops.foldl vecStep (toks, s)).2 =
          ops.foldl pathStep path from
    h ops init init.length init (Nat.le_refl _) (by simp)
  intro ops
  induction ops with
  | nil => intro toks s path h h'; exact ⟨h, h'⟩
  | cons op ops ih =>
    intro toks s path h h'
    cases op with
    | read t =>
      simp only [List.foldl_cons, vecStep, pathStep, readData_spec _ _ _ h]
      refine ih _ _ _ (by simp; omega) ?_
      rw [← h', List.take_of_length_le (by simp; omega)]
    | rewind k =>
      simp only [List.foldl_cons, vecStep, pathStep]
      refine ih _ _ _ (by omega) ?_
      rw [← h', List.take_take]

/-- A history with a rewind: the token recorded before the rewind is gone. -/
example : (fun r : List Tok × Nat => r.1.take r.2)
    ([VecOp.read exTok, .rewind 0, .read ⟨⟨0, 1⟩, .bool c!"new" true⟩].foldl vecStep ([], 0)) =
      [⟨⟨0, 1⟩, .bool c!"new" true⟩] :=
  (C48_read_data_protocol [] _).2.trans rfl

end Verif.Props
