import Verif.Proofs.WfCheck
import Verif.Props.Safe
/-
Parsing returns for well-formed syntaxes, and does not for others: C25.
-/
namespace Verif.Props
open Spec

/-! ### Returning -/

/-- With a well-formed syntax, `parse_with_indent` returns Ok or Err, whatever the text.  A text so
long that the 32 bits for columns might overflow is only a problem for indented lines. -/
theorem C25_returns {L : Lexer} (hL : L.Lawful) {syn : Syntax} {ind : Indent}
    (hw : WellFormed (envOf L syn.rules ind)) (hs : SyntaxOk syn) (text : Str)
    (ht : ShortFor ind.tabSpaces text ∨ NoIndent syn.rules) (toks : List Tok) :
    (∃ toks', Parses L syn text toks ind (.ok toks')) ∨
      ∃ e toks', Parses L syn text toks ind (.err e toks') := by
  cases hr : syn.rules.getLast? with
  | none =>
    refine .inr ?_
    exact ⟨⟨Range.empty 0, .noRules⟩, toks, by simp, 0, by simp [parseWithIndent, hr]⟩
  | some r =>
    have hmem := List.mem_of_getLast? hr
    obtain ⟨o, j, tr, h⟩ := wellFormed_has (E := envOf L syn.rules ind) hL hw hs ⟨r, hmem, .refl⟩
      ⟨text, 0⟩ ht ind.indent
    cases o with
    | some x =>
      obtain ⟨n, ts⟩ := x
      by_cases hn : text.length ≤ n
      · exact .inl ⟨_, parses_ok_run.2 ⟨r, n, ts, j, tr, hr, h, hn, rfl⟩⟩
      · have hrej := Rejects.short hr h (by omega)
        obtain ⟨e, he⟩ : ∃ e, best (tr ++ [⟨⟨n, 0⟩, .expectedEnd⟩]) = some e := by
          cases hb : best (tr ++ [⟨⟨n, 0⟩, .expectedEnd⟩]) with
          | some e => exact ⟨e, rfl⟩
          | none => exact absurd (best_eq_none.1 hb) (by simp)
        obtain ⟨toks', h⟩ := parses_err_run.2 ⟨_, hrej, best_iff.1 he⟩
        exact .inr ⟨e, toks', h⟩
    | none =>
      obtain ⟨e, he⟩ := run_none_trace h
      obtain ⟨toks', h⟩ := parses_err_run.2 ⟨_, Rejects.fails hr h, best_iff.1 he⟩
      exact .inr ⟨e, toks', h⟩

/-- Every rule of a well-formed syntax returns at every place of every text. -/
theorem C25_rule_returns {L : Lexer} (hL : L.Lawful) {refs : List Rule} {ind : Indent}
    (hw : WellFormed (envOf L refs ind)) (hs : ∀ q ∈ refs, RuleOk refs q) {r : Rule}
    (hr : Part refs r) (p : Pos) (ht : ShortFor ind.tabSpaces p.src ∨ NoIndent refs) :
    (∃ n ts ind', Matches L refs r p ind n ts ind') ∨ ∃ ind', Refuses L refs r p ind ind' := by
  obtain ⟨o, j, tr, h⟩ := wellFormed_has (E := envOf L refs ind) hL hw hs hr p ht ind.indent
  cases o with
  | some x => exact .inl ⟨_, _, _, matches_iff.2 ⟨j, tr, h, rfl⟩⟩
  | none => exact .inr ⟨_, refuses_iff.2 ⟨j, tr, h, rfl⟩⟩

/-- The computable check is sound: what it accepts is well formed. -/
theorem C25_check_sound {L : Lexer} (hL : L.Lawful) {refs : List Rule} (ind : Indent)
    (h : wellFormed refs = true) : WellFormed (envOf L refs ind) :=
  wellFormed_sound (E := envOf L refs ind) hL h

/-- Arithmetic with parentheses, a syntax with recursion and lists:
`0 atom = {.$ ["(" ..r(1) ")"]}`, `1 sum = .s!("+" ..r(0))`, last rule `[.w? sum .w?]`. -/
def exArith : Syntax :=
  ⟨[.select [.number (some c!"n") false 1,
      .sequence [.tag c!"(" false false none 2, .node c!"sum" (some c!"sum") (some 1) 3,
        .tag c!")" false false none 4] 5] 6,
    .separateBy (.node c!"atom" none (some 0) 7) (.tag c!"+" false false none 8) false false 9,
    .sequence [.whitespace true 10, .node c!"sum" (some c!"sum") (some 1) 11, .whitespace true 12,
      .lines (.repeat_ (.tag c!"!" false false none 13) true 14) true 15] 16],
   [c!"atom", c!"sum", c!"doc"]⟩

/-- The hypotheses can be met by a recursive syntax with loops. -/
example (text : Str) (ht : 4 * text.length + 1 < 2 ^ 32) (toks : List Tok) :
    (∃ toks', Parses stdLexer exArith text toks Indent.default (.ok toks')) ∨
      ∃ e toks', Parses stdLexer exArith text toks Indent.default (.err e toks') :=
  C25_returns stdLexer_lawful (C25_check_sound stdLexer_lawful _ (by decide +kernel))
    (C26_check_sound (by decide +kernel)) text (.inl (by simpa [ShortFor, Indent.default] using ht)) toks

/-- The check tells a left recursive syntax and a repetition of optional whitespace apart. -/
example : wellFormed [.sequence [.whitespace true 1, .node c!"a" none (some 0) 2] 3] = false ∧
    wellFormed [.repeat_ (.whitespace true 1) true 2] = false ∧
    wellFormed [.sequence [.whitespace false 1, .node c!"a" none (some 0) 2] 3] = true := by
  decide +kernel

/-! ### Running for ever -/

/-- The rule never returns at this place. -/
def RunsForEver (L : Lexer) (refs : List Rule) (r : Rule) (p : Pos) (ind : Indent) : Prop :=
  ∀ n toks s, s ≤ toks.length → eval L refs n r ⟨toks, ind⟩ s p = .timeout

theorem runsForEver_of {L refs r p} {ind : Indent} (hr : RuleOk refs r)
    (hs : ∀ q ∈ refs, RuleOk refs q) (ht : ShortFor ind.tabSpaces p.src)
    (h : ∀ o j tr, ¬ Run (envOf L refs ind) (.rule r) p ind.indent o j tr) :
    RunsForEver L refs r p ind := by
  intro n toks s hle
  cases he : eval L refs n r ⟨toks, ind⟩ s p with
  | timeout => rfl
  | panic => exact absurd he (C26_rule_no_panic hr hs n _ s p ht)
  | ret res st =>
    cases res with
    | ok range s' err =>
      obtain ⟨_, _, _, _, h', _⟩ := eval_ok_run hle he
      exact absurd h' (h _ _ _)
    | err e =>
      obtain ⟨_, _, h', _⟩ := eval_err_run hle he
      exact absurd h' (h _ _ _)

theorem not_run_rep {E : Env} {r : Rule} {p : Pos} {i : Nat} {ts tr}
    (h0 : Run E (.rule r) p i (some (0, ts)) i tr) {o j tr'} :
    ¬ Run E (.rep r) p i o j tr' := by
  intro h
  generalize hg : Goal.rep r = g at h
  have h1 : ∀ {g p' i' o j tr'}, Run E g p' i' o j tr' → g = .rep r → p' = p → i' = i → False := by
    intro g p' i' o j tr' h
    induction h with
    | rep_stop h _ =>
      rintro hg rfl rfl
      cases hg
      have := (Run.det h0 h).1
      simp at this
    | rep_more h _ _ ih =>
      rintro hg rfl rfl
      cases hg
      obtain ⟨he, hi, _⟩ := Run.det h0 h
      simp only [Option.some.injEq, Prod.mk.injEq] at he
      exact ih rfl (by simp [← he.1, adv]) hi.symm
    | _ => intro hg; cases hg
  exact h1 h hg.symm rfl rfl

/-- A repetition of a rule that matches here without reading anything never returns. -/
theorem C25_repeat_of_empty_runs_for_ever {L refs r p ts} {ind : Indent} {opt id}
    (h : Matches L refs r p ind 0 ts ind) (hr : RuleOk refs r) (hs : ∀ q ∈ refs, RuleOk refs q)
    (ht : ShortFor ind.tabSpaces p.src) : RunsForEver L refs (.repeat_ r opt id) p ind := by
  refine runsForEver_of ?_ hs ht ?_
  · intro x hx
    cases hx with
    | refl => trivial
    | step hx hc => cases hc; exact hr x hx
  · intro o j tr hrun
    obtain ⟨j', tr', h1, he⟩ := matches_iff.1 h
    have hj : j' = ind.indent := by
      have := congrArg Indent.indent he
      exact this.symm
    subst hj
    cases hrun with
    | repeat_opt h2 => exact not_run_rep h1 h2
    | repeat_fail h2 => have := (Run.det h1 h2).1; simp at this
    | repeat_ok h2 h3 =>
      obtain ⟨he, hi, _⟩ := Run.det h1 h2
      simp only [Option.some.injEq, Prod.mk.injEq] at he
      rw [← he.1, ← hi] at h3
      exact not_run_rep h1 (by simpa [adv] using h3)

theorem not_run_rep_total {E : Env} {r : Rule} (h0 : ∀ p i j tr, ¬ Run E (.rule r) p i none j tr)
    {g p i o j tr} (h : Run E g p i o j tr) : g ≠ .rep r := by
  induction h with
  | rep_stop h _ => intro hg; cases hg; exact h0 _ _ _ _ h
  | rep_more h _ _ ih => intro hg; cases hg; exact ih rfl
  | _ => intro hg; cases hg

/-- A repetition of a rule that is never refused never returns. -/
theorem C25_repeat_of_total_runs_for_ever {L refs r p} {ind : Indent} {opt id}
    (h : ∀ p ind' ind'', ind'.alignFirst = ind.alignFirst → ind'.tabSpaces = ind.tabSpaces →
      ¬ Refuses L refs r p ind' ind'')
    (hr : RuleOk refs r) (hs : ∀ q ∈ refs, RuleOk refs q)
    (ht : ShortFor ind.tabSpaces p.src) : RunsForEver L refs (.repeat_ r opt id) p ind := by
  have h0 : ∀ p i j tr, ¬ Run (envOf L refs ind) (.rule r) p i none j tr := by
    intro p i j tr h1
    exact h p { ind with indent := i } _ rfl rfl (refuses_of_run h1)
  refine runsForEver_of ?_ hs ht ?_
  · intro x hx
    cases hx with
    | refl => trivial
    | step hx hc => cases hc; exact hr x hx
  · intro o j tr hrun
    cases hrun with
    | repeat_opt h2 => exact not_run_rep_total h0 h2 rfl
    | repeat_fail h2 => exact h0 _ _ _ _ h2
    | repeat_ok h2 h3 => exact not_run_rep_total h0 h3 rfl

/-- `.r?(.w?)` never returns, wherever it is tried. -/
theorem C25_repeat_whitespace_runs_for_ever {L refs p} {ind : Indent} {opt id id'}
    (hs : ∀ q ∈ refs, RuleOk refs q) (ht : ShortFor ind.tabSpaces p.src) :
    RunsForEver L refs (.repeat_ (.whitespace true id) opt id') p ind := by
  refine C25_repeat_of_total_runs_for_ever ?_ ?_ hs ht
  · intro p ind' ind'' _ _ h
    obtain ⟨j, tr, h1, _⟩ := refuses_iff.1 h
    cases h1
  · intro x hx
    cases hx with
    | refl => trivial
    | step hx hc => cases hc

/-- `parse` with the syntax `.r?(.w?)` never returns, whatever the text. -/
example (text : Str) (ht : 4 * text.length + 1 < 2 ^ 32) (toks : List Tok) :
    ParseDiverges stdLexer ⟨[.repeat_ (.whitespace true 1) true 2], [c!"a"]⟩ text toks
      Indent.default := by
  intro n
  have hs : SyntaxOk ⟨[.repeat_ (.whitespace true 1) true 2], [c!"a"]⟩ :=
    C26_check_sound (by decide +kernel)
  have := C25_repeat_whitespace_runs_for_ever (L := stdLexer) (p := Pos.new text 0)
    (ind := Indent.default) (opt := true) (id := 1) (id' := 2) hs
    (by simpa [ShortFor, Indent.default, Pos.new] using ht) n toks _ (Nat.le_refl _)
  simp [parseWithIndent, this]

theorem not_run_sepTail {E : Env} {r b : Rule} {trail} {p : Pos} {i : Nat} {ts tr us tr'}
    (h0 : Run E (.rule r) p i (some (0, ts)) i tr) (hb : Run E (.rule b) p i (some (0, us)) i tr')
    {g p' i' o j tr''} (h : Run E g p' i' o j tr'') :
    g = .sepTail r b trail → p' = p → i' = i → False := by
  induction h with
  | sep_stop h _ =>
    rintro hg rfl rfl
    cases hg
    have := (Run.det hb h).1
    simp at this
  | sep_trail h h' _ _ | sep_noTrail h h' _ _ =>
    rintro hg rfl rfl
    cases hg
    obtain ⟨he, hi, _⟩ := Run.det hb h
    simp only [Option.some.injEq, Prod.mk.injEq] at he
    rw [← he.1, ← hi] at h'
    have := (Run.det h0 (by simpa [adv] using h')).1
    simp at this
  | sep_more h h' _ _ _ ih =>
    rintro hg rfl rfl
    cases hg
    obtain ⟨he, hi, _⟩ := Run.det hb h
    simp only [Option.some.injEq, Prod.mk.injEq] at he
    rw [← he.1, ← hi] at h'
    obtain ⟨he', hi', _⟩ := Run.det h0 (by simpa [adv] using h')
    simp only [Option.some.injEq, Prod.mk.injEq] at he'
    exact ih rfl (by simp [← he.1, ← he'.1, adv]) hi'.symm
  | _ => intro hg; cases hg

/-- A list whose items and separators both match here without reading anything never returns. -/
theorem C25_list_of_empty_runs_for_ever {L refs r b p ts us} {ind : Indent} {opt trail id}
    (h : Matches L refs r p ind 0 ts ind) (h' : Matches L refs b p ind 0 us ind)
    (hr : RuleOk refs r) (hb : RuleOk refs b) (hs : ∀ q ∈ refs, RuleOk refs q)
    (ht : ShortFor ind.tabSpaces p.src) :
    RunsForEver L refs (.separateBy r b opt trail id) p ind := by
  refine runsForEver_of ?_ hs ht ?_
  · intro x hx
    cases hx with
    | refl => trivial
    | step hx hc =>
      cases hc with
      | item => exact hr x hx
      | sep => exact hb x hx
  · intro o j tr hrun
    obtain ⟨j', tr', h1, he⟩ := matches_iff.1 h
    obtain ⟨j'', tr'', h2, he'⟩ := matches_iff.1 h'
    have hj : j' = ind.indent := (congrArg Indent.indent he).symm
    have hj' : j'' = ind.indent := (congrArg Indent.indent he').symm
    subst hj
    subst hj'
    cases hrun with
    | sep_none h3 | sep_fail h3 => have := (Run.det h1 h3).1; simp at this
    | sep_first h3 h4 =>
      obtain ⟨he, hi, _⟩ := Run.det h1 h3
      simp only [Option.some.injEq, Prod.mk.injEq] at he
      rw [← he.1, ← hi] at h4
      exact not_run_sepTail h1 h2 h4 rfl (by simp [adv]) rfl

/-- `.s?(.w? .w?)` never returns at the end of a text. -/
example : RunsForEver stdLexer [] (.separateBy (.whitespace true 1) (.whitespace true 2) true true 3)
    ⟨[], 7⟩ Indent.default := by
  have hok : ∀ id, RuleOk [] (.whitespace true id) := by
    intro id x hx
    cases hx with
    | refl => trivial
    | step hx hc => cases hc
  exact C25_list_of_empty_runs_for_ever (ts := []) (us := [])
    (matches_of_eval 3 (by decide +kernel)) (matches_of_eval 3 (by decide +kernel)) (hok 1) (hok 2)
    (by simp) (by unfold ShortFor; decide)

/-- `First c r`: trying `r` always begins by trying `c`, at the same place. -/
inductive First (refs : List Rule) : Rule → Rule → Prop
  | select {c rs id} : First refs c (.select (c :: rs) id)
  | sequence {c rs id} : First refs c (.sequence (c :: rs) id)
  | item {c b opt trail id} : First refs c (.separateBy c b opt trail id)
  | repeat_ {c opt id} : First refs c (.repeat_ c opt id)
  | optional {c id} : First refs c (.optional c id)
  | not {c id} : First refs c (.not c id)
  | node {name prop ix id c} (h : refs[ix]? = some c) : First refs c (.node name prop (some ix) id)

/-- What begins with a rule of `S`. -/
def Begins (S : Rule → Prop) : Goal → Prop
  | .rule r => S r
  | .sel (r :: _) => S r
  | .seq (r :: _) => S r
  | .rep r => S r
  | _ => False

theorem not_run_leftRec {E : Env} {S : Rule → Prop} (hS : ∀ r, S r → ∃ c, S c ∧ First E.refs c r)
    {g p i o j tr} (h : Run E g p i o j tr) : ¬ Begins S g := by
  induction h <;> intro hb <;> simp only [Begins] at hb <;> first
    | (obtain ⟨c, hc, hf⟩ := hS _ hb
       cases hf <;> simp_all [Begins])
    | simp_all [Begins]

/-- Left recursion never returns: if each of some rules begins with another of them, none of them
ever returns. -/
theorem C25_left_recursion_runs_for_ever {L refs p} {ind : Indent} {S : Rule → Prop}
    (hS : ∀ r, S r → ∃ c, S c ∧ First refs c r) {r} (hSr : S r) (hr : RuleOk refs r)
    (hs : ∀ q ∈ refs, RuleOk refs q) (ht : ShortFor ind.tabSpaces p.src) :
    RunsForEver L refs r p ind :=
  runsForEver_of hr hs ht fun _ _ _ h => not_run_leftRec (E := envOf L refs ind) hS h hSr

/-- The syntax `0 a = [..r(1) "x"]`, `1 b = {..r(0) "y"}` never returns, whatever the text. -/
def exLeft : List Rule :=
  [.sequence [.node c!"b" none (some 1) 1, .tag c!"x" false false none 2] 3,
   .select [.node c!"a" none (some 0) 4, .tag c!"y" false false none 5] 6]

example (p : Pos) (ht : 4 * p.src.length + 1 < 2 ^ 32) :
    RunsForEver stdLexer exLeft (.node c!"b" none (some 1) 1) p Indent.default := by
  have hs : SyntaxOk ⟨exLeft, []⟩ := C26_check_sound (by decide +kernel)
  refine C25_left_recursion_runs_for_ever
    (S := fun r => r ∈ exLeft ∨ r = .node c!"b" none (some 1) 1 ∨ r = .node c!"a" none (some 0) 4)
    ?_ (.inr (.inl rfl)) ?_ hs (by simpa [ShortFor, Indent.default] using ht)
  · rintro r (h | rfl | rfl)
    · simp only [exLeft, List.mem_cons, List.not_mem_nil, or_false] at h
      rcases h with rfl | rfl
      · exact ⟨_, .inr (.inl rfl), .sequence⟩
      · exact ⟨_, .inr (.inr rfl), .select⟩
    · exact ⟨_, .inl (by simp [exLeft]), .node rfl⟩
    · exact ⟨_, .inl (by simp [exLeft]), .node rfl⟩
  · intro x hx
    cases hx with
    | refl => exact (by decide : 1 < 2)
    | step hx hc => cases hc

end Verif.Props
