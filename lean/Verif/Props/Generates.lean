import Verif.Proofs.Generates
/-
C111: where the next character decides, a text is accepted exactly if the rules generate it.
-/
namespace Verif.Props
open Spec

section
variable {L : Lexer} {M : Nat → Mark} {N : Nat → Char → Prop} {syn : Syntax} {I : Nat}

/-- What is accepted is generated. -/
theorem C111_accepted (hp : ∀ x, Part syn.rules x → Plainly x) {text : Str} {ind : Indent} {ts : List Tok}
    (h : Accepts L syn text ind ts) : GeneratesText L syn text ind ts := by
  obtain ⟨r, j, tr, hr, h⟩ := h
  exact ⟨r, hr, runs_generates (E := envOf L syn.rules ind) hp h ⟨r, List.mem_of_getLast? hr, .refl⟩ _ _ rfl⟩

theorem plainly_of (hU : LL1 L M N syn.rules) : ∀ x, Part syn.rules x → Plainly x := by
  intro x hx
  have h1 := hU.decided x hx
  have h2 := hU.oneWay x hx
  cases x <;> first | trivial | exact h1.elim | exact h2.elim | exact h1

/-- If the next character decides, what is generated is accepted, with the same data. -/
theorem C111_generated (hL : L.Lawful) (hU : LL1 L M N syn.rules) (hI : ∀ i, (M i).idle ≤ I) (hs : SyntaxOk syn)
    {text : Str} {ind : Indent} {ts : List Tok} : Accepts L syn text ind ts ↔ GeneratesText L syn text ind ts := by
  refine ⟨C111_accepted (plainly_of hU), fun ⟨r, hr, h⟩ => ?_⟩
  obtain ⟨tr, h1⟩ := generates_runs (E := envOf L syn.rules ind) hL hU hI hs h ⟨r, List.mem_of_getLast? hr, .refl⟩ (by
    simp only [List.drop_length]
    rintro ⟨c, t, h, -⟩
    cases h) ind.indent
  exact ⟨r, _, tr, hr, h1⟩

/-- In terms of the parser. -/
theorem C111_parses (hL : L.Lawful) (hU : LL1 L M N syn.rules) (hI : ∀ i, (M i).idle ≤ I) (hs : SyntaxOk syn)
    {text : Str} {toks toks' : List Tok} {ind : Indent} :
    Parses L syn text toks ind (.ok toks') ↔ ∃ ts, GeneratesText L syn text ind ts ∧ toks' = toks ++ ts := by
  simp only [C04_ok_iff_meaning hL, C111_generated hL hU hI hs]

/-- A text is rejected exactly if it is not generated. -/
theorem C111_rejects (hL : L.Lawful) (hU : LL1 L M N syn.rules) (hI : ∀ i, (M i).idle ≤ I) (hs : SyntaxOk syn)
    {text : Str} {toks : List Tok} {ind : Indent} :
    (∃ e toks', Parses L syn text toks ind (.err e toks')) ↔ ¬ ∃ ts, GeneratesText L syn text ind ts := by
  constructor
  · rintro ⟨e, toks', h⟩ ⟨ts, h'⟩
    have := parses_det h ((C111_parses hL hU hI hs).2 ⟨ts, h', rfl⟩)
    cases this
  · intro h
    rcases C110_returns hL hU.toPredictive hI hs text toks ind with ⟨_, h'⟩ | h'
    · obtain ⟨ts, h', -⟩ := (C111_parses hL hU hI hs).1 h'
      exact absurd ⟨ts, h'⟩ h
    · exact h'

/-- A text is not generated with different data. -/
theorem C111_one_reading (hL : L.Lawful) (hU : LL1 L M N syn.rules) (hI : ∀ i, (M i).idle ≤ I) (hs : SyntaxOk syn)
    {text : Str} {ind : Indent} {ts ts' : List Tok} (h : GeneratesText L syn text ind ts) (h' : GeneratesText L syn text ind ts') :
    ts = ts' :=
  C04_data_unique ((C111_generated hL hU hI hs).2 h) ((C111_generated hL hU hI hs).2 h')

end

/-! ### The order of the alternatives -/

theorem reorderedL_perm {qs rs' : List Rule} (hp : qs.Perm rs') : ∀ {rs}, ReorderedL qs rs → ∃ ps, ReorderedL rs' ps ∧ ps.Perm rs := by
  induction hp with
  | nil => exact fun h => ⟨_, h, .refl _⟩
  | cons x _ ih =>
    rintro _ (_ | ⟨h, h'⟩)
    obtain ⟨ps, h1, h2⟩ := ih h'
    exact ⟨_, .cons h h1, h2.cons _⟩
  | swap x y l =>
    rintro _ (_ | ⟨h, _ | ⟨h', h''⟩⟩)
    exact ⟨_, .cons h' (.cons h h''), .swap _ _ _⟩
  | trans _ _ ih ih' =>
    intro rs h
    obtain ⟨ps, h1, h2⟩ := ih h
    obtain ⟨ps', h3, h4⟩ := ih' h1
    exact ⟨ps', h3, h4.trans h2⟩

mutual
theorem reordered_symm : ∀ {r r' : Rule}, Reordered r r' → Reordered r' r
  | _, _, .same h => .same h
  | _, _, .node => .node
  | _, _, .select h h' =>
    have ⟨_, h1, h2⟩ := reorderedL_perm h' (reorderedL_symm h)
    .select h1 h2
  | _, _, .sequence h => .sequence (reorderedL_symm h)
  | _, _, .separateBy h h' => .separateBy (reordered_symm h) (reordered_symm h')
  | _, _, .repeat_ h => .repeat_ (reordered_symm h)
  | _, _, .optional h => .optional (reordered_symm h)
  | _, _, .not h => .not h
theorem reorderedL_symm : ∀ {rs rs' : List Rule}, ReorderedL rs rs' → ReorderedL rs' rs
  | _, _, .nil => .nil
  | _, _, .cons h h' => .cons (reordered_symm h) (reorderedL_symm h')
end

theorem reorderedL_mem {r : Rule} : ∀ {rs rs' : List Rule}, ReorderedL rs rs' → r ∈ rs → ∃ r' ∈ rs', Reordered r r'
  | _, _, .cons h h', hr => by
    rcases List.mem_cons.1 hr with rfl | hr
    · exact ⟨_, by simp, h⟩
    · obtain ⟨r', h1, h2⟩ := reorderedL_mem h' hr
      exact ⟨r', by simp [h1], h2⟩

theorem reorderedL_get {r : Rule} : ∀ {rs rs' : List Rule} {i : Nat}, ReorderedL rs rs' → rs[i]? = some r → ∃ r', rs'[i]? = some r' ∧ Reordered r r'
  | _, _, 0, .cons h h', hr => by
    cases hr
    exact ⟨_, rfl, h⟩
  | _, _, i + 1, .cons h h', hr => reorderedL_get (i := i) h' hr

theorem reorderedL_last {r : Rule} {rs rs' : List Rule} (h : ReorderedL rs rs') (hr : rs.getLast? = some r) :
    ∃ r', rs'.getLast? = some r' ∧ Reordered r r' := by
  have : ∀ {rs rs' : List Rule}, ReorderedL rs rs' → rs.length = rs'.length := by
    intro rs rs' h
    induction rs generalizing rs' with
    | nil => cases h; rfl
    | cons r rs ih => cases h with | cons h h' => simp [ih h']
  rw [List.getLast?_eq_getElem?] at hr ⊢
  rw [← this h]
  exact reorderedL_get h hr

theorem reordered_leaf {r r' : Rule} (h : Reordered r r') (hr : CallsNone r) : r' = r := by
  cases h <;> first | rfl | exact hr.elim

theorem leaf_env {E E' : Env} (he : E'.L = E.L) {r p i o j tr} (hr : CallsNone r) (h : Run E (.rule r) p i o j tr) :
    Run E' (.rule r) p i o j tr := by
  cases h with
  | ws_ok h h0 => exact .ws_ok h h0
  | ws_fail h => exact .ws_fail h
  | tag_ok h => exact .tag_ok h
  | tag_fail h => exact .tag_fail h
  | notTag_ok h => exact .notTag_ok h
  | notTag_fail h => exact .notTag_fail h
  | until_ok h h0 => exact .until_ok h h0
  | until_fail h => exact .until_fail h
  | untilWs_ok h h0 => exact .untilWs_ok h h0
  | untilWs_fail h => exact .untilWs_fail h
  | text_ok h h2 ht => exact .text_ok (he ▸ h) h2 (he ▸ ht)
  | text_none h => exact .text_none (he ▸ h)
  | text_empty h => exact .text_empty (he ▸ h)
  | text_bad h h2 ht => exact .text_bad (he ▸ h) h2 (he ▸ ht)
  | num_ok h hv => exact .num_ok (he ▸ h) (he ▸ hv)
  | num_none h => exact .num_none (he ▸ h)
  | num_bad h hv => exact .num_bad (he ▸ h) (he ▸ hv)
  | _ => exact hr.elim

/-- The same for goals. -/
inductive GoalReordered : Goal → Goal → Prop
  | rule {r r'} (h : Reordered r r') : GoalReordered (.rule r) (.rule r')
  | seq {rs rs'} (h : ReorderedL rs rs') : GoalReordered (.seq rs) (.seq rs')
  | rep {r r'} (h : Reordered r r') : GoalReordered (.rep r) (.rep r')
  | sepTail {r r' b b' t} (h : Reordered r r') (h' : Reordered b b') : GoalReordered (.sepTail r b t) (.sepTail r' b' t)

theorem reordered_generates {E E' : Env} (he : E'.L = E.L) (hR : ReorderedL E.refs E'.refs) {g p n ts} (h : Generates E g p n ts) :
    ∀ {g'}, GoalReordered g g' → Generates E' g' p n ts := by
  induction h with
  | token hr h =>
    rintro _ ⟨h'⟩
    cases reordered_leaf h' hr
    exact .token hr (leaf_env he hr h)
  | absent hr h =>
    rintro _ ⟨h'⟩
    cases h' with
    | same h => exact h.elim
    | not => exact .absent hr (leaf_env he hr h)
  | select hr h ih =>
    rintro _ ⟨h'⟩
    cases h' with
    | same h => exact h.elim
    | select hs hp =>
      obtain ⟨r', h1, h2⟩ := reorderedL_mem hs hr
      exact .select (hp.mem_iff.1 h1) (ih (.rule h2))
  | sequence h ih =>
    rintro _ ⟨h'⟩
    cases h' with
    | same h => exact h.elim
    | sequence hs => exact .sequence (ih (.seq hs))
  | seq_nil =>
    rintro _ ⟨⟩
    rename_i h
    cases h
    exact .seq_nil
  | seq_cons h h' ih ih' =>
    rintro _ ⟨⟩
    rename_i h
    cases h with | cons h h' => exact .seq_cons (ih (.rule h)) (ih' (.seq h'))
  | repeat_any h ih =>
    rintro _ ⟨h'⟩
    cases h' with
    | same h => exact h.elim
    | repeat_ hs => exact .repeat_any (ih (.rep hs))
  | repeat_some h h' ih ih' =>
    rintro _ ⟨h'⟩
    cases h' with
    | same h => exact h.elim
    | repeat_ hs => exact .repeat_some (ih (.rule hs)) (ih' (.rep hs))
  | rep_nil =>
    rintro _ ⟨⟩
    exact .rep_nil
  | rep_cons h h' ih ih' =>
    rintro _ ⟨⟩
    rename_i h
    exact .rep_cons (ih (.rule h)) (ih' (.rep h))
  | sep_none =>
    rintro _ ⟨h'⟩
    cases h' with
    | same h => exact h.elim
    | separateBy hs hb => exact .sep_none
  | sep_some h h' ih ih' =>
    rintro _ ⟨h'⟩
    cases h' with
    | same h => exact h.elim
    | separateBy hs hb => exact .sep_some (ih (.rule hs)) (ih' (.sepTail hs hb))
  | tail_nil =>
    rintro _ ⟨⟩
    exact .tail_nil
  | tail_trail h ih =>
    rintro _ ⟨⟩
    rename_i hs hb
    exact .tail_trail (ih (.rule hb))
  | tail_cons h h' h'' ih ih' ih'' =>
    rintro _ ⟨⟩
    rename_i hs hb
    exact .tail_cons (ih (.rule hb)) (ih' (.rule hs)) (ih'' (.sepTail hs hb))
  | node hr h ih =>
    rintro _ ⟨h'⟩
    cases h' with
    | same h => exact h.elim
    | node =>
      obtain ⟨r', h1, h2⟩ := reorderedL_get hR hr
      exact .node h1 (ih (.rule h2))
  | optional_none =>
    rintro _ ⟨h'⟩
    cases h' with
    | same h => exact h.elim
    | optional hs => exact .optional_none
  | optional_some h ih =>
    rintro _ ⟨h'⟩
    cases h' with
    | same h => exact h.elim
    | optional hs => exact .optional_some (ih (.rule hs))

/-- What is generated does not depend on the order of the alternatives. -/
theorem C111_order_generated {L : Lexer} {syn syn' : Syntax} (hR : ReorderedL syn.rules syn'.rules) {text : Str} {ind : Indent}
    {ts : List Tok} : GeneratesText L syn text ind ts ↔ GeneratesText L syn' text ind ts := by
  have : ∀ {syn syn' : Syntax}, ReorderedL syn.rules syn'.rules → GeneratesText L syn text ind ts → GeneratesText L syn' text ind ts := by
    rintro syn syn' hR ⟨r, hr, h⟩
    obtain ⟨r', h1, h2⟩ := reorderedL_last hR hr
    exact ⟨r', h1, reordered_generates (E := envOf L syn.rules ind) (E' := envOf L syn'.rules ind) rfl hR h (.rule h2)⟩
  exact ⟨this hR, this (reorderedL_symm hR)⟩

/-- If the next character decides, what is accepted does not depend on the order of the alternatives either. -/
theorem C111_order {L : Lexer} (hL : L.Lawful) {syn syn' : Syntax} (hR : ReorderedL syn.rules syn'.rules)
    {M M' : Nat → Mark} {N N' : Nat → Char → Prop} {I I' : Nat}
    (hU : LL1 L M N syn.rules) (hI : ∀ i, (M i).idle ≤ I) (hs : SyntaxOk syn)
    (hU' : LL1 L M' N' syn'.rules) (hI' : ∀ i, (M' i).idle ≤ I') (hs' : SyntaxOk syn')
    {text : Str} {ind : Indent} {ts : List Tok} : Accepts L syn text ind ts ↔ Accepts L syn' text ind ts := by
  rw [C111_generated hL hU hI hs, C111_generated hL hU' hI' hs', C111_order_generated hR]

/-! ### Examples -/

/-- Texts, lists and tables within each other. -/
theorem C111_nested (L : Lexer) : LL1 L Nested.marks (fun _ _ => False) Nested.syn.rules where
  toPredictive := Nested.predictive L
  oneWay := by
    apply eachPart_part
    simp [EachPart, EachPartOf, OneWay, OneWaySelect, OneWaySequence, moreOf, moreSequence, Nested.syn, Nested.value, Nested.item,
      Nested.entry, Nested.doc, Nested.list, Nested.w, Nested.c, markOf, markSequence, Mark.leaf, Mark.then_,
      Mark.called, Mark.turns, Mark.nothing, Nested.marks, NoShared, Nested.starts]
    constructor <;> (rintro c h rfl; simp at h)
  more i q h := by
    match i, h with
    | 0, h | 1, h | 2, h | 3, h =>
      cases h
      simp [moreOf, moreSequence, moreSelect, Nested.value, Nested.item,
        Nested.entry, Nested.doc, Nested.list, Nested.w, Nested.c, markOf, markSelect, markSequence, Mark.leaf, Mark.then_, Mark.else_,
        Mark.called, Mark.turns, Mark.nothing, Mark.fail, Mark.left, Nested.marks]

/-- A list without items is generated. -/
example : GeneratesText stdLexer Nested.syn c!"[] " Indent.default [⟨⟨0, 0⟩, .startNode ['v']⟩, ⟨⟨0, 2⟩, .endNode ['v']⟩] := by
  have h : Parses stdLexer Nested.syn c!"[] " [] Indent.default (.ok [⟨⟨0, 0⟩, .startNode ['v']⟩, ⟨⟨0, 2⟩, .endNode ['v']⟩]) :=
    ⟨by simp, 16, by decide +kernel⟩
  obtain ⟨ts, h1, h2⟩ := (C111_parses stdLexer_lawful (C111_nested _) (I := 13) (fun i => by
    match i with
    | 0 | 1 | 2 | i + 3 => simp [Nested.marks]) Nested.syntaxOk).1 h
  cases h2
  exact h1

namespace Greedy

/-- `"a"`. -/
def a : Rule := .tag ['a'] false false none 1
/-- `"ab"`. -/
def ab : Rule := .tag ['a', 'b'] false false none 2
/-- `[?"a" "a"]`. -/
def twice : Syntax := ⟨[.sequence [.optional a 3, a] 4], [['x']]⟩
/-- `{"a" "ab"}`. -/
def short : Syntax := ⟨[.select [a, ab] 3], [['x']]⟩
/-- `{"ab" "a"}`. -/
def long : Syntax := ⟨[.select [ab, a] 3], [['x']]⟩

end Greedy

/-- Without the condition, what is generated may be rejected. -/
theorem C111_rejected_generated : GeneratesText stdLexer Greedy.twice c!"a" Indent.default [] ∧
    ∃ e toks', Parses stdLexer Greedy.twice c!"a" [] Indent.default (.err e toks') := by
  refine ⟨⟨_, rfl, .sequence (.seq_cons .optional_none (.seq_cons (.token (r := Greedy.a) (i := 0) trivial (.tag_ok ?_)) .seq_nil))⟩, ?_⟩
  · exact List.prefix_refl _
  · exact ⟨⟨⟨1, 0⟩, .expectedTag ['a'] 1⟩, [], by simp, 8, by decide +kernel⟩

/-- And the order of the alternatives matters. -/
theorem C111_order_matters : ReorderedL Greedy.short.rules Greedy.long.rules ∧
    (∃ e toks', Parses stdLexer Greedy.short c!"ab" [] Indent.default (.err e toks')) ∧
    Parses stdLexer Greedy.long c!"ab" [] Indent.default (.ok []) := by
  refine ⟨.cons (.select (.cons (.same trivial) (.cons (.same trivial) .nil)) (.swap _ _ _)) .nil, ?_, ?_⟩
  · exact ⟨⟨⟨1, 0⟩, .expectedEnd⟩, [], by simp, 8, by decide +kernel⟩
  · exact ⟨by simp, 8, by decide +kernel⟩

end Verif.Props
