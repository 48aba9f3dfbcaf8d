import Verif.Proofs.Rewrite
import Verif.Props.Optimize
/-
C59: laws of rules.  C60: rules may be replaced by equal rules.
-/
namespace Verif.Props
open Spec

theorem before_zero (o : Outcome) : before 0 [] o = o := by
  cases o <;> simp [before]

theorem before_before {n ts m us} (o : Outcome) :
    before n ts (before m us o) = before (n + m) (ts ++ us) o := by
  cases o <;> simp [before, Nat.add_assoc]

theorem adv_add (p : Pos) (n m : Nat) : adv (adv p n) m = adv p (n + m) := by
  simp [adv, Nat.add_assoc]

/-! ### Sequences and selects of lists -/

theorem sel_single {E : Env} {r p i o j tr} :
    Run E (.sel [r]) p i o j tr ↔ Run E (.rule r) p i o j tr := by
  constructor
  · intro h
    cases h with
    | sel_here h => exact h
    | sel_next h h' => cases h' with
      | sel_nil => simpa using h
  · intro h
    cases o with
    | none => simpa using Run.sel_next h .sel_nil
    | some x => exact .sel_here h

theorem seq_single {E : Env} {r p i o j tr} :
    Run E (.seq [r]) p i o j tr ↔ Run E (.rule r) p i o j tr := by
  constructor
  · intro h
    cases h with
    | seq_fail h => exact h
    | seq_cons h h' => cases h' with
      | seq_nil => simpa [before] using h
  · intro h
    cases o with
    | none => exact .seq_fail h
    | some x => simpa [before] using Run.seq_cons h .seq_nil

theorem sel_append {E : Env} {rs' p} : ∀ {rs i o j tr}, Run E (.sel (rs ++ rs')) p i o j tr ↔
    (∃ x, o = some x ∧ Run E (.sel rs) p i o j tr) ∨
    ∃ k tr₁ tr₂, Run E (.sel rs) p i none k tr₁ ∧ Run E (.sel rs') p k o j tr₂ ∧ tr = tr₁ ++ tr₂ := by
  intro rs
  induction rs with
  | nil =>
    intro i o j tr
    constructor
    · intro h; exact .inr ⟨_, [], tr, .sel_nil, h, rfl⟩
    · rintro (⟨x, rfl, h⟩ | ⟨k, tr₁, tr₂, h, h', rfl⟩)
      · cases h
      · cases h; exact h'
  | cons r rs ih =>
    intro i o j tr
    constructor
    · intro h
      cases h with
      | sel_here h => exact .inl ⟨_, rfl, .sel_here h⟩
      | sel_next h h' =>
        rcases ih.1 h' with ⟨x, rfl, h'⟩ | ⟨k, tr₁, tr₂, h1, h2, rfl⟩
        · exact .inl ⟨x, rfl, .sel_next h h'⟩
        · exact .inr ⟨k, _, tr₂, .sel_next h h1, h2, by simp⟩
    · rintro (⟨x, rfl, h⟩ | ⟨k, tr₁, tr₂, h, h', rfl⟩)
      · cases h with
        | sel_here h => exact .sel_here h
        | sel_next h h' => exact .sel_next h (ih.2 (.inl ⟨x, rfl, h'⟩))
      · cases h with
        | sel_next h h1 =>
          rw [List.append_assoc]
          exact .sel_next h (ih.2 (.inr ⟨k, _, _, h1, h', rfl⟩))

theorem seq_append {E : Env} {rs'} : ∀ {rs p i o j tr}, Run E (.seq (rs ++ rs')) p i o j tr ↔
    (o = none ∧ Run E (.seq rs) p i none j tr) ∨
    ∃ n ts k tr₁ o' tr₂, Run E (.seq rs) p i (some (n, ts)) k tr₁ ∧
      Run E (.seq rs') (adv p n) k o' j tr₂ ∧ o = before n ts o' ∧ tr = tr₁ ++ tr₂ := by
  intro rs
  induction rs with
  | nil =>
    intro p i o j tr
    constructor
    · intro h; exact .inr ⟨0, [], _, [], o, tr, .seq_nil, by simpa [adv] using h, (before_zero o).symm, rfl⟩
    · rintro (⟨rfl, h⟩ | ⟨n, ts, k, tr₁, o', tr₂, h, h', rfl, rfl⟩)
      · cases h
      · cases h; simpa [adv, before_zero] using h'
  | cons r rs ih =>
    intro p i o j tr
    constructor
    · intro h
      cases h with
      | seq_fail h => exact .inl ⟨rfl, .seq_fail h⟩
      | seq_cons h h' =>
        rcases ih.1 h' with ⟨rfl, h1⟩ | ⟨n, ts, k, tr₁, o', tr₂, h1, h2, rfl, rfl⟩
        · exact .inl ⟨rfl, .seq_cons (o := none) h h1⟩
        · refine .inr ⟨_, _, k, _, o', tr₂, .seq_cons h h1, ?_, before_before o', by simp⟩
          rwa [adv_add] at h2
    · rintro (⟨rfl, h⟩ | ⟨n, ts, k, tr₁, o', tr₂, h, h', rfl, rfl⟩)
      · generalize ho : (none : Outcome) = o at h
        cases h with
        | seq_fail h => exact .seq_fail h
        | seq_cons h h' =>
          subst_vars
          cases before_eq_none.1 ho.symm
          exact ho ▸ .seq_cons h (ih.2 (.inl ⟨rfl, h'⟩))
      · generalize ho : some (n, ts) = o at h
        cases h with
        | seq_fail h => cases ho
        | seq_cons h h1 =>
          obtain ⟨m, us, rfl, rfl, rfl⟩ := before_some ho.symm
          rw [List.append_assoc, ← before_before]
          exact .seq_cons h (ih.2 (.inr ⟨m, us, _, _, o', _, h1, by rwa [adv_add], rfl, rfl⟩))

theorem sel_iff {E : Env} {rs id p i o j tr} (h : rs ≠ []) :
    Run E (.rule (.select rs id)) p i o j tr ↔ Run E (.sel rs) p i o j tr := by
  constructor
  · intro h'
    cases h' with
    | select_empty => exact absurd rfl h
    | select h' => exact h'
  · intro h'
    cases rs with
    | nil => exact absurd rfl h
    | cons r rs => exact .select h'

theorem seq_iff {E : Env} {rs id p i o j tr} :
    Run E (.rule (.sequence rs id)) p i o j tr ↔ Run E (.seq rs) p i o j tr :=
  ⟨fun h => by cases h with | sequence h => exact h, .sequence⟩

/-! ### C59 -/

/-- C59: `{a}` is `a`. -/
theorem C59_select_one (E : Env) (r : Rule) (id : DebugId) : Same E (.select [r] id) r :=
  fun _ _ _ _ _ => (sel_iff (by simp)).trans sel_single

/-- C59: `[a]` is `a`. -/
theorem C59_sequence_one (E : Env) (r : Rule) (id : DebugId) : Same E (.sequence [r] id) r :=
  fun _ _ _ _ _ => seq_iff.trans seq_single

/-- C59: `[.. [b ..] ..]` is `[.. b .. ..]`. -/
theorem C59_sequence_flat (E : Env) (as bs cs : List Rule) (id id' id'' : DebugId) :
    Same E (.sequence (as ++ .sequence bs id' :: cs) id) (.sequence (as ++ bs ++ cs) id'') := by
  have key : ∀ p i o j tr, Run E (.seq (.sequence bs id' :: cs)) p i o j tr ↔
      Run E (.seq (bs ++ cs)) p i o j tr := by
    intro p i o j tr
    rw [seq_append]
    constructor
    · intro h
      cases h with
      | seq_fail h => exact .inl ⟨rfl, seq_iff.1 h⟩
      | seq_cons h h' => exact .inr ⟨_, _, _, _, _, _, seq_iff.1 h, h', rfl, rfl⟩
    · rintro (⟨rfl, h⟩ | ⟨n, ts, k, tr₁, o', tr₂, h, h', rfl, rfl⟩)
      · exact .seq_fail (.sequence h)
      · exact .seq_cons (.sequence h) h'
  intro p i o j tr
  rw [seq_iff, seq_iff, List.append_assoc, seq_append, seq_append]
  simp only [key]

/-- C59: `{.. {b ..} ..}` is `{.. b .. ..}` if the inner select is not empty. -/
theorem C59_select_flat (E : Env) (as bs cs : List Rule) (hb : bs ≠ []) (id id' id'' : DebugId) :
    Same E (.select (as ++ .select bs id' :: cs) id) (.select (as ++ bs ++ cs) id'') := by
  have key : ∀ p i o j tr, Run E (.sel (.select bs id' :: cs)) p i o j tr ↔
      Run E (.sel (bs ++ cs)) p i o j tr := by
    intro p i o j tr
    rw [sel_append]
    constructor
    · intro h
      cases h with
      | sel_here h => exact .inl ⟨_, rfl, (sel_iff hb).1 h⟩
      | sel_next h h' => exact .inr ⟨_, _, _, (sel_iff hb).1 h, h', rfl⟩
    · rintro (⟨x, rfl, h⟩ | ⟨k, tr₁, tr₂, h, h', rfl⟩)
      · exact .sel_here ((sel_iff hb).2 h)
      · exact .sel_next ((sel_iff hb).2 h) h'
  intro p i o j tr
  rw [sel_iff (by simp), sel_iff (by simp [hb]), List.append_assoc, sel_append, sel_append]
  simp only [key]

/-- C59: alternatives after one that is never refused are never tried. -/
theorem C59_select_dead (E : Env) (as cs : List Rule) (r : Rule) (id id' : DebugId)
    (hr : ∀ p i j tr, ¬ Run E (.rule r) p i none j tr) :
    Same E (.select (as ++ r :: cs) id) (.select (as ++ [r]) id') := by
  have key : ∀ p i o j tr, Run E (.sel (r :: cs)) p i o j tr ↔ Run E (.sel [r]) p i o j tr := by
    intro p i o j tr
    constructor
    · intro h
      cases h with
      | sel_here h => exact .sel_here h
      | sel_next h => exact absurd h (hr _ _ _ _)
    · intro h
      cases h with
      | sel_here h => exact .sel_here h
      | sel_next h => exact absurd h (hr _ _ _ _)
  intro p i o j tr
  rw [sel_iff (by simp), sel_iff (by simp), sel_append, sel_append]
  simp only [key]

/-- C59: `?a` is `{a []}`. -/
theorem C59_optional (E : Env) (r : Rule) (id id' id'' : DebugId) :
    Same E (.optional r id) (.select [r, .sequence [] id''] id') := by
  intro p i o j tr
  rw [sel_iff (by simp)]
  constructor
  · intro h
    cases h with
    | optional_none h => simpa using Run.sel_next h (.sel_here (.sequence .seq_nil))
    | optional_some h => exact .sel_here h
  · intro h
    cases h with
    | sel_here h => exact .optional_some h
    | sel_next h h' =>
      have h' := seq_iff.1 (sel_single.1 h')
      cases h' with
      | seq_nil => simpa using Run.optional_none h

/-- C59: `?(?a)` is `?a`. -/
theorem C59_optional_twice (E : Env) (r : Rule) (id id' id'' : DebugId) :
    Same E (.optional (.optional r id) id') (.optional r id'') := by
  intro p i o j tr
  constructor
  · intro h
    cases h with
    | optional_none h => cases h
    | optional_some h => cases h with
      | optional_none h => exact .optional_none h
      | optional_some h => exact .optional_some h
  · intro h
    cases h with
    | optional_none h => exact .optional_some (.optional_none h)
    | optional_some h => exact .optional_some (.optional_some h)

/-- C59: `.r!(a)` is `[a .r?(a)]`. -/
theorem C59_repeat (E : Env) (r : Rule) (id id' id'' : DebugId) :
    Same E (.repeat_ r false id) (.sequence [r, .repeat_ r true id''] id') := by
  intro p i o j tr
  rw [seq_iff]
  constructor
  · intro h
    cases h with
    | repeat_fail h => exact .seq_fail h
    | repeat_ok h h' => exact .seq_cons h (seq_single.2 (.repeat_opt h'))
  · intro h
    cases h with
    | seq_fail h => exact .repeat_fail h
    | seq_cons h h' =>
      have h' := seq_single.1 h'
      cases h' with
      | repeat_opt h' => exact .repeat_ok h h'

theorem rep_some {E : Env} {g p i o j tr} (h : Run E g p i o j tr) : ∀ {r}, g = .rep r → o ≠ none := by
  induction h with
  | rep_stop => intros; simp
  | rep_more _ _ _ ih =>
    intro r hg
    cases hg
    intro ho
    exact ih rfl (before_eq_none.1 ho)
  | _ => intro r hg; cases hg

/-- C59: `.r?(a)` is `?(.r!(a))`. -/
theorem C59_repeat_optional (E : Env) (r : Rule) (id id' id'' : DebugId) :
    Same E (.repeat_ r true id) (.optional (.repeat_ r false id'') id') := by
  intro p i o j tr
  constructor
  · intro h
    cases h with
    | repeat_opt h =>
      have h0 := rep_some h rfl
      cases h with
      | rep_stop h => exact .optional_none (.repeat_fail h)
      | rep_more h h' =>
        obtain ⟨x, hx⟩ := Option.ne_none_iff_exists'.1 h0
        rw [hx]
        exact .optional_some (hx ▸ .repeat_ok h h')
  · intro h
    refine .repeat_opt ?_
    cases h with
    | optional_none h =>
      generalize ho : (none : Outcome) = o at h
      cases h with
      | repeat_fail h => exact .rep_stop h
      | repeat_ok h h' => exact absurd (before_eq_none.1 ho.symm) (rep_some h' rfl)
    | optional_some h =>
      rename_i x
      generalize ho : some x = o at h
      cases h with
      | repeat_fail h => cases ho
      | repeat_ok h h' => exact .rep_more h h'

/-- C59: an unnamed reference is the rule it refers to. -/
theorem C59_inline (E : Env) {name : Str} {ix : Nat} {id : DebugId} {r : Rule}
    (hr : E.refs[ix]? = some r) : Same E (.node name none (some ix) id) r := by
  intro p i o j tr
  constructor
  · intro h
    cases h with
    | node_fail hr' h => cases hr.symm.trans hr'; exact h
    | node_ok hr' h => cases hr.symm.trans hr'; simpa [wrapped] using h
  · intro h
    cases o with
    | none => exact .node_fail hr h
    | some x => simpa [wrapped] using Run.node_ok (prop := none) (name := name) (id := id) hr h

/-- C59: what `Same` means for the parser: the same result, the same data, the same settings
afterwards, the same error. -/
theorem C59_meaning {L : Lexer} {refs : List Rule} {ind : Indent} {r r' : Rule}
    (h : Same (envOf L refs ind) r r') (p : Pos) (i : Nat) :
    (∀ n ts ind' err, Succeeds L refs r p { ind with indent := i } n ts ind' err ↔
      Succeeds L refs r' p { ind with indent := i } n ts ind' err) ∧
    (∀ e ind', Fails L refs r p { ind with indent := i } e ind' ↔
      Fails L refs r' p { ind with indent := i } e ind') := by
  have h' : Same (envOf L refs { ind with indent := i }) r r' := h
  refine ⟨fun n ts ind' err => ?_, fun e ind' => ?_⟩
  · rw [succeeds_iff, succeeds_iff]; simp only [h' _ _ _ _ _]
  · rw [fails_iff, fails_iff]; simp only [h' _ _ _ _ _]

/-! ### C60 -/

section
variable {L : Lexer} {syn syn' : Syntax} {Q : Rule → Rule → Prop} {ind : Indent}

theorem rewrite_run (hQ : ∀ r r', Q r r' → Same (envOf L syn'.rules ind) r r')
    (h : RewriteL Q syn.rules syn'.rules) {r p i o j tr} (hr : syn.rules.getLast? = some r)
    (hrun : Run (envOf L syn.rules ind) (.rule r) p i o j tr) :
    ∃ r', syn'.rules.getLast? = some r' ∧ Run (envOf L syn'.rules ind) (.rule r') p i o j tr := by
  obtain ⟨r', h1, h2⟩ := h.last hr
  exact ⟨r', h1, rw_rule hQ (run_rewrite (E := envOf L syn.rules ind)
    (E' := envOf L syn'.rules ind) rfl rfl rfl hQ h hrun) h2⟩

theorem rewrite_ok (hQ : ∀ r r', Q r r' → Same (envOf L syn'.rules ind) r r')
    (h : RewriteL Q syn.rules syn'.rules) {text toks toks'}
    (hp : Parses L syn text toks ind (.ok toks')) : Parses L syn' text toks ind (.ok toks') := by
  obtain ⟨r, n, ts, j, tr, hr, h1, h2, h3⟩ := parses_ok_run.1 hp
  obtain ⟨r', hr', h4⟩ := rewrite_run hQ h hr h1
  exact parses_ok_run.2 ⟨r', n, ts, j, tr, hr', h4, h2, h3⟩

theorem rewrite_err (hQ : ∀ r r', Q r r' → Same (envOf L syn'.rules ind) r r')
    (h : RewriteL Q syn.rules syn'.rules) {text toks e}
    (hp : ∃ toks', Parses L syn text toks ind (.err e toks')) :
    ∃ toks', Parses L syn' text toks ind (.err e toks') := by
  obtain ⟨tr, h1, h2⟩ := parses_err_run.1 hp
  refine parses_err_run.2 ⟨tr, ?_, h2⟩
  cases h1 with
  | noRules h0 => rw [h0] at h; exact .noRules (by simpa using h.length.symm)
  | fails hr h1 =>
    obtain ⟨r', hr', h4⟩ := rewrite_run hQ h hr h1
    exact .fails hr' h4
  | short hr h1 hn =>
    obtain ⟨r', hr', h4⟩ := rewrite_run hQ h hr h1
    exact .short hr' h4 hn

theorem same_flip {E : Env} (h : ∀ r r', Q r r' → Same E r r') :
    ∀ r r', Q r' r → Same E r r' := fun _ _ hq p i o j tr => (h _ _ hq p i o j tr).symm

/-- C60: replacing parts of the rules of a syntax by equal rules does not change which texts are
accepted, nor the data. -/
theorem C60_accepts (hQ : ∀ r r', Q r r' → Same (envOf L syn.rules ind) r r' ∧
      Same (envOf L syn'.rules ind) r r')
    (h : RewriteL Q syn.rules syn'.rules) (text : Str) (toks toks' : List Tok) :
    Parses L syn text toks ind (.ok toks') ↔ Parses L syn' text toks ind (.ok toks') :=
  ⟨rewrite_ok (fun r r' hq => (hQ r r' hq).2) h,
    rewrite_ok (same_flip fun r r' hq => (hQ r r' hq).1) h.flip⟩

/-- C60: nor which texts are rejected, nor the error. -/
theorem C60_rejects (hQ : ∀ r r', Q r r' → Same (envOf L syn.rules ind) r r' ∧
      Same (envOf L syn'.rules ind) r r')
    (h : RewriteL Q syn.rules syn'.rules) (text : Str) (toks : List Tok) (e : RErr) :
    (∃ toks', Parses L syn text toks ind (.err e toks')) ↔
      ∃ toks', Parses L syn' text toks ind (.err e toks') :=
  ⟨rewrite_err (fun r r' hq => (hQ r r' hq).2) h,
    rewrite_err (same_flip fun r r' hq => (hQ r r' hq).1) h.flip⟩

/-- C60: nor the texts on which parsing runs for ever. -/
theorem C60_runs_for_ever (hQ : ∀ r r', Q r r' → Same (envOf L syn.rules ind) r r' ∧
      Same (envOf L syn'.rules ind) r r')
    (h : RewriteL Q syn.rules syn'.rules) (hs : SyntaxOk syn) (hs' : SyntaxOk syn') {text : Str}
    (hsh : ShortFor ind.tabSpaces text) (toks : List Tok) :
    ParseDiverges L syn text toks ind ↔ ParseDiverges L syn' text toks ind := by
  rw [diverges_iff hs hsh, diverges_iff hs' hsh]
  simp only [C60_accepts hQ h, C60_rejects hQ h]

end

/-! ### Laws that do not hold -/

/-- The order of the alternatives matters: `{"a" "ab"}` reads one character, `{"ab" "a"}` two. -/
theorem C59_order_refuted : ¬ ∀ (E : Env) (a b : Rule) (id : DebugId),
    Same E (.select [a, b] id) (.select [b, a] id) := by
  intro h
  have h1 : Run ⟨stdLexer, [], true, 4⟩ (.rule (.select [.tag c!"a" false false none 1,
      .tag c!"ab" false false none 2] 3)) ⟨c!"ab", 0⟩ 0 (some (1, [])) 0 [] :=
    .select (.sel_here (.tag_ok (prop := none) (by decide)))
  have h2 : Run ⟨stdLexer, [], true, 4⟩ (.rule (.select [.tag c!"ab" false false none 2,
      .tag c!"a" false false none 1] 3)) ⟨c!"ab", 0⟩ 0 (some (2, [])) 0 [] :=
    .select (.sel_here (.tag_ok (prop := none) (by decide)))
  have := (Run.det ((h _ _ _ _ _ _ _ _ _).1 h1) h2).1
  simp at this

/-- An optional list is not an optional of a list: `.s?.(",", "a")` is refused before `a,`, but
`?(.s!.(..))` matches nothing there. -/
theorem C59_optional_list_refuted : ¬ ∀ (E : Env) (r b : Rule) (trail : Bool) (id : DebugId),
    Same E (.separateBy r b true trail id) (.optional (.separateBy r b false trail id) id) := by
  intro h
  have t : ∀ opt, Run ⟨stdLexer, [], true, 4⟩ (.rule (.separateBy (.tag c!"a" false false none 1)
      (.tag c!"," false false none 2) opt false 3)) ⟨c!"a,", 0⟩ 0 none 0
      [⟨⟨2, 0⟩, .expectedTag c!"a" 1⟩] := fun opt =>
    .sep_first (n := 1) (ts := []) (tr := []) (o := none) (.tag_ok (prop := none) (by decide))
      (.sep_noTrail (m := 1) (us := []) (tr := []) (.tag_ok (prop := none) (by decide))
        (.tag_fail (by decide)))
  have h1 := (h _ _ _ _ _ _ _ _ _ _).1 (t true)
  have h2 := Run.optional_none (id := 3) (t false)
  have := (Run.det h1 h2).1
  simp at this

/-! ### Examples -/

/-- `[["a"] ?"b"]` as `["a" {"b" []}]`. -/
def exLaw : Rule → Rule → Prop := fun r r' =>
  (∃ id, r = .sequence [r'] id) ∨
  ∃ x id id' id'', r = .optional x id ∧ r' = .select [x, .sequence [] id''] id'

example (ind : Indent) (text : Str) (toks toks' : List Tok) :
    Parses stdLexer ⟨[.sequence [.sequence [.tag c!"a" false false none 1] 2,
      .optional (.tag c!"b" false false none 3) 4] 5], [c!"doc"]⟩ text toks ind (.ok toks') ↔
    Parses stdLexer ⟨[.sequence [.tag c!"a" false false none 1,
      .select [.tag c!"b" false false none 3, .sequence [] 7] 6] 5], [c!"doc"]⟩ text toks ind
      (.ok toks') := by
  refine C60_accepts (Q := exLaw) ?_ (.cons (.sequence (.cons (.law (.inl ⟨2, rfl⟩))
    (.cons (.law (.inr ⟨_, 4, 6, 7, rfl, rfl⟩)) .nil))) .nil) text toks toks'
  rintro r r' (⟨id, rfl⟩ | ⟨x, id, id', id'', rfl, rfl⟩)
  · exact ⟨C59_sequence_one _ _ _, C59_sequence_one _ _ _⟩
  · exact ⟨C59_optional _ _ _ _ _, C59_optional _ _ _ _ _⟩

end Verif.Props
