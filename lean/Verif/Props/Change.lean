import Verif.Proofs.Flat
/-
C84: rules may be replaced by rules that read the same.
-/
namespace Verif.Props
open Spec

theorem _root_.Verif.Spec.SameReading.symm {E : Env} {r r' : Rule} (h : SameReading E r r') : SameReading E r' r :=
  fun p i o j => (h p i o j).symm

theorem _root_.Verif.Spec.SameReading.implies {E : Env} {r r' : Rule} (h : SameReading E r r') : Implies E r r' :=
  fun p i o j => (h p i o j).1

theorem _root_.Verif.Spec.Same.reading {E : Env} {r r' : Rule} (h : Same E r r') : SameReading E r r' :=
  fun p i o j => exists_congr fun tr => h p i o j tr

mutual
theorem rewrite_change {Q : Rule → Rule → Prop} {r r'} (h : Rewrite Q r r') : Change Q r r' :=
  match h with
  | .keep => .keep
  | .law h => .law .keep h
  | .select h => .select (rewrite_changeL h)
  | .fastSelect h => .fastSelect (rewrite_changeL h)
  | .sequence h => .sequence (rewrite_changeL h)
  | .separateBy h h' => .separateBy (rewrite_change h) (rewrite_change h')
  | .repeat_ h => .repeat_ (rewrite_change h)
  | .lines h => .lines (rewrite_change h)
  | .optional h => .optional (rewrite_change h)
  | .not h => .not (rewrite_change h)
theorem rewrite_changeL {Q : Rule → Rule → Prop} {rs rs'} (h : RewriteL Q rs rs') : ChangeL Q rs rs' :=
  match h with
  | .nil => .nil
  | .cons h h' => .cons (rewrite_change h) (rewrite_changeL h')
end

section
variable {L : Lexer} {syn syn' : Syntax} {Q Q' : Rule → Rule → Prop} {ind : Indent}

theorem change_run (hQ : ∀ r r', Q r r' → Implies (envOf L syn'.rules ind) r r')
    (h : ChangeL Q syn.rules syn'.rules) {r p i o j tr} (hr : syn.rules.getLast? = some r)
    (hrun : Run (envOf L syn.rules ind) (.rule r) p i o j tr) :
    ∃ r', syn'.rules.getLast? = some r' ∧ Does (envOf L syn'.rules ind) (.rule r') p i o j := by
  obtain ⟨r', h1, h2⟩ := h.last hr
  exact ⟨r', h1, chg_rule hQ (run_change (E := envOf L syn.rules ind)
    (E' := envOf L syn'.rules ind) rfl rfl rfl hQ h hrun) h2⟩

theorem change_ok (hQ : ∀ r r', Q r r' → Implies (envOf L syn'.rules ind) r r')
    (h : ChangeL Q syn.rules syn'.rules) {text toks toks'}
    (hp : Parses L syn text toks ind (.ok toks')) : Parses L syn' text toks ind (.ok toks') := by
  obtain ⟨r, n, ts, j, tr, hr, h1, h2, h3⟩ := parses_ok_run.1 hp
  obtain ⟨r', hr', tr', h4⟩ := change_run hQ h hr h1
  exact parses_ok_run.2 ⟨r', n, ts, j, tr', hr', h4, h2, h3⟩

theorem rejects_err {tr : List RErr} {text : Str} {toks : List Tok} (h : Rejects L syn text ind tr) :
    ∃ e toks', Parses L syn text toks ind (.err e toks') := by
  have : ∃ e, Reported tr e := by
    cases h with
    | noRules => exact ⟨_, [], [], rfl, by simp, by simp⟩
    | fails hr h =>
      obtain ⟨e, he⟩ := run_none_trace h
      exact ⟨e, best_reported he⟩
    | @short r n ts j tr hr h hn =>
      obtain ⟨e, he⟩ := best_ne_none (tr := tr ++ [⟨⟨n, 0⟩, .expectedEnd⟩]) (by simp)
      exact ⟨e, best_reported he⟩
  obtain ⟨e, he⟩ := this
  obtain ⟨toks', h'⟩ := parses_err_run.2 ⟨tr, h, he⟩
  exact ⟨e, toks', h'⟩

theorem change_err (hQ : ∀ r r', Q r r' → Implies (envOf L syn'.rules ind) r r')
    (h : ChangeL Q syn.rules syn'.rules) {text toks}
    (hp : ∃ e toks', Parses L syn text toks ind (.err e toks')) :
    ∃ e toks', Parses L syn' text toks ind (.err e toks') := by
  obtain ⟨e, hp⟩ := hp
  obtain ⟨tr, h1, h2⟩ := parses_err_run.1 hp
  cases h1 with
  | noRules h0 => rw [h0] at h; exact rejects_err (.noRules (by simpa using h.length.symm))
  | fails hr h1 =>
    obtain ⟨r', hr', _, h4⟩ := change_run hQ h hr h1
    exact rejects_err (.fails hr' h4)
  | short hr h1 hn =>
    obtain ⟨r', hr', _, h4⟩ := change_run hQ h hr h1
    exact rejects_err (.short hr' h4 hn)

/-- C84: replacing parts of the rules of a syntax by rules that read the same does not change which
texts are accepted, nor the data. -/
theorem C84_accepts (hQ : ∀ r r', Q r r' → SameReading (envOf L syn.rules ind) r r' ∧
      SameReading (envOf L syn'.rules ind) r r')
    (h : RewriteL Q syn.rules syn'.rules) (text : Str) (toks toks' : List Tok) :
    Parses L syn text toks ind (.ok toks') ↔ Parses L syn' text toks ind (.ok toks') :=
  ⟨change_ok (fun r r' hq => (hQ r r' hq).2.implies) (rewrite_changeL h),
    change_ok (fun r r' hq => (hQ r' r hq).1.symm.implies) (rewrite_changeL h.flip)⟩

/-- C84: nor which texts are rejected; the error may be another. -/
theorem C84_rejects (hQ : ∀ r r', Q r r' → SameReading (envOf L syn.rules ind) r r' ∧
      SameReading (envOf L syn'.rules ind) r r')
    (h : RewriteL Q syn.rules syn'.rules) (text : Str) (toks : List Tok) :
    (∃ e toks', Parses L syn text toks ind (.err e toks')) ↔
      ∃ e toks', Parses L syn' text toks ind (.err e toks') :=
  ⟨change_err (fun r r' hq => (hQ r r' hq).2.implies) (rewrite_changeL h),
    change_err (fun r r' hq => (hQ r' r hq).1.symm.implies) (rewrite_changeL h.flip)⟩

/-- C84: nor the texts on which parsing runs for ever. -/
theorem C84_runs_for_ever (hQ : ∀ r r', Q r r' → SameReading (envOf L syn.rules ind) r r' ∧
      SameReading (envOf L syn'.rules ind) r r')
    (h : RewriteL Q syn.rules syn'.rules) (hs : SyntaxOk syn) (hs' : SyntaxOk syn') {text : Str}
    (hsh : ShortFor ind.tabSpaces text) (toks : List Tok) :
    ParseDiverges L syn text toks ind ↔ ParseDiverges L syn' text toks ind := by
  rw [diverges_iff hs hsh, diverges_iff hs' hsh]
  simp only [C84_accepts hQ h, C84_rejects hQ h]

end

/-! ### Laws -/

/-- C84: a list is an item, then separators each with an item, then either perhaps a separator or no
separator. -/
theorem C84_list {E : Env} (hn : NoIndent E.refs) {r b : Rule} (hr : Flat r) (hb : Flat b) (trail : Bool)
    (id id₁ id₂ id₃ id₄ : DebugId) :
    SameReading E (.separateBy r b false trail id)
      (.sequence [r, .repeat_ (.sequence [b, r] id₁) true id₂, if trail then .optional b id₃ else .not b id₃] id₄) :=
  list_as_repeat hn hr hb trail id id₁ id₂ id₃ id₄

/-- C84: a list that may be empty is such a list, or no item. -/
theorem C84_list_empty {E : Env} (hn : NoIndent E.refs) {r b : Rule} (hr : Flat r) (hb : Flat b) (trail : Bool)
    (id id₁ id₂ id₃ id₄ id₅ id₆ : DebugId) :
    SameReading E (.separateBy r b true trail id)
      (.select [.sequence [r, .repeat_ (.sequence [b, r] id₁) true id₂,
        if trail then .optional b id₃ else .not b id₃] id₄, .not r id₅] id₆) :=
  list_opt_as_repeat hn hr hb trail id id₁ id₂ id₃ id₄ id₅ id₆

/-- C84: `not` three times is `not` once. -/
theorem C84_not_not_not (E : Env) (r : Rule) (id id₁ id₂ id₃ : DebugId) :
    SameReading E (.not (.not (.not r id₁) id₂) id₃) (.not r id) := by
  intro p i o j
  constructor
  · rintro ⟨_, h⟩
    cases h with
    | not_ok h =>
      generalize hy : (none : Outcome) = y at h
      cases h with
      | not_ok => cases hy
      | not_fail h =>
        generalize hz : (some _ : Outcome) = z at h
        cases h with
        | not_fail => cases hz
        | not_ok h => exact ⟨_, .not_ok h⟩
    | not_fail h =>
      generalize hy : (some _ : Outcome) = y at h
      cases h with
      | not_fail => cases hy
      | not_ok h =>
        generalize hz : (none : Outcome) = z at h
        cases h with
        | not_ok => cases hz
        | not_fail h => exact ⟨_, .not_fail h⟩
  · rintro ⟨_, h⟩
    cases h with
    | not_ok h => exact ⟨_, .not_ok (.not_fail (.not_ok h))⟩
    | not_fail h => exact ⟨_, .not_fail (.not_ok (.not_fail h))⟩

theorem sel_nots {E : Env} {p} {id : DebugId} : ∀ {rs : List Rule} {i o j tr},
    Run E (.seq (rs.map (.not · id))) p i o j tr ↔
      (∃ tr', Run E (.sel rs) p i none j tr' ∧ o = some (0, []) ∧ tr = []) ∨
      ∃ n ts tr', Run E (.sel rs) p i (some (n, ts)) j tr' ∧ o = none ∧
        tr = [⟨⟨p.off, n⟩, .didNotExpectTag (p.src.take n) id⟩]
  | [], i, o, j, tr => by
    constructor
    · intro h
      cases h
      exact .inl ⟨_, .sel_nil, rfl, rfl⟩
    · rintro (⟨_, h, rfl, rfl⟩ | ⟨n, ts, _, h, rfl, rfl⟩)
      · cases h; exact .seq_nil
      · cases h
  | r :: rs, i, o, j, tr => by
    constructor
    · intro h
      cases h with
      | seq_fail h =>
        cases h with
        | not_fail h => exact .inr ⟨_, _, _, .sel_here h, rfl, rfl⟩
      | seq_cons h h' =>
        generalize hy : (some (_, _) : Outcome) = y at h
        cases h with
        | not_fail => cases hy
        | not_ok h =>
          cases hy
          rw [adv_zero] at h'
          rcases sel_nots.1 h' with ⟨_, h2, rfl, rfl⟩ | ⟨n, ts, _, h2, rfl, rfl⟩
          · exact .inl ⟨_, .sel_next h h2, rfl, rfl⟩
          · exact .inr ⟨_, _, _, .sel_next h h2, rfl, rfl⟩
    · rintro (⟨_, h, rfl, rfl⟩ | ⟨n, ts, _, h, rfl, rfl⟩)
      · cases h with
        | sel_next h h' =>
          have h2 := (sel_nots (id := id)).2 (.inl ⟨_, h', rfl, rfl⟩)
          exact Run.seq_cons (o := some (0, [])) (.not_ok (id := id) h) (by rw [adv_zero]; exact h2)
      · cases h with
        | sel_here h => exact .seq_fail (.not_fail h)
        | sel_next h h' =>
          have h2 := (sel_nots (id := id)).2 (.inr ⟨_, _, _, h', rfl, rfl⟩)
          exact Run.seq_cons (o := none) (.not_ok (id := id) h) (by rw [adv_zero]; exact h2)

/-- C59: none of the alternatives is there if the first is not, and the second is not, and so on. -/
theorem C59_de_morgan (E : Env) (rs : List Rule) (id id' id'' : DebugId) :
    Same E (.not (.select rs id') id) (.sequence (rs.map (.not · id)) id'') := by
  intro p i o j tr
  have hs : ∀ {x j}, (∃ tr, Run E (.rule (.select rs id')) p i x j tr) ↔ ∃ tr, Run E (.sel rs) p i x j tr := by
    intro x j
    cases rs with
    | nil =>
      constructor
      · rintro ⟨_, h⟩; cases h; exact ⟨_, .sel_nil⟩
      · rintro ⟨_, h⟩; cases h; exact ⟨_, .select_empty⟩
    | cons r rs =>
      constructor
      · rintro ⟨_, h⟩; cases h with | select h => exact ⟨_, h⟩
      · rintro ⟨_, h⟩; exact ⟨_, .select h⟩
  constructor
  · intro h
    refine .sequence (sel_nots.2 ?_)
    cases h with
    | not_ok h =>
      obtain ⟨_, h⟩ := hs.1 ⟨_, h⟩
      exact .inl ⟨_, h, rfl, rfl⟩
    | not_fail h =>
      obtain ⟨_, h⟩ := hs.1 ⟨_, h⟩
      exact .inr ⟨_, _, _, h, rfl, rfl⟩
  · intro h
    cases h with
    | sequence h =>
      rcases sel_nots.1 h with ⟨_, h', rfl, rfl⟩ | ⟨n, ts, _, h', rfl, rfl⟩
      · obtain ⟨_, h'⟩ := hs.2 ⟨_, h'⟩
        exact .not_ok h'
      · obtain ⟨_, h'⟩ := hs.2 ⟨_, h'⟩
        exact .not_fail h'

theorem sel_does {E : Env} {r : Rule} {rs : List Rule} {id : DebugId} {p i o j} :
    Does E (.rule (.select (r :: rs) id)) p i o j ↔ Does E (.sel (r :: rs)) p i o j := by
  constructor
  · rintro ⟨_, h⟩; cases h with | select h => exact ⟨_, h⟩
  · rintro ⟨_, h⟩; exact ⟨_, .select h⟩

/-- C84: an alternative that has been tried before may go. -/
theorem C84_again {E : Env} (hn : NoIndent E.refs) {r : Rule} {as bs cs : List Rule} (hr : Flat r)
    (hb : ∀ x ∈ bs, Flat x) (id id' : DebugId) :
    SameReading E (.select (as ++ r :: (bs ++ r :: cs)) id) (.select (as ++ r :: (bs ++ cs)) id') := by
  have hf : ∀ {rs : List Rule} {p i o j tr}, (∀ x ∈ rs, Flat x) → Run E (.sel rs) p i o j tr → j = i :=
    fun hx h => run_flat_goal hn h hx
  have h1 : ∀ {rs id p i o j}, rs ≠ [] → (Does E (.rule (.select rs id)) p i o j ↔ Does E (.sel rs) p i o j) := by
    intro rs id p i o j h0
    cases rs with
    | nil => exact absurd rfl h0
    | cons r rs => exact sel_does
  intro p i o j
  rw [h1 (by simp), h1 (by simp)]
  have key : ∀ {i tr}, Run E (.rule r) p i none i tr → ∀ {o j},
      (Does E (.sel (bs ++ r :: cs)) p i o j ↔ Does E (.sel (bs ++ cs)) p i o j) := by
    intro i tr hr' o j
    constructor
    · rintro ⟨_, h⟩
      rcases sel_append.1 h with ⟨x, rfl, g⟩ | ⟨k, t1, t2, g, h', rfl⟩
      · exact ⟨_, sel_append.2 (.inl ⟨x, rfl, g⟩)⟩
      · cases hf hb g
        cases h' with
        | sel_here h' => exact absurd (hr'.det h').1 (by simp)
        | sel_next h' h'' =>
          cases run_flat hn hr h'
          exact ⟨_, sel_append.2 (.inr ⟨_, _, _, g, h'', rfl⟩)⟩
    · rintro ⟨_, h⟩
      rcases sel_append.1 h with ⟨x, rfl, g⟩ | ⟨k, t1, t2, g, h', rfl⟩
      · exact ⟨_, sel_append.2 (.inl ⟨x, rfl, g⟩)⟩
      · cases hf hb g
        exact ⟨_, sel_append.2 (.inr ⟨_, _, _, g, .sel_next hr' h', rfl⟩)⟩
  constructor
  · rintro ⟨_, h⟩
    rcases sel_append.1 h with ⟨x, rfl, g⟩ | ⟨k, t1, t2, g, h', rfl⟩
    · exact ⟨_, sel_append.2 (.inl ⟨x, rfl, g⟩)⟩
    · cases h' with
      | sel_here h' => exact ⟨_, sel_append.2 (.inr ⟨_, _, _, g, .sel_here h', rfl⟩)⟩
      | sel_next h' h'' =>
        cases run_flat hn hr h'
        obtain ⟨_, h2⟩ := (key h').1 ⟨_, h''⟩
        exact ⟨_, sel_append.2 (.inr ⟨_, _, _, g, .sel_next h' h2, rfl⟩)⟩
  · rintro ⟨_, h⟩
    rcases sel_append.1 h with ⟨x, rfl, g⟩ | ⟨k, t1, t2, g, h', rfl⟩
    · exact ⟨_, sel_append.2 (.inl ⟨x, rfl, g⟩)⟩
    · cases h' with
      | sel_here h' => exact ⟨_, sel_append.2 (.inr ⟨_, _, _, g, .sel_here h', rfl⟩)⟩
      | sel_next h' h'' =>
        cases run_flat hn hr h'
        obtain ⟨_, h2⟩ := (key h').2 ⟨_, h''⟩
        exact ⟨_, sel_append.2 (.inr ⟨_, _, _, g, .sel_next h' h2, rfl⟩)⟩

/-- C84: two alternatives that begin the same may be told apart after the beginning. -/
theorem C84_factor {E : Env} (hn : NoIndent E.refs) {r : Rule} {bs cs : List Rule} (hr : Flat r)
    (hb : ∀ x ∈ bs, Flat x) (id id₁ id₂ id₃ id₄ id₅ id₆ : DebugId) :
    SameReading E (.select [.sequence (r :: bs) id₁, .sequence (r :: cs) id₂] id)
      (.sequence [r, .select [.sequence bs id₃, .sequence cs id₄] id₅] id₆) := by
  intro p i o j
  constructor
  · rintro ⟨_, h⟩
    cases h with
    | select h =>
      cases h with
      | sel_here h =>
        cases h with
        | sequence h =>
          generalize hy : (some _ : Outcome) = y at h
          cases h with
          | seq_fail => cases hy
          | @seq_cons _ _ _ _ n ts _ _ o' _ _ h h' =>
            cases o' with
            | none => cases hy
            | some x =>
              exact ⟨_, .sequence (.seq_cons h (seq_single.2 (.select (.sel_here (.sequence h')))))⟩
      | sel_next h h1 =>
        have h2 := sel_single.1 h1
        cases h with
        | sequence h =>
          generalize hy : (none : Outcome) = y at h
          cases h with
          | seq_fail h =>
            cases run_flat hn hr h
            cases h2 with
            | sequence h2 =>
              cases h2 with
              | seq_fail h2 => exact ⟨_, .sequence (.seq_fail h2)⟩
              | seq_cons h2 _ => exact absurd (h.det h2).1 (by simp)
          | @seq_cons _ _ _ _ n ts _ _ o' _ _ h h' =>
            cases o' with
            | some x => cases hy
            | none =>
              cases run_flat hn hr h
              cases run_flat_goal hn h' hb
              cases h2 with
              | sequence h2 =>
                cases h2 with
                | seq_fail h2 => exact absurd (h.det h2).1 (by simp)
                | seq_cons h2 h3 =>
                  obtain ⟨e, rfl, -⟩ := h.det h2
                  cases e
                  exact ⟨_, .sequence (.seq_cons h (seq_single.2 (.select (.sel_next (.sequence h')
                    (sel_single.2 (.sequence h3))))))⟩
  · rintro ⟨_, h⟩
    cases h with
    | sequence h =>
      cases h with
      | seq_fail h =>
        cases run_flat hn hr h
        exact ⟨_, .select (.sel_next (.sequence (.seq_fail h)) (sel_single.2 (.sequence (.seq_fail h))))⟩
      | seq_cons h h' =>
        cases run_flat hn hr h
        replace h' := seq_single.1 h'
        cases h' with
        | select h' =>
          cases h' with
          | sel_here h' =>
            cases h' with
            | sequence h' => exact ⟨_, .select (.sel_here (.sequence (.seq_cons h h')))⟩
          | sel_next h' h2 =>
            cases h' with
            | sequence h' =>
              cases run_flat_goal hn h' hb
              replace h2 := sel_single.1 h2
              cases h2 with
              | sequence h2 =>
                exact ⟨_, .select (.sel_next (.sequence (.seq_cons h h')) (sel_single.2 (.sequence (.seq_cons h h2))))⟩

/-! ### What does not hold -/

theorem eval_does {E : Env} {N : Nat} {r : Rule} {p : Pos} {i n s : Nat} {err st}
    (h : eval E.L E.refs N r ⟨[], E.ind i⟩ 0 p = .ret (.ok ⟨p.off, n⟩ s err) st) :
    ∃ ts j, Does E (.rule r) p i (some (n, ts)) j := by
  have hs := eval_sound E N r i [] 0 p (Nat.le_refl _)
  change Good _ _ _ _ _ _ _ _ (eval E.L E.refs N r ⟨[], E.ind i⟩ 0 p) at hs
  rw [h] at hs
  obtain ⟨n', ts', j, tr, ha, hb, hc, hd, he, hf⟩ := hs
  simp at hb
  subst hb
  exact ⟨ts', j, tr, ha⟩

theorem eval_fails {E : Env} {N : Nat} {r : Rule} {p : Pos} {i : Nat} {err st}
    (h : eval E.L E.refs N r ⟨[], E.ind i⟩ 0 p = .ret (.err err) st) : ∃ j, Does E (.rule r) p i none j := by
  have hs := eval_sound E N r i [] 0 p (Nat.le_refl _)
  change Good _ _ _ _ _ _ _ _ (eval E.L E.refs N r ⟨[], E.ind i⟩ 0 p) at hs
  rw [h] at hs
  obtain ⟨j, tr, ha, hb⟩ := hs
  exact ⟨j, tr, ha⟩

/-- `{["  " .l(lines "x") "x"] [.l(lines "q") "y"]}`, where the lines are indented. -/
def exDeep : Rule :=
  .select [.sequence [.tag c!"  " false false none 1, .lines (.tag c!"x" false false none 2) true 3, .tag c!"x" false false none 4] 5,
    .sequence [.lines (.tag c!"q" false false none 6) true 7, .tag c!"y" false false none 8] 9] 10

def exDeepEnv : Env := ⟨stdLexer, [], true, 4⟩

/-- C84: with indented lines an alternative may fail at first and succeed when it is tried again. -/
theorem C84_again_refuted : ¬ ∀ (E : Env) (r : Rule) (id : DebugId), SameReading E (.select [r, r] id) r := by
  intro h
  have h1 : eval exDeepEnv.L exDeepEnv.refs 20 (.select [exDeep, exDeep] 11) ⟨[], exDeepEnv.ind 0⟩ 0 ⟨c!"  x", 0⟩ =
      .ret (.ok ⟨0, 3⟩ 0 (some ⟨⟨3, 0⟩, .expectedTag c!"x" 4⟩)) ⟨[], ⟨2, true, 4⟩⟩ := by rfl
  have h2 : eval exDeepEnv.L exDeepEnv.refs 20 exDeep ⟨[], exDeepEnv.ind 0⟩ 0 ⟨c!"  x", 0⟩ =
      .ret (.err ⟨⟨3, 0⟩, .expectedTag c!"x" 4⟩) ⟨[], ⟨2, true, 4⟩⟩ := by rfl
  obtain ⟨ts, j, h3⟩ := eval_does (p := ⟨c!"  x", 0⟩) h1
  obtain ⟨j', _, h4⟩ := eval_fails h2
  obtain ⟨_, h5⟩ := (h _ _ _ _ _ _ _).1 h3
  simpa using (h5.det h4).1

/-- C84: the error does change: `!!!"a"` fails before `a` with the error of an empty token. -/
theorem C84_error_refuted : ¬ ∀ (E : Env) (r : Rule) (id : DebugId),
    Same E (.not (.not (.not r id) id) id) (.not r id) := by
  intro h
  have h1 : Run exDeepEnv (.rule (.tag c!"a" false false none 1)) ⟨c!"a", 0⟩ 0 (some (1, [])) 0 [] :=
    .tag_ok (prop := none) (by decide)
  have h2 := (h _ _ 2 _ _ _ _ _).2 (.not_fail h1)
  have := (h2.det (.not_fail (.not_ok (.not_fail h1)))).2.2
  simp at this

/-! ### A case -/

/-- `.s!("," "a")` where no separator may stand at the end. -/
def exNoTrail : Rule := .separateBy (.tag c!"a" false false (some c!"a") 1) (.tag c!"," false false none 2) false false 3

/-- `["a" .r?(["," "a"]) !","]`. -/
def exNoTrailSaid : Rule :=
  .sequence [.tag c!"a" false false (some c!"a") 1,
    .repeat_ (.sequence [.tag c!"," false false none 2, .tag c!"a" false false (some c!"a") 1] 4) true 5,
    .not (.tag c!"," false false none 2) 6] 7

theorem tag_flat (t : Str) (n i : Bool) (p : Option Str) (id : DebugId) : Flat (.tag t n i p id) := by
  intro x id' h
  cases h with
  | step h hc => cases hc

theorem tags_noIndent (r : Rule) (h : Flat r) : NoIndent [r] := by
  intro q hq
  simp only [List.mem_singleton] at hq
  exact hq ▸ h

theorem exNoTrail_flat : Flat exNoTrail := by
  intro x id h
  cases h with
  | step h hc => cases hc <;> exact tag_flat _ _ _ _ _ _ _ h

theorem exNoTrailSaid_flat : Flat exNoTrailSaid := by
  intro x id h
  cases h with
  | step h hc =>
    cases hc with
    | sequence hm =>
      simp only [List.mem_cons, List.not_mem_nil, or_false] at hm
      rcases hm with rfl | rfl | rfl
      · exact tag_flat _ _ _ _ _ _ _ h
      · cases h with
        | step h hc =>
          cases hc
          exact flat_two (tag_flat _ _ _ _ _) (tag_flat _ _ _ _ _) _ _ _ h
      · cases h with
        | step h hc => cases hc; exact tag_flat _ _ _ _ _ _ _ h

example (ind : Indent) (text : Str) (toks toks' : List Tok) :
    Parses stdLexer ⟨[exNoTrail], [c!"doc"]⟩ text toks ind (.ok toks') ↔
      Parses stdLexer ⟨[exNoTrailSaid], [c!"doc"]⟩ text toks ind (.ok toks') :=
  C84_accepts (Q := fun r r' => r = exNoTrail ∧ r' = exNoTrailSaid) (by
    rintro r r' ⟨rfl, rfl⟩
    exact ⟨C84_list (tags_noIndent _ exNoTrail_flat) (tag_flat _ _ _ _ _) (tag_flat _ _ _ _ _) false 3 4 5 6 7,
      C84_list (tags_noIndent _ exNoTrailSaid_flat) (tag_flat _ _ _ _ _) (tag_flat _ _ _ _ _) false 3 4 5 6 7⟩)
    (.cons (.law ⟨rfl, rfl⟩) .nil) text toks toks'

end Verif.Props
