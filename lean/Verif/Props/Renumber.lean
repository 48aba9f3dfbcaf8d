import Verif.Proofs.RenumberOpt
import Verif.Props.Optimize
/-
C61: debug ids, and names of nodes, are for messages only.
-/
namespace Verif.Props
open Spec

section
variable {L : Lexer} {syn syn' : Syntax} {R : DebugId → DebugId → Prop} {ind : Indent}

theorem renumber_run (h : RenumberedL R syn.rules syn'.rules) {r p i o j tr}
    (hr : syn.rules.getLast? = some r) (hrun : Run (envOf L syn.rules ind) (.rule r) p i o j tr) :
    ∃ r' tr', syn'.rules.getLast? = some r' ∧
      Run (envOf L syn'.rules ind) (.rule r') p i o j tr' ∧ Alike R tr tr' := by
  obtain ⟨r', h1, h2⟩ := h.last hr
  obtain ⟨tr', h3, h4⟩ := run_renumber (E := envOf L syn.rules ind) (E' := envOf L syn'.rules ind)
    rfl rfl rfl h hrun _ (.rule h2)
  exact ⟨r', tr', h1, h3, h4⟩

theorem renumber_ok (h : RenumberedL R syn.rules syn'.rules) {text toks toks'}
    (hp : Parses L syn text toks ind (.ok toks')) : Parses L syn' text toks ind (.ok toks') := by
  obtain ⟨r, n, ts, j, tr, hr, h1, h2, h3⟩ := parses_ok_run.1 hp
  obtain ⟨r', tr', hr', h4, -⟩ := renumber_run h hr h1
  exact parses_ok_run.2 ⟨r', n, ts, j, tr', hr', h4, h2, h3⟩

/-- C61: a syntax with other debug ids, or other names of nodes, accepts the same texts with the same
data. -/
theorem C61_accepts (h : RenumberedL R syn.rules syn'.rules) (text : Str) (toks toks' : List Tok) :
    Parses L syn text toks ind (.ok toks') ↔ Parses L syn' text toks ind (.ok toks') :=
  ⟨renumber_ok h, renumber_ok h.flip⟩

/-- C61: it rejects the same texts, with the same error at the same place, but for the debug id of
the error, which is changed like that of the rule. -/
theorem C61_rejects (h : RenumberedL R syn.rules syn'.rules) {text : Str} {toks : List Tok} {e : RErr}
    (hp : ∃ toks', Parses L syn text toks ind (.err e toks')) :
    ∃ e', RErrLike R e e' ∧ ∃ toks', Parses L syn' text toks ind (.err e' toks') := by
  obtain ⟨tr, h1, h2⟩ := parses_err_run.1 hp
  have key : ∃ tr', Rejects L syn' text ind tr' ∧ Alike R tr tr' := by
    cases h1 with
    | noRules h0 =>
      rw [h0] at h
      exact ⟨_, .noRules (by simpa using h.length.symm), .one .noRules⟩
    | fails hr h1 =>
      obtain ⟨r', tr', hr', h4, h5⟩ := renumber_run h hr h1
      exact ⟨tr', .fails hr' h4, h5⟩
    | short hr h1 hn =>
      obtain ⟨r', tr', hr', h4, h5⟩ := renumber_run h hr h1
      exact ⟨_, .short hr' h4 hn, h5.append (.one .expectedEnd)⟩
  obtain ⟨tr', h3, h4⟩ := key
  obtain ⟨e', h5, h6⟩ := h4.reported h2
  exact ⟨e', h6, parses_err_run.2 ⟨tr', h3, h5⟩⟩

theorem renumber_rejects_iff (h : RenumberedL R syn.rules syn'.rules) (text : Str) (toks : List Tok) :
    (∃ e toks', Parses L syn text toks ind (.err e toks')) ↔
      ∃ e toks', Parses L syn' text toks ind (.err e toks') := by
  constructor
  · rintro ⟨e, hp⟩
    obtain ⟨e', -, h1⟩ := C61_rejects h hp
    exact ⟨e', h1⟩
  · rintro ⟨e, hp⟩
    obtain ⟨e', -, h1⟩ := C61_rejects h.flip hp
    exact ⟨e', h1⟩

/-- C61: it runs for ever on the same texts. -/
theorem C61_runs_for_ever (h : RenumberedL R syn.rules syn'.rules) (hs : SyntaxOk syn) {text : Str}
    (hsh : ShortFor ind.tabSpaces text) (toks : List Tok) :
    ParseDiverges L syn text toks ind ↔ ParseDiverges L syn' text toks ind := by
  rw [diverges_iff hs hsh, diverges_iff (renumber_syntaxOk h hs) hsh, renumber_rejects_iff h]
  simp only [C61_accepts h]

/-- C61: it is optimized to the same, with the debug ids changed in the same way. -/
theorem C61_optimizes (h : RenumberedL R syn.rules syn'.rules) {o : Syntax} (ho : Optimizes syn o) :
    ∃ o', Optimizes syn' o' ∧ RenumberedL R o.rules o'.rules := by
  obtain ⟨n, ho⟩ := ho
  obtain ⟨rules, h1, h2⟩ := Comp.bind_ok.1 ho
  cases h2
  have h3 := (optimizeRules_renumber h n h).all
  rw [optimizeRules_eq, h1, optimizeRules_eq] at h3
  generalize hx : Comp.all _ = x at h3
  cases h3 with
  | ok h3 => exact ⟨⟨_, syn'.names⟩, ⟨n, Comp.bind_ok.2 ⟨_, hx, rfl⟩⟩, h3⟩

end

mutual
theorem renumbered_map (f : DebugId → DebugId) : ∀ r, Renumbered (fun a b => b = f a) r (renumber f r)
  | .whitespace _ _ => .whitespace rfl
  | .tag _ _ _ _ _ => .tag rfl
  | .untilAny _ _ _ _ => .untilAny rfl
  | .untilAnyOrWs _ _ _ _ => .untilAnyOrWs rfl
  | .text _ _ _ => .text rfl
  | .number _ _ _ => .number rfl
  | .node _ _ _ _ => .node rfl
  | .select rs _ => .select rfl (renumberedL_map f rs)
  | .fastSelect _ rs _ _ => .fastSelect rfl (renumberedL_map f rs)
  | .sequence rs _ => .sequence rfl (renumberedL_map f rs)
  | .separateBy r b _ _ _ => .separateBy rfl (renumbered_map f r) (renumbered_map f b)
  | .repeat_ r _ _ => .repeat_ rfl (renumbered_map f r)
  | .lines r _ _ => .lines rfl (renumbered_map f r)
  | .optional r _ => .optional rfl (renumbered_map f r)
  | .not r _ => .not rfl (renumbered_map f r)
theorem renumberedL_map (f : DebugId → DebugId) :
    ∀ rs, RenumberedL (fun a b => b = f a) rs (renumberAll f rs)
  | [] => .nil
  | r :: rs => .cons (renumbered_map f r) (renumberedL_map f rs)
end

theorem errorLike_map {f : DebugId → DebugId} {e e'} (h : ErrorLike (fun a b => b = f a) e e') :
    e' = renumberError f e := by
  cases h <;> simp_all [renumberError]

/-- C61: changing the debug ids of all rules by a function changes the debug id of the error by it,
and nothing else. -/
theorem C61_map {L : Lexer} {syn : Syntax} {ind : Indent} (f : DebugId → DebugId) {text : Str}
    {toks : List Tok} {e : RErr} (hp : ∃ toks', Parses L syn text toks ind (.err e toks')) :
    ∃ toks', Parses L ⟨renumberAll f syn.rules, syn.names⟩ text toks ind
      (.err ⟨e.range, renumberError f e.err⟩ toks') := by
  obtain ⟨⟨ran, err⟩, ⟨h1, h2⟩, h3⟩ :=
    C61_rejects (syn' := ⟨renumberAll f syn.rules, syn.names⟩) (renumberedL_map f syn.rules) hp
  cases h1
  have := errorLike_map h2
  subst this
  exact h3

/-! ### A case -/

/-- `["a" "b"]` with ids 1, 2, 3. -/
def exNumbered : Syntax :=
  ⟨[.sequence [.tag c!"a" false false none 1, .tag c!"b" false false none 2] 3], [c!"x"]⟩

/-- The error for `ac` blames rule 2; with all ids raised by 10, rule 12. -/
example : (∃ toks', Parses stdLexer exNumbered c!"ac" [] ⟨0, true, 4⟩
      (.err ⟨⟨1, 0⟩, .expectedTag c!"b" 2⟩ toks')) ∧
    ∃ toks', Parses stdLexer ⟨renumberAll (· + 10) exNumbered.rules, exNumbered.names⟩ c!"ac" []
      ⟨0, true, 4⟩ (.err ⟨⟨1, 0⟩, .expectedTag c!"b" 12⟩ toks') := by
  have h : ∃ toks', Parses stdLexer exNumbered c!"ac" [] ⟨0, true, 4⟩
      (.err ⟨⟨1, 0⟩, .expectedTag c!"b" 2⟩ toks') := ⟨[], by simp, 10, by decide +kernel⟩
  exact ⟨h, C61_map (· + 10) h⟩

end Verif.Props
