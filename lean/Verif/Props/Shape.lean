import Verif.Proofs.Shape
import Verif.Props.Counts
import Verif.Props.Properties
import Verif.Props.Renumber
/-
What the cost of a parse does not depend on: C117.
-/
namespace Verif.Props
open Verif Verif.Spec

/-- What a parse that returns does has a meaning. -/
theorem parses_runs {L : Lexer} {syn : Syntax} {text : Str} {ind : Indent} {toks : List Tok} {o : POut}
    (h : Parses L syn text toks ind o) (ho : o ≠ .panic) {r : Rule} (hr : syn.rules.getLast? = some r) :
    ∃ o j tr, Run (envOf L syn.rules ind) (.rule r) ⟨text, 0⟩ ind.indent o j tr := by
  obtain ⟨hne, n, hn⟩ := h
  cases he : eval L syn.rules n r ⟨toks, ind⟩ toks.length (Pos.new text 0) with
  | timeout => simp only [parseWithIndent, hr, he] at hn; exact absurd hn.symm hne
  | panic => simp only [parseWithIndent, hr, he] at hn; exact absurd hn.symm ho
  | ret res st =>
    cases res with
    | ok range s oe =>
      obtain ⟨n, ts, j, tr, h1, -⟩ := eval_ok_run (Nat.le_refl _) he
      exact ⟨_, j, tr, h1⟩
    | err e =>
      obtain ⟨j, tr, h1, -⟩ := eval_err_run (Nat.le_refl _) he
      exact ⟨_, j, tr, h1⟩

/-- C117: debug ids, properties and names do not matter for the cost of a rule. -/
theorem C117_shape {E E' : Env} (hLe : E'.L = E.L) (hal : E'.align = E.align) (htab : E'.tab = E.tab)
    (hrefs : SameShapes E.refs E'.refs) {r r' : Rule} (hr : SameShape r r') {p : Pos} {i : Nat} {o j tr}
    (h : Run E (.rule r) p i o j tr) (c d : Nat) : Counts E (.rule r) p i c d ↔ Counts E' (.rule r') p i c d := by
  obtain ⟨c', d', hc⟩ := C114_unique h
  have h1 := counts_shape hLe hal htab hrefs ((hc c' d').2 ⟨rfl, rfl⟩) _ (.rule hr)
  refine ⟨fun h => counts_shape hLe hal htab hrefs h _ (.rule hr), fun h => ?_⟩
  obtain ⟨rfl, rfl⟩ := h.det h1
  exact (hc _ _).2 ⟨rfl, rfl⟩

/-- C117: nor does the place where a text stands. -/
theorem C117_place {E : Env} {r : Rule} {src : Str} {off off' i : Nat} {o j tr}
    (h : Run E (.rule r) ⟨src, off⟩ i o j tr) {o' j' tr'} (h' : Run E (.rule r) ⟨src, off'⟩ i o' j' tr') (c d : Nat) :
    Counts E (.rule r) ⟨src, off⟩ i c d ↔ Counts E (.rule r) ⟨src, off'⟩ i c d := by
  have key : ∀ {a k o j tr}, Run E (.rule r) ⟨src, a⟩ i o j tr →
      (Counts E (.rule r) ⟨src, a⟩ i c d ↔ Counts E (.rule r) ⟨src, a + k⟩ i c d) := by
    intro a k o j tr h
    obtain ⟨c', d', hc⟩ := C114_unique h
    have h1 := counts_shift k ((hc c' d').2 ⟨rfl, rfl⟩)
    refine ⟨fun h => counts_shift k h, fun h => ?_⟩
    obtain ⟨rfl, rfl⟩ := h.det h1
    exact (hc _ _).2 ⟨rfl, rfl⟩
  rcases Nat.le_total off off' with hle | hle
  · obtain ⟨k, rfl⟩ := Nat.exists_eq_add_of_le hle
    exact key h
  · obtain ⟨k, rfl⟩ := Nat.exists_eq_add_of_le hle
    exact (key h').symm

/-- C117: the cost of a parse is the same for rules that differ in debug ids, properties and names only, whatever the
vectors hold. -/
theorem C117_costs {L : Lexer} {syn syn' : Syntax} (hs : SameShapes syn.rules syn'.rules) {text : Str} {ind : Indent}
    {toks : List Tok} {o : POut} (h : Parses L syn text toks ind o) (ho : o ≠ .panic) (toks' : List Tok) (m d : Nat) :
    Costs L syn text toks ind m d ↔ Costs L syn' text toks' ind m d := by
  cases hr : syn.rules.getLast? with
  | none =>
    have hn : syn.rules = [] := List.getLast?_eq_none_iff.1 hr
    have hn' : syn'.rules = [] := List.eq_nil_of_length_eq_zero (by rw [← hs.length, hn]; rfl)
    have : ∀ (s : Syntax) t, s.rules = [] → ¬ Costs L s text t ind m d := by
      rintro s t hs ⟨n, c, hc, -⟩
      simp [firstCall, hs] at hc
    exact ⟨fun h => absurd h (this _ _ hn), fun h => absurd h (this _ _ hn')⟩
  | some r =>
    obtain ⟨r', hr', hrr⟩ := hs.last hr
    obtain ⟨o, j, tr, h1⟩ := parses_runs h ho hr
    obtain ⟨o', tr', h2, -⟩ := run_shape (E := envOf L syn.rules ind) (E' := envOf L syn'.rules ind) rfl rfl rfl hs h1 (.rule hrr)
    rw [C114_costs hr h1, C114_costs hr' h2]
    exact C117_shape (E := envOf L syn.rules ind) (E' := envOf L syn'.rules ind) rfl rfl rfl hs hrr h1 m d

mutual
theorem sameShape_renumber (f : DebugId → DebugId) : ∀ r, SameShape r (renumber f r)
  | .whitespace .. => .whitespace
  | .tag .. => .tag
  | .untilAny .. => .untilAny
  | .untilAnyOrWs .. => .untilAnyOrWs
  | .text .. => .text
  | .number .. => .number
  | .node .. => .node
  | .select rs _ => .select (sameShapes_renumber f rs)
  | .fastSelect _ rs _ _ => .fastSelect (sameShapes_renumber f rs)
  | .sequence rs _ => .sequence (sameShapes_renumber f rs)
  | .separateBy r b _ _ _ => .separateBy (sameShape_renumber f r) (sameShape_renumber f b)
  | .repeat_ r _ _ => .repeat_ (sameShape_renumber f r)
  | .lines r _ _ => .lines (sameShape_renumber f r)
  | .optional r _ => .optional (sameShape_renumber f r)
  | .not r _ => .not (sameShape_renumber f r)
theorem sameShapes_renumber (f : DebugId → DebugId) : ∀ rs, SameShapes rs (renumberAll f rs)
  | [] => .nil
  | r :: rs => .cons (sameShape_renumber f r) (sameShapes_renumber f rs)
end

mutual
theorem sameShape_relabel (f : Str → Option Str) : ∀ r, SameShape r (relabel f r)
  | .whitespace .. => .whitespace
  | .tag .. => .tag
  | .untilAny .. => .untilAny
  | .untilAnyOrWs .. => .untilAnyOrWs
  | .text .. => .text
  | .number .. => .number
  | .node .. => .node
  | .select rs _ => .select (sameShapes_relabel f rs)
  | .fastSelect _ rs _ _ => .fastSelect (sameShapes_relabel f rs)
  | .sequence rs _ => .sequence (sameShapes_relabel f rs)
  | .separateBy r b _ _ _ => .separateBy (sameShape_relabel f r) (sameShape_relabel f b)
  | .repeat_ r _ _ => .repeat_ (sameShape_relabel f r)
  | .lines r _ _ => .lines (sameShape_relabel f r)
  | .optional r _ => .optional (sameShape_relabel f r)
  | .not r _ => .not (sameShape_relabel f r)
theorem sameShapes_relabel (f : Str → Option Str) : ∀ rs, SameShapes rs (relabelAll f rs)
  | [] => .nil
  | r :: rs => .cons (sameShape_relabel f r) (sameShapes_relabel f rs)
end

/-- C117: without any properties, so that no data is recorded, a parse makes as many calls. -/
theorem C117_no_data {L : Lexer} {syn : Syntax} {text : Str} {ind : Indent} {toks : List Tok} {o : POut}
    (h : Parses L syn text toks ind o) (ho : o ≠ .panic) (toks' : List Tok) (m d : Nat) :
    Costs L syn text toks ind m d ↔ Costs L ⟨relabelAll (fun _ => none) syn.rules, syn.names⟩ text toks' ind m d :=
  C117_costs (sameShapes_relabel _ _) h ho toks' m d

/-- C117: other debug ids. -/
theorem C117_ids {L : Lexer} {syn : Syntax} {text : Str} {ind : Indent} {toks : List Tok} {o : POut}
    (h : Parses L syn text toks ind o) (ho : o ≠ .panic) (f : DebugId → DebugId) (toks' : List Tok) (m d : Nat) :
    Costs L syn text toks ind m d ↔ Costs L ⟨renumberAll f syn.rules, syn.names⟩ text toks' ind m d :=
  C117_costs (sameShapes_renumber _ _) h ho toks' m d

/-- Not vacuous: an `a` and two `b` take six calls, now with properties and other ids. -/
def abbNamed : Syntax :=
  ⟨[.sequence [.tag c!"a" false false (some c!"x") 7, .repeat_ (.tag c!"b" false false (some c!"y") 7) true 8] 9], [c!"abb"]⟩

example (toks : List Tok) (m d : Nat) :
    Costs stdLexer abbNamed c!"abb" toks Indent.default m d ↔ Costs stdLexer abbSyntax c!"abb" [] Indent.default m d :=
  (C117_costs (syn := abbSyntax) (syn' := abbNamed) (o := .ok [])
    (by exact .cons (.sequence (.cons .tag (.cons (.repeat_ .tag) .nil))) .nil)
    ⟨by simp, 20, by decide +kernel⟩ (by simp) toks m d).symm

end Verif.Props
