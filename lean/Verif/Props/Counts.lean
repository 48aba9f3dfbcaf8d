import Verif.Proofs.Complete
import Verif.Proofs.Counts
import Verif.Props.Cost
/-
The cost of a parse, read off the meaning of the rules: C114.
-/
namespace Verif.Props
open Verif Verif.Spec

/-- A goal that has a meaning has counts: the calls of the parser are counted. -/
theorem call_counts {E : Env} {r : Rule} {p : Pos} {i : Nat} {o j tr} (h : Run E (.rule r) p i o j tr)
    {toks : List Tok} {s : Nat} (hs : s ≤ toks.length) :
    ∃ N, ∀ n, N ≤ n → Counts E (.rule r) p i (callCount E.L E.refs n ⟨r, ⟨toks, E.ind i⟩, s, p⟩)
      (callDepth E.L E.refs n ⟨r, ⟨toks, E.ind i⟩, s, p⟩) := by
  obtain ⟨N, hN⟩ : ∃ N, ∀ n, N ≤ n → ∃ res st, eval E.L E.refs n r ⟨toks, E.ind i⟩ s p = .ret res st := by
    cases o with
    | none =>
      obtain ⟨N, e, t, -, -, -, hN⟩ := run_none_eval h toks s hs
      exact ⟨N, fun n hn => ⟨_, _, hN n hn⟩⟩
    | some x =>
      obtain ⟨N, s', t, -, -, hN⟩ := run_some_eval (n := x.1) (ts := x.2) h toks s hs
      exact ⟨N, fun n hn => ⟨_, _, hN n hn⟩⟩
  refine ⟨N, fun n hn => ?_⟩
  obtain ⟨res, st, he⟩ := hN n hn
  have := eval_counts E n r i toks s p hs
  rw [he] at this
  exact this

/-- C114: whenever trying a rule has an outcome, it has a number of calls and a depth, and only one of each. -/
theorem C114_unique {E : Env} {r : Rule} {p : Pos} {i : Nat} {o j tr} (h : Run E (.rule r) p i o j tr) :
    ∃ c d, ∀ c' d', Counts E (.rule r) p i c' d' ↔ c' = c ∧ d' = d := by
  obtain ⟨N, hN⟩ := call_counts h (toks := []) (s := 0) (Nat.le_refl _)
  refine ⟨_, _, fun c' d' => ⟨fun h' => h'.det (hN N (Nat.le_refl _)), ?_⟩⟩
  rintro ⟨rfl, rfl⟩
  exact hN N (Nat.le_refl _)

/-- C114: any call of `Rule::parse`, with whatever vector and state, comes to the calls that belong to the rule,
the position and the indentation. -/
theorem C114_call {E : Env} {r : Rule} {p : Pos} {i : Nat} {o j tr c d} (h : Run E (.rule r) p i o j tr)
    (hc : Counts E (.rule r) p i c d) {toks : List Tok} {s : Nat} (hs : s ≤ toks.length) :
    ∃ N, ∀ n, N ≤ n → callCount E.L E.refs n ⟨r, ⟨toks, E.ind i⟩, s, p⟩ = c ∧
      callDepth E.L E.refs n ⟨r, ⟨toks, E.ind i⟩, s, p⟩ = d := by
  obtain ⟨N, hN⟩ := call_counts h hs
  exact ⟨N, fun n hn => (hN n hn).det hc⟩

/-- C114: the cost of a parse that returns is the one of the last rule at the beginning of the text. -/
theorem C114_costs {L : Lexer} {syn : Syntax} {text : Str} {toks : List Tok} {ind : Indent} {r : Rule}
    (hr : syn.rules.getLast? = some r) {o j tr}
    (h : Run (envOf L syn.rules ind) (.rule r) ⟨text, 0⟩ ind.indent o j tr) (m d : Nat) :
    Costs L syn text toks ind m d ↔ Counts (envOf L syn.rules ind) (.rule r) ⟨text, 0⟩ ind.indent m d := by
  have he : (envOf L syn.rules ind).ind ind.indent = ind := by cases ind; rfl
  obtain ⟨N, hN⟩ := call_counts h (toks := toks) (s := toks.length) (Nat.le_refl _)
  rw [he] at hN
  obtain ⟨M, hM⟩ : ∃ M, ∀ n, M ≤ n → eval L syn.rules n r ⟨toks, ind⟩ toks.length ⟨text, 0⟩ ≠ .timeout := by
    cases o with
    | none =>
      obtain ⟨N, e, t, -, -, -, hN⟩ := run_none_eval h toks toks.length (Nat.le_refl _)
      rw [he] at hN
      exact ⟨N, fun n hn hx => by rw [show eval L syn.rules n r _ _ _ = _ from hN n hn] at hx; cases hx⟩
    | some x =>
      obtain ⟨N, s', t, -, -, hN⟩ := run_some_eval (n := x.1) (ts := x.2) h toks toks.length (Nat.le_refl _)
      rw [he] at hN
      exact ⟨N, fun n hn hx => by rw [show eval L syn.rules n r _ _ _ = _ from hN n hn] at hx; cases hx⟩
  have hcost : Costs L syn text toks ind (callCount L syn.rules (N + M) ⟨r, ⟨toks, ind⟩, toks.length, ⟨text, 0⟩⟩)
      (callDepth L syn.rules (N + M) ⟨r, ⟨toks, ind⟩, toks.length, ⟨text, 0⟩⟩) :=
    ⟨N + M, ⟨r, ⟨toks, ind⟩, toks.length, ⟨text, 0⟩⟩, by simp [firstCall, hr, Pos.new], hM _ (by omega), rfl, rfl⟩
  have hcnt := hN (N + M) (by omega)
  constructor
  · intro h'
    obtain ⟨rfl, rfl⟩ := C70_cost_unique h' hcost
    exact hcnt
  · intro h'
    obtain ⟨rfl, rfl⟩ := h'.det hcnt
    exact hcost

/-- C114: the cost does not depend on what the caller's vector holds. -/
theorem C114_vector {L : Lexer} {syn : Syntax} {text : Str} {ind : Indent} {toks : List Tok} {o : POut}
    (h : Parses L syn text toks ind o) (ho : o ≠ .panic) (toks' : List Tok) (m d : Nat) :
    Costs L syn text toks ind m d ↔ Costs L syn text toks' ind m d := by
  obtain ⟨hne, n, hn⟩ := h
  cases hr : syn.rules.getLast? with
  | none =>
    have : ∀ t, ¬ Costs L syn text t ind m d := by
      rintro t ⟨n, c, hc, -⟩
      simp [firstCall, hr] at hc
    exact ⟨fun h => absurd h (this _), fun h => absurd h (this _)⟩
  | some r =>
    have hrun : ∃ o j tr, Run (envOf L syn.rules ind) (.rule r) ⟨text, 0⟩ ind.indent o j tr := by
      cases he : eval L syn.rules n r ⟨toks, ind⟩ toks.length (Pos.new text 0) with
      | timeout => simp only [parseWithIndent, hr, he] at hn; exact absurd hn.symm hne
      | panic => simp only [parseWithIndent, hr, he] at hn; exact absurd hn.symm ho
      | ret res st =>
        cases res with
        | ok range s oe =>
          obtain ⟨n, ts, j, tr, h1, -⟩ := eval_ok_run (Nat.le_refl _) he
          exact ⟨_, j, tr, h1⟩
        | err e =>
          obtain ⟨j, tr, h1, -⟩ := eval_err_run (Nat.le_refl _) he
          exact ⟨_, j, tr, h1⟩
    obtain ⟨o, j, tr, hrun⟩ := hrun
    rw [C114_costs hr hrun, C114_costs hr hrun]

/-- An `a` and as many `b` as there are. -/
def abbSyntax : Syntax :=
  ⟨[.sequence [.tag c!"a" false false none 1, .repeat_ (.tag c!"b" false false none 2) true 3] 4], [c!"abb"]⟩

/-- Not vacuous: reading `abb` takes six calls, of which three are inside each other: the sequence, `a`, the
repetition, `b` twice, and `b` once more in vain, whatever the vector holds. -/
example (toks : List Tok) (m d : Nat) :
    Costs stdLexer abbSyntax c!"abb" toks Indent.default m d ↔ m = 6 ∧ d = 3 := by
  let E := envOf stdLexer abbSyntax.rules Indent.default
  have ta : Run E (.rule (.tag c!"a" false false none 1)) ⟨c!"abb", 0⟩ 0 (some (1, [])) 0 [] := .tag_ok ⟨_, rfl⟩
  have tb : Run E (.rule (.tag c!"b" false false none 2)) ⟨c!"bb", 1⟩ 0 (some (1, [])) 0 [] := .tag_ok ⟨_, rfl⟩
  have tb' : Run E (.rule (.tag c!"b" false false none 2)) ⟨c!"b", 2⟩ 0 (some (1, [])) 0 [] := .tag_ok ⟨_, rfl⟩
  have tn : Run E (.rule (.tag c!"b" false false none 2)) ⟨[], 3⟩ 0 none 0 _ := .tag_fail (by simp)
  have hrep := Run.repeat_opt (E := E) (id := 3) (.rep_more tb (.rep_more tb' (.rep_stop tn)))
  have hcnt : Counts E (.rep (.tag c!"b" false false none 2)) ⟨c!"bb", 1⟩ 0 3 1 :=
    .rep_more tb (.leaf trivial) (.rep_more tb' (.leaf trivial) (.rep_stop tn (.leaf trivial)))
  rw [C114_costs rfl (.sequence (.seq_cons ta (.seq_cons hrep .seq_nil)))]
  have hc : Counts E (.rule (.sequence [.tag c!"a" false false none 1,
      .repeat_ (.tag c!"b" false false none 2) true 3] 4)) ⟨c!"abb", 0⟩ 0 6 3 :=
    .sequence (.seq_cons ta (.leaf trivial) (.seq_cons hrep (.repeat_ hcnt) .seq_nil))
  exact ⟨fun h => h.det hc, by rintro ⟨rfl, rfl⟩; exact hc⟩

/-- The same by running the parser. -/
example : callCount stdLexer abbSyntax.rules 10 ⟨abbSyntax.rules.getLast?.get!, ⟨[], Indent.default⟩, 0, ⟨c!"abb", 0⟩⟩ = 6 := by
  decide +kernel

end Verif.Props
