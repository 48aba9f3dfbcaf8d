import Verif.Proofs.OptCalls
import Verif.Props.Optimize
import Verif.Props.Cost
import Verif.Props.Syntax
/-
C88: optimizing does not make parsing slower.
-/
namespace Verif.Props
open Spec

theorem optimizes_tabledL {syn syn' : Syntax} {n : Nat} {E : Env} (hE : E.refs = syn.rules)
    (h : syn.optimize n = .ok syn') (ht : TailsRefused E) :
    TabledL syn.rules n (EndRefused E) syn.rules syn'.rules := by
  obtain ⟨rules, h1, h2⟩ := Comp.bind_ok.1 h
  cases h2
  refine opt_tabledL syn.rules ?_ (by rw [optimizeRules_eq]; exact h1)
  intro x hx args id t u ho hu h2 b hb
  exact ht args id t u ⟨x, by rw [hE]; exact hx, ho⟩ ⟨n, by rw [hE]; exact hu⟩ h2 b hb

/-- A parse that comes to an end without a panic returns from its first call. -/
theorem first_returns {L : Lexer} {syn : Syntax} {text : Str} {toks : List Tok} {ind : Indent} {n : Nat} {c : Call}
    (hp : ¬ Parses L syn text toks ind .panic) (hc : firstCall syn text toks ind = some c)
    (h : c.run (eval L syn.rules n) ≠ .timeout) : ∃ o st, c.run (eval L syn.rules n) = .ret o st := by
  simp only [firstCall, Option.map_eq_some_iff] at hc
  obtain ⟨r, hr, rfl⟩ := hc
  simp only [Call.run] at h ⊢
  cases ho : eval L syn.rules n r ⟨toks, ind⟩ toks.length (Pos.new text 0) with
  | timeout => exact absurd ho h
  | panic =>
    refine absurd ⟨by simp, n, ?_⟩ hp
    simp only [parseWithIndent, hr, ho]
  | ret o st => exact ⟨o, st, rfl⟩

/-- C88: where the alternatives left out of the tables cannot match at the end of a text, the optimized syntax parses
every text with at most as many calls of `Rule::parse`, and with less than twice as many of them open at the same
time. -/
theorem C88_no_slower {L : Lexer} (hL : L.Lawful) {syn syn' : Syntax} {ind : Indent} (h : Optimizes syn syn')
    (ht : TailsRefused (envOf L syn.rules ind)) {text : Str} {toks : List Tok} {m d m' d' : Nat}
    (hp : ¬ Parses L syn text toks ind .panic) (hc : Costs L syn text toks ind m d)
    (hc' : Costs L syn' text toks ind m' d') : m' ≤ m ∧ d' ≤ 2 * d - 1 := by
  obtain ⟨k, h⟩ := h
  have hs := optimizes_tabledL (E := envOf L syn.rules ind) rfl h ht
  obtain ⟨n, c, h1, h2, rfl, rfl⟩ := hc
  obtain ⟨n', c', h1', h2', rfl, rfl⟩ := hc'
  obtain ⟨o, st, h3⟩ := first_returns hp h1 h2
  simp only [firstCall, Option.map_eq_some_iff] at h1 h1'
  obtain ⟨r', hr', rfl⟩ := h1'
  obtain ⟨r, hr, rfl⟩ := h1
  obtain ⟨q, hq, hqr⟩ := hs.last hr'
  rw [hr] at hq
  cases hq
  exact calls_cheaper (align := ind.alignFirst) (tab := ind.tabSpaces) hL rfl hs n _ _ n'
    ⟨hqr, rfl, ⟨⟨ind.indent, rfl, rfl⟩, Nat.le_refl _, Nat.le_refl _⟩, o, st, h3⟩

/-- C88: so do the hard-coded rules, optimized. -/
theorem C88_bootstrap {L : Lexer} (hL : L.Lawful) {syn' : Syntax} {ind : Indent} (h : Optimizes bootstrapRules syn')
    {text : Str} {toks : List Tok} {m d m' d' : Nat} (hp : ¬ Parses L bootstrapRules text toks ind .panic)
    (hc : Costs L bootstrapRules text toks ind m d) (hc' : Costs L syn' text toks ind m' d') : m' ≤ m ∧ d' ≤ 2 * d - 1 :=
  C88_no_slower hL h (boot_tails hL ind) hp hc hc'

/-! ### The depth may come to just that -/

namespace Tower

/-- `"a"`. -/
def a : Rule := .tag c!"a" false false none 1
/-- `"b"`. -/
def b : Rule := .tag c!"b" false false none 2
/-- Selects within selects: `{"a" "b" {"a" "b" ... ..""!}}`. -/
def rule : Nat → Rule
  | 0 => .untilAny [] false none 3
  | k + 1 => .select [a, b, rule k] 4
/-- The table: `a` is the first alternative, `b` the second. -/
def table : Table := Table.set (Table.set (fun _ => 255) 97 0) 98 1
/-- The same, optimized. -/
def fast : Nat → Rule
  | 0 => .untilAny [] false none 3
  | k + 1 => .fastSelect table [a, b, .select [fast k] 4] true 4
/-- One rule only. -/
def syn (k : Nat) : Syntax := ⟨[rule k], [c!"x"]⟩

theorem table_eq (refs : List Rule) (k : Nat) : uniqueTable refs 1 [a, b, rule k] = .ok (table, 2) := by
  have h1 : uniqueByte refs 1 a = .ok (some 97) := rfl
  have h2 : uniqueByte refs 1 b = .ok (some 98) := rfl
  have h3 : uniqueByte refs 1 (rule k) = .ok none := by cases k <;> rfl
  have h4 : Table.set (fun _ => 255) 97 (UInt8.ofNat 0) 98 = 255 := by decide
  simp only [uniqueTable, uniqueLoop, h1, h2, h3, h4]
  rfl

theorem optimize_eq (refs : List Rule) : ∀ k, optimizeRule refs 1 (rule k) = .ok (fast k)
  | 0 => rfl
  | k + 1 => by
    have h := optimize_eq refs k
    have h1 : optimizeRule refs 1 a = .ok a := rfl
    have h2 : optimizeRule refs 1 b = .ok b := rfl
    simp only [rule, optimizeRule, optimizeRules, optimizeSelect, table_eq, h, h1, h2]
    rfl

theorem optimizes (k : Nat) : Optimizes (syn k) ⟨[fast k], [c!"x"]⟩ := by
  refine ⟨1, ?_⟩
  have h := optimize_eq [rule k] k
  simp only [Syntax.optimize, syn, List.map_cons, List.map_nil, h]
  rfl

theorem endRefused (E : Env) : ∀ k, EndRefused E (rule k)
  | 0 => fun off i => ⟨_, .until_fail (by simp [Longest])⟩
  | k + 1 => fun off i => by
    obtain ⟨tr, h⟩ := endRefused E k off i
    exact ⟨_, .select (.sel_next (.tag_fail (by simp)) (.sel_next (.tag_fail (by simp)) (.sel_next h .sel_nil)))⟩

theorem occurs {args id} : ∀ {k}, Occurs (.select args id) (rule k) → ∃ j, args = [a, b, rule j]
  | 0, h => by
    cases h with
    | step h h' => cases h'
  | k + 1, h => by
    generalize hr : rule (k + 1) = r at h
    cases h with
    | refl => simp only [rule, Rule.select.injEq] at hr; exact ⟨k, hr.1.symm⟩
    | step h h' =>
      subst hr
      cases h' with
      | select hc =>
        simp only [List.mem_cons, List.not_mem_nil, or_false] at hc
        rcases hc with rfl | rfl | rfl
        · cases h with
          | step _ h' => cases h'
        · cases h with
          | step _ h' => cases h'
        · exact occurs h

theorem tails (L : Lexer) (k : Nat) (ind : Indent) : TailsRefused (envOf L (syn k).rules ind) := by
  rintro args id t u ⟨q, hq, ho⟩ ⟨n, ht⟩ - x hx
  simp only [envOf, syn, List.mem_singleton] at hq
  subst hq
  obtain ⟨j, rfl⟩ := occurs ho
  cases uniqueTable_det ht (table_eq _ j)
  simp at hx
  subst hx
  exact endRefused _ j

theorem eval_rule {L : Lexer} {refs : List Rule} {toks : List Tok} {ind : Indent} : ∀ k : Nat, ∃ oe,
    eval L refs (k + 1) (rule k) ⟨toks, ind⟩ toks.length ⟨c!"z", 0⟩ = .ret (.ok ⟨0, 1⟩ toks.length oe) ⟨toks, ind⟩ ∧
    callCount L refs (k + 1) ⟨rule k, ⟨toks, ind⟩, toks.length, ⟨c!"z", 0⟩⟩ = 3 * k + 1 ∧
    callDepth L refs (k + 1) ⟨rule k, ⟨toks, ind⟩, toks.length, ⟨c!"z", 0⟩⟩ = k + 1
  | 0 => ⟨none, rfl, rfl, rfl⟩
  | k + 1 => by
    obtain ⟨oe, h1, h2, h3⟩ := eval_rule (L := L) (refs := refs) (toks := toks) (ind := ind) k
    have ha : eval L refs (k + 1) a ⟨toks, ind⟩ toks.length ⟨c!"z", 0⟩ =
      .ret (.err ⟨⟨0, 0⟩, .expectedTag c!"a" 1⟩) ⟨toks, ind⟩ := rfl
    have hb : eval L refs (k + 1) b ⟨toks, ind⟩ toks.length ⟨c!"z", 0⟩ =
      .ret (.err ⟨⟨0, 0⟩, .expectedTag c!"b" 2⟩) ⟨toks, ind⟩ := rfl
    have hca : ∀ x : Rule, x = a ∨ x = b → callCount L refs (k + 1) ⟨x, ⟨toks, ind⟩, toks.length, ⟨c!"z", 0⟩⟩ = 1 ∧
      callDepth L refs (k + 1) ⟨x, ⟨toks, ind⟩, toks.length, ⟨c!"z", 0⟩⟩ = 1 := by
      rintro x (rfl | rfl) <;> exact ⟨rfl, rfl⟩
    refine ⟨errUpdate oe (errUpdate (some ⟨⟨0, 0⟩, .expectedTag c!"b" 2⟩)
      (errUpdate (some ⟨⟨0, 0⟩, .expectedTag c!"a" 1⟩) none)), ?_, ?_, ?_⟩
    · rw [eval]
      simp only [rule, step, evalSelect, ha, hb, h1]
      rfl
    · rw [callCount]
      simp only [rule, subcalls, selectCalls, ha, hb, h1, List.map_cons, List.map_nil, List.sum_cons, List.sum_nil, h2,
        (hca a (.inl rfl)).1, (hca b (.inr rfl)).1]
      omega
    · rw [callDepth]
      simp only [rule, subcalls, selectCalls, ha, hb, h1, List.map_cons, List.map_nil, List.foldr_cons, List.foldr_nil, h3,
        (hca a (.inl rfl)).2, (hca b (.inr rfl)).2]
      omega

theorem eval_fast {L : Lexer} {refs : List Rule} {toks : List Tok} {ind : Indent} : ∀ k : Nat, ∃ oe,
    eval L refs (2 * k + 1) (fast k) ⟨toks, ind⟩ toks.length ⟨c!"z", 0⟩ = .ret (.ok ⟨0, 1⟩ toks.length oe) ⟨toks, ind⟩ ∧
    callCount L refs (2 * k + 1) ⟨fast k, ⟨toks, ind⟩, toks.length, ⟨c!"z", 0⟩⟩ = 2 * k + 1 ∧
    callDepth L refs (2 * k + 1) ⟨fast k, ⟨toks, ind⟩, toks.length, ⟨c!"z", 0⟩⟩ = 2 * k + 1
  | 0 => ⟨none, rfl, rfl, rfl⟩
  | k + 1 => by
    obtain ⟨oe, h1, h2, h3⟩ := eval_fast (L := L) (refs := refs) (toks := toks) (ind := ind) k
    have ht : table (firstByte 'z') = 255 := by decide +kernel
    have hs : ∃ oe', eval L refs (2 * k + 1 + 1) (.select [fast k] 4) ⟨toks, ind⟩ toks.length ⟨c!"z", 0⟩ =
        .ret (.ok ⟨0, 1⟩ toks.length oe') ⟨toks, ind⟩ := by
      rw [eval]
      simp only [step, evalSelect, h1]
      exact ⟨_, rfl⟩
    obtain ⟨oe', hs⟩ := hs
    have hc : callCount L refs (2 * k + 1 + 1) ⟨.select [fast k] 4, ⟨toks, ind⟩, toks.length, ⟨c!"z", 0⟩⟩ = 2 * k + 2 := by
      rw [callCount]
      simp only [subcalls, selectCalls, h1, List.map_cons, List.map_nil, List.sum_cons, List.sum_nil, h2]
      omega
    have hd : callDepth L refs (2 * k + 1 + 1) ⟨.select [fast k] 4, ⟨toks, ind⟩, toks.length, ⟨c!"z", 0⟩⟩ = 2 * k + 2 := by
      rw [callDepth]
      simp only [subcalls, selectCalls, h1, List.map_cons, List.map_nil, List.foldr_cons, List.foldr_nil, h3]
      omega
    have hl : fastSelectCalls (eval L refs (2 * k + 1 + 1)) table [a, b, .select [fast k] 4] true ⟨toks, ind⟩ toks.length
        ⟨c!"z", 0⟩ = [⟨.select [fast k] 4, ⟨toks, ind⟩, toks.length, ⟨c!"z", 0⟩⟩] := by
      simp [fastSelectCalls, ht]
    rw [show 2 * (k + 1) + 1 = 2 * k + 1 + 1 + 1 by omega]
    refine ⟨errUpdate oe' none, ?_, ?_, ?_⟩
    · rw [eval]
      simp [fast, step, evalFastSelect, ht, hs, Pos.peek]
    · rw [callCount]
      simp only [fast, subcalls, hl, List.map_cons, List.map_nil, List.sum_cons, List.sum_nil, hc]
      omega
    · rw [callDepth]
      simp only [fast, subcalls, hl, List.map_cons, List.map_nil, List.foldr_cons, List.foldr_nil, hd]
      omega

end Tower

/-- C88: the bound for the depth is met: selects within selects, `k` of them, parse `z` with `k + 1` calls open, and
with `2 * k + 1` open after optimizing, although there are fewer calls. -/
theorem C88_depth_sharp {L : Lexer} (k : Nat) (toks : List Tok) (ind : Indent) :
    ∃ syn syn', Optimizes syn syn' ∧ TailsRefused (envOf L syn.rules ind) ∧
      Costs L syn c!"z" toks ind (3 * k + 1) (k + 1) ∧ Costs L syn' c!"z" toks ind (2 * k + 1) (2 * (k + 1) - 1) := by
  obtain ⟨oe, h1, h2, h3⟩ := Tower.eval_rule (L := L) (refs := [Tower.rule k]) (toks := toks) (ind := ind) k
  obtain ⟨oe', h1', h2', h3'⟩ := Tower.eval_fast (L := L) (refs := [Tower.fast k]) (toks := toks) (ind := ind) k
  refine ⟨Tower.syn k, _, Tower.optimizes k, Tower.tails L k ind, ⟨_, _, rfl, ?_, h2, h3⟩, ⟨_, _, rfl, ?_, h2', ?_⟩⟩
  · exact fun h => by
      have := h1.symm.trans h
      simp at this
  · exact fun h => by
      have := h1'.symm.trans h
      simp at this
  · exact h3'.trans (by omega)

/-! ### The condition is needed -/

/-- `{{"a" "b" .w?} [.w? .w? .w? .w? .w?]}` -/
def slower : Syntax :=
  ⟨[.select [.select [.tag c!"a" false false none 1, .tag c!"b" false false none 2, .whitespace true 3] 4,
    .sequence [.whitespace true 5, .whitespace true 6, .whitespace true 7, .whitespace true 8, .whitespace true 9] 10] 11],
   [c!"x"]⟩

/-- C88: without the condition on the end of the text optimizing may add calls: the look-up fails at the end of the text
where the select would have matched, and the next alternative is tried. -/
theorem C88_tails_needed :
    ∃ syn', Optimizes slower syn' ∧ Costs stdLexer slower c!"" [] Indent.default 5 3 ∧
      Costs stdLexer syn' c!"" [] Indent.default 8 3 :=
  ⟨_, ⟨5, rfl⟩, ⟨6, _, rfl, fun h => by simp [Call.run] at h; exact absurd h (by decide +kernel), by decide +kernel, by decide +kernel⟩,
    ⟨6, _, rfl, fun h => by simp [Call.run] at h; exact absurd h (by decide +kernel), by decide +kernel, by decide +kernel⟩⟩

/-- With `exFast` and the text `x,[x],7` ten of 33 calls are saved. -/
example : ∃ syn', Optimizes exFast syn' ∧ TailsRefused (envOf stdLexer exFast.rules Indent.default) ∧
    ¬ Parses stdLexer exFast c!"x,[x],7" [] Indent.default .panic ∧
    Costs stdLexer exFast c!"x,[x],7" [] Indent.default 33 8 ∧ Costs stdLexer syn' c!"x,[x],7" [] Indent.default 23 8 := by
  refine ⟨_, ⟨9, rfl⟩, exFast_tails _, ?_, ?_, ?_⟩
  · intro h
    exact absurd (parses_det h ⟨by decide +kernel, 20, rfl⟩) (by decide +kernel)
  · exact ⟨20, _, rfl, fun h => by simp [Call.run] at h; exact absurd h (by decide +kernel), by decide +kernel,
      by decide +kernel⟩
  · exact ⟨20, _, rfl, fun h => by simp [Call.run] at h; exact absurd h (by decide +kernel), by decide +kernel,
      by decide +kernel⟩

end Verif.Props
