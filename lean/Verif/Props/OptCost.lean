import Verif.Proofs.OptCost
import Verif.Props.Notation
/-
What the optimizer costs: C80.
-/
namespace Verif.Props
open Spec

/-! ### The calls counted are those of the optimizer -/

/-- Counting calls changes nothing else: `optimize_rule` returns the same, and panics or runs for ever in the same
cases. -/
theorem C80_same {refs : List Rule} {n : Nat} {r : Rule} :
    (∀ r', optimizeRule refs n r = .ok r' ↔ ∃ k, optimizeRuleCounted refs n r = .ok (r', k)) ∧
    (optimizeRule refs n r = .panic ↔ optimizeRuleCounted refs n r = .panic) ∧
    (optimizeRule refs n r = .timeout ↔ optimizeRuleCounted refs n r = .timeout) := by
  rw [← optimizeRuleCounted_erase r]
  refine ⟨fun r' => Comp.erase_ok, ?_⟩
  cases optimizeRuleCounted refs n r <;> simp [Comp.erase, Bind.bind, Comp.bind, pure]

/-- How many calls `optimize` makes, exactly. -/
theorem C80_calls {syn syn' : Syntax} {m : Nat} :
    OptimizesIn syn syn' m ↔ Optimizes syn syn' ∧ m = optWorks syn.rules syn.rules := by
  have key : ∀ {n syn' k}, syn.optimizeCounted n = .ok (syn', k) → k = optWorks syn.rules syn.rules := by
    intro n syn' k h
    obtain ⟨⟨as, k⟩, h1, h2⟩ := Comp.bind_ok.1 h
    cases h2
    rw [← optimizeRulesCounted_eq] at h1
    exact optimizeRulesCounted_count h1
  constructor
  · rintro ⟨n, h⟩
    refine ⟨⟨n, ?_⟩, key h⟩
    rw [← optimizeCounted_erase]
    exact Comp.erase_ok.2 ⟨m, h⟩
  · rintro ⟨⟨n, h⟩, rfl⟩
    rw [← optimizeCounted_erase] at h
    obtain ⟨k, h⟩ := Comp.erase_ok.1 h
    cases key h
    exact ⟨n, h⟩

/-- The number of calls is at least the number of rules, and at most twice as many for each select around another
that is tried twice. -/
theorem C80_bounds {syn syn' : Syntax} {m : Nat} (h : OptimizesIn syn syn' m) :
    outerSizes syn.rules ≤ m ∧ m ≤ 2 ^ nestings syn.rules syn.rules * outerSizes syn.rules := by
  obtain ⟨-, rfl⟩ := C80_calls.1 h
  exact ⟨outerSizes_le _, optWorks_le _⟩

/-- Without selects that are tried twice there is one call for each rule. -/
theorem C80_linear {syn syn' : Syntax} {m : Nat} (h : OptimizesIn syn syn' m)
    (ht : ∀ q ∈ syn.rules, ∀ args id, OccursOutside (.select args id) q → ¬ TriedTwice syn.rules args) :
    m = outerSizes syn.rules := by
  have h0 : nestings syn.rules syn.rules = 0 := nestings_zero _ ht
  have := C80_bounds h
  rw [h0] at this
  omega

/-- Selects in each other that are tried twice double the number of calls each. -/
theorem C80_exponential {syn syn' : Syntax} {m k : Nat} {q : Rule} (h : OptimizesIn syn syn' m) (hq : q ∈ syn.rules)
    (hk : TwiceChain syn.rules k q) : 2 ^ k ≤ m := by
  obtain ⟨-, rfl⟩ := C80_calls.1 h
  exact Nat.le_trans (chain_le hk) (optWork_mem hq)

/-! ### From a text -/

/-- The same for `syntax`. -/
theorem C80_syntax_same {L : Lexer} {text : Str} {r : Except RErr Syntax} :
    SyntaxReturns L text r ↔ ∃ m, SyntaxReturnsIn L text r m := by
  constructor
  · rintro ⟨n, h⟩
    rw [← readSyntaxCounted_erase] at h
    obtain ⟨k, h⟩ := Comp.erase_ok.1 h
    exact ⟨k, n, h⟩
  · rintro ⟨k, n, h⟩
    refine ⟨n, ?_⟩
    rw [← readSyntaxCounted_erase]
    exact Comp.erase_ok.2 ⟨k, h⟩

/-- None at all if it returns an error. -/
theorem C80_rejected {L : Lexer} {text : Str} {e : RErr} {m : Nat} (h : SyntaxReturnsIn L text (.error e) m) : m = 0 := by
  obtain ⟨n, h⟩ := h
  obtain ⟨b, -, h⟩ := Comp.bind_ok.1 h
  split at h
  · cases h
  · cases h
  · cases h; rfl
  · obtain ⟨⟨res, _⟩, -, h⟩ := Comp.bind_ok.1 h
    cases res with
    | none => cases h; rfl
    | some res =>
      obtain ⟨⟨syn, k⟩, -, h⟩ := Comp.bind_ok.1 h
      cases h

/-- How many calls `syntax` makes for the rules of a text. -/
theorem C80_syntax_calls {L : Lexer} (hL : L.Lawful) {text : Str} {doc : Doc} (h : Writes L text doc)
    (ht : ¬ doc.Overflows) {rs : List (Str × Rule)} (e : (Doc.read doc.strings doc.nodes).1 = some rs)
    {r : Except RErr Syntax} {m : Nat} :
    SyntaxReturnsIn L text r m ↔ ∃ syn, OptimizesIn (syntaxOf rs) syn m ∧ r = .ok syn := by
  have key : ∀ {r m}, SyntaxReturnsIn L text r m → ∃ syn, OptimizesIn (syntaxOf rs) syn m ∧ r = .ok syn := by
    obtain ⟨toks, h, hd⟩ := h
    obtain ⟨bs, hb⟩ := boot_optimizes
    have h' := (C27_accepts_the_same_partial hL hb (boot_tails hL _) text [] toks).1 h
    obtain ⟨ig, hc⟩ := converts_doc ht hd
    rintro r m ⟨n, hr⟩
    obtain ⟨bs', hb1, hr⟩ := Comp.bind_ok.1 hr
    cases C31_deterministic hb ⟨n, hb1⟩
    cases hp : parse L n bs text [] with
    | timeout => rw [hp] at hr; cases hr
    | panic => rw [hp] at hr; cases hr
    | err e' _ => cases parses_det h' ⟨by simp, n, hp⟩
    | ok toks' =>
      cases parses_det h' ⟨by simp, n, hp⟩
      rw [hp] at hr
      obtain ⟨⟨o, ig'⟩, hc1, hr⟩ := Comp.bind_ok.1 hr
      obtain ⟨rfl, _⟩ := C37_one_outcome.1 _ _ _ _ hc ⟨n, hc1⟩
      rw [e] at hr
      obtain ⟨⟨syn, k⟩, ho, hr⟩ := Comp.bind_ok.1 hr
      cases hr
      exact ⟨syn, ⟨n, ho⟩, rfl⟩
  refine ⟨key, ?_⟩
  rintro ⟨syn, h1, rfl⟩
  have h2 := C80_calls.1 h1
  have h3 : SyntaxReturns L text (.ok syn) := by
    refine (C46_meaning hL h ht _).2 ?_
    rw [e]
    exact ⟨syn, h2.1, rfl⟩
  obtain ⟨m', h4⟩ := C80_syntax_same.1 h3
  obtain ⟨syn', h5, -⟩ := key h4
  rw [h2.2, ← (C80_calls.1 h5).2]
  exact h4

/-- `syntax` takes exponential time on short rule files: `1 a = {.w? .w? {.w? .w? .. .w?}}` has `10 * k + 9`
characters for `k` selects, and is returned as it is after `5 * 2 ^ k - 4` calls of `optimize_rule`. -/
theorem C80_text {k : Nat} (hk : k < 2 ^ 60) :
    (nestFile k).length = 10 * k + 9 ∧
    SyntaxReturnsIn stdLexer (nestFile k) (.ok ⟨[nestRule k 1000], [c!"a"]⟩) (5 * 2 ^ k - 4) := by
  refine ⟨by simp [nestFile, nestText_length], ?_⟩
  have hd : Doc.Text stdLexer ⟨[], [(⟨0x3ff0000000000000⟩, c!"a", nestDesc k)]⟩ (nestFile k) := by
    refine ⟨[], [.node ⟨0x3ff0000000000000⟩ c!"a" (nestDesc k)], by simp, by simp [Entry.isString], ?_, rfl, rfl⟩
    refine ⟨[], nestFile k, [], by simp [Space], by simp, ?_, by simp [EntriesText, Space], by simp⟩
    exact ⟨c!"1", c!" ", c!" ", c!" ", nestText k, std_isNumber (by decide) (by decide) (by decide +kernel) _ _ rfl,
      by decide, by decide, by decide, by decide, by decide, by decide, by decide, nestDesc_text k, rfl⟩
  have hu : (⟨0x3ff0000000000000⟩ : F64).toUsize * 1000 = 1000 := by decide +kernel
  have hr : Doc.read [] [(⟨0x3ff0000000000000⟩, c!"a", nestDesc k)] = (some [(c!"a", nestRule k 1000)], 0) := by
    simp only [Doc.read, hu, nestDesc_read]
    rfl
  have hs : syntaxOf [(c!"a", nestRule k 1000)] = ⟨[nestRule k 1000], [c!"a"]⟩ := by simp [syntaxOf, nestRule_refs]
  refine (C80_syntax_calls stdLexer_lawful (text_writes stdLexer_lawful stdLexer_noSlash hd) ?_ (by rw [hr])).2
    ⟨_, (by rw [hs]; exact C80_calls.2 ⟨C72_optimized.2 ⟨rfl, .cons (nestRule_optimized k 1000) .nil⟩,
      by simp [optWorks, nestRule_work]⟩), rfl⟩
  show ¬ Doc.Overflow [] [(⟨0x3ff0000000000000⟩, c!"a", nestDesc k)]
  simp only [Doc.Overflow, hu, nestDesc_read]
  simp
  omega

/-! ### Examples -/

/-- A select of which the first two alternatives do not begin with a byte that can be seen, with a select in it of which
the first does not; and one that becomes a table. -/
def exCost : Syntax :=
  ⟨[.select [.whitespace true 1, .optional (.whitespace false 2) 3,
      .select [.tag c!"a" true false none 4, .tag c!"a" false false none 5, .tag c!"b" false false none 6] 7] 8,
    .select [.tag c!"a" false false none 9, .tag c!"b" false false none 10, .whitespace true 11] 12], [c!"x", c!"y"]⟩

/-- Of the 12 rules, those in the second and third alternative are counted twice, and those in the last two of the
inner select four times: `1 + 1 + 2 * 2 + 2 + 2 * 1 + 2 * 2 * 2` and `4` calls. -/
example : ∃ syn', OptimizesIn exCost syn' 22 := ⟨_, 10, rfl⟩

example : outerSizes exCost.rules = 12 := by decide

example : TwiceChain exCost.rules 2 (.select [.whitespace true 1, .optional (.whitespace false 2) 3,
      .select [.tag c!"a" true false none 4, .tag c!"a" false false none 5, .tag c!"b" false false none 6] 7] 8) := by
  refine .twice ?_ (.tail _ (.head _)) (.twice ?_ (.head _) .zero)
  · rintro ⟨_, _, h, -⟩
    cases h with
    | call h => cases h
  · rintro ⟨_, _, h, -⟩
    cases h with
    | call h => cases h

/-- The 180 hard-coded rules for rule files take 199 calls. -/
example : (∃ syn', OptimizesIn bootstrapRules syn' 199) ∧ outerSizes bootstrapRules.rules = 180 :=
  ⟨⟨_, 10, rfl⟩, by decide +kernel⟩

example : nestFile 2 = c!"1 a = {.w? .w? {.w? .w? .w?}}" := by decide

/-- A line of 409 characters for which the optimizer calls itself more than five million million times. -/
example : (nestFile 40).length = 409 ∧
    SyntaxReturnsIn stdLexer (nestFile 40) (.ok ⟨[nestRule 40 1000], [c!"a"]⟩) 5497558138876 :=
  C80_text (by decide)

end Verif.Props
