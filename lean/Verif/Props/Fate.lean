import Verif.Proofs.FateFuel
import Verif.Proofs.StdLexer
import Verif.Proofs.Api
import Verif.Props.Examples
/-
Exactly when parsing panics and when it runs for ever: C82.
-/
namespace Verif.Props
open Spec

variable {L : Lexer} {syn : Syntax} {text : Str} {toks : List Tok} {ind : Indent}

/-- The site at which parsing starts: the last rule, at the start of the text. -/
def Start (syn : Syntax) (text : Str) (ind : Indent) (x : Site) : Prop :=
  ∃ r, syn.rules.getLast? = some r ∧ x = ⟨.rule r, ⟨text, 0⟩, ind.indent⟩

theorem parse_panic_iff {r : Rule} (hr : syn.rules.getLast? = some r) {n : Nat} :
    parseWithIndent L n syn text toks ind = .panic ↔
      eval L syn.rules n r ⟨toks, ind⟩ toks.length ⟨text, 0⟩ = .panic := by
  simp only [parseWithIndent, hr, Pos.new]
  split <;> try simp_all
  split <;> simp

theorem parse_timeout_iff {r : Rule} (hr : syn.rules.getLast? = some r) {n : Nat} :
    parseWithIndent L n syn text toks ind = .timeout ↔
      eval L syn.rules n r ⟨toks, ind⟩ toks.length ⟨text, 0⟩ = .timeout := by
  simp only [parseWithIndent, hr, Pos.new]
  split <;> try simp_all
  split <;> simp

/-- Parsing panics exactly when trying the last rule comes to one of the places where an attempt
panics: a reference or an entry of a table out of range, or an indentation beyond 32 bits. -/
theorem C82_panics : Parses L syn text toks ind .panic ↔
    ∃ x y, Start syn text ind x ∧ Reaches (envOf L syn.rules ind) x y ∧ Crash (envOf L syn.rules ind) y := by
  constructor
  · rintro ⟨-, n, h⟩
    cases hr : syn.rules.getLast? with
    | none => simp [parseWithIndent, hr] at h
    | some r =>
      have := (doomed_iff_panic (E := envOf L syn.rules ind) (i := ind.indent) (Nat.le_refl toks.length)).2
        ⟨n, (parse_panic_iff hr).1 h⟩
      obtain ⟨y, h1, h2⟩ := doomed_iff.1 this
      exact ⟨_, y, ⟨r, hr, rfl⟩, h1, h2⟩
  · rintro ⟨_, y, ⟨r, hr, rfl⟩, h1, h2⟩
    obtain ⟨n, hn⟩ := (doomed_iff_panic (E := envOf L syn.rules ind) (Nat.le_refl toks.length)).1
      (doomed_iff.2 ⟨y, h1, h2⟩)
    exact ⟨by simp, n, (parse_panic_iff hr).2 hn⟩

/-- Parsing runs for ever exactly when there is an endless chain of tries from the last rule. -/
theorem C82_runs_for_ever : ParseDiverges L syn text toks ind ↔
    ∃ f : Nat → Site, Start syn text ind (f 0) ∧ ∀ n, Tries (envOf L syn.rules ind) (f n) (f (n + 1)) := by
  constructor
  · intro h
    cases hr : syn.rules.getLast? with
    | none =>
      have := h 0
      simp [parseWithIndent, hr] at this
    | some r =>
      have h' := fun n => (parse_timeout_iff hr).1 (h n)
      rcases fates (envOf L syn.rules ind) ⟨.rule r, ⟨text, 0⟩, ind.indent⟩ with ⟨o, j, tr, he⟩ | hd | ⟨f, hf, hf'⟩
      · obtain ⟨N, hN⟩ := run_returns he toks toks.length (Nat.le_refl _)
        obtain ⟨_, _, hN⟩ := hN N (Nat.le_refl _)
        have := h' N
        change _ = _ at hN
        rw [ind_envOf] at hN
        exact absurd (hN.symm.trans this) (by simp)
      · obtain ⟨n, hn⟩ := (doomed_iff_panic (E := envOf L syn.rules ind) (Nat.le_refl toks.length)).1 hd
        exact absurd (hn.symm.trans (h' n)) (by simp)
      · exact ⟨f, ⟨r, hr, hf⟩, hf'⟩
  · rintro ⟨f, ⟨r, hr, hf⟩, hf'⟩ n
    rw [parse_timeout_iff hr]
    have hE : Endless (envOf L syn.rules ind) ⟨.rule r, ⟨text, 0⟩, ind.indent⟩ := ⟨f, hf, hf'⟩
    cases hout : eval L syn.rules n r ⟨toks, ind⟩ toks.length ⟨text, 0⟩ with
    | timeout => rfl
    | panic =>
      refine absurd hE (doomed_not_endless ?_)
      exact (doomed_iff_panic (E := envOf L syn.rules ind) (Nat.le_refl toks.length)).2 ⟨n, hout⟩
    | ret res st =>
      refine absurd ?_ (endless_not_ends hE)
      have hg := eval_sound (envOf L syn.rules ind) n r ind.indent toks toks.length ⟨text, 0⟩ (Nat.le_refl _)
      rw [ind_envOf] at hg
      exact ends_of_good ⟨_, _, hout⟩ hg

/-- With a lawful lexer: parsing runs for ever exactly when trying the last rule comes to something
whose attempt comes to the same thing at the same place again. -/
theorem C82_comes_back (hL : L.Lawful) : ParseDiverges L syn text toks ind ↔
    ∃ x y z, Start syn text ind x ∧ Reaches (envOf L syn.rules ind) x y ∧
      Tries (envOf L syn.rules ind) y z ∧ Reaches (envOf L syn.rules ind) z y := by
  rw [C82_runs_for_ever]
  constructor
  · rintro ⟨f, ⟨r, hr, hf⟩, hf'⟩
    obtain ⟨y, z, h⟩ := (endless_iff_cycle (E := envOf L syn.rules ind) hL
      ⟨r, List.mem_of_getLast? hr, .refl⟩ text ind.indent).1 ⟨f, hf, hf'⟩
    exact ⟨_, y, z, ⟨r, hr, rfl⟩, h⟩
  · rintro ⟨_, y, z, ⟨r, hr, rfl⟩, h⟩
    obtain ⟨f, hf, hf'⟩ := (endless_iff_cycle (E := envOf L syn.rules ind) hL
      ⟨r, List.mem_of_getLast? hr, .refl⟩ text ind.indent).2 ⟨y, z, h⟩
    exact ⟨f, ⟨r, hr, hf⟩, hf'⟩

/-- Whatever is tried on such a way back is tried at the same place, with the same indentation. -/
theorem C82_reads_nothing {E : Env} {y z w : Site} (h : Tries E y z) (h' : Reaches E z w) (h'' : Reaches E w y) :
    w.p = y.p ∧ w.i = y.i := cycle_stays (.step h h') h''

/-- Parsing returns exactly when neither is the case. -/
theorem C82_returns : ((∃ toks', Parses L syn text toks ind (.ok toks')) ∨
      ∃ e toks', Parses L syn text toks ind (.err e toks')) ↔
    (¬ ∃ x y, Start syn text ind x ∧ Reaches (envOf L syn.rules ind) x y ∧ Crash (envOf L syn.rules ind) y) ∧
    ¬ ∃ f : Nat → Site, Start syn text ind (f 0) ∧ ∀ n, Tries (envOf L syn.rules ind) (f n) (f (n + 1)) := by
  rw [← C82_panics (L := L) (toks := toks), ← C82_runs_for_ever (L := L) (toks := toks)]
  constructor
  · intro h
    refine ⟨fun hp => ?_, fun hp => ?_⟩
    · rcases h with ⟨_, h⟩ | ⟨_, _, h⟩ <;> exact absurd (parses_det h hp) (by simp)
    · rcases h with ⟨_, _, n, h⟩ | ⟨_, _, _, n, h⟩ <;> exact absurd (h.symm.trans (hp n)) (by simp)
  · rintro ⟨h1, h2⟩
    obtain ⟨n, hn⟩ := Classical.not_forall.1 h2
    cases hout : parseWithIndent L n syn text toks ind with
    | timeout => exact absurd hout hn
    | panic => exact absurd ⟨by simp, n, hout⟩ h1
    | ok toks' => exact .inl ⟨_, by simp, n, hout⟩
    | err e toks' => exact .inr ⟨_, _, by simp, n, hout⟩

/-- It can be found out: a parse that has not come to an end with this many levels of recursion, and this many turns
of every loop, never does. -/
theorem C82_decided (hL : L.Lawful) {n : Nat}
    (hn : (2 * (text.length + 1) ^ 2 + 3) * rulesSize syn.rules * ((text.length + 1) * (max ind.indent (2 ^ 32) + 1)) ≤
      n) : ParseDiverges L syn text toks ind ↔ parseWithIndent L n syn text toks ind = .timeout := by
  constructor
  · exact fun h => h n
  · intro h
    cases hr : syn.rules.getLast? with
    | none => simp [parseWithIndent, hr] at h
    | some r =>
      obtain ⟨f, h1, h2⟩ := late_endless (E := envOf L syn.rules ind) hL ⟨r, List.mem_of_getLast? hr, .refl⟩
        (Nat.le_refl toks.length) hn ((parse_timeout_iff hr).1 h)
      exact C82_runs_for_ever.2 ⟨f, ⟨r, hr, h1⟩, h2⟩

/-- Fewer are enough when the syntax reads no lines with indentation. -/
theorem C82_decided_plain (hL : L.Lawful) (hi : NoIndent syn.rules) {n : Nat}
    (hn : (2 * (text.length + 1) ^ 2 + 3) * rulesSize syn.rules * (text.length + 1) ≤ n) :
    ParseDiverges L syn text toks ind ↔ parseWithIndent L n syn text toks ind = .timeout := by
  constructor
  · exact fun h => h n
  · intro h
    cases hr : syn.rules.getLast? with
    | none => simp [parseWithIndent, hr] at h
    | some r =>
      obtain ⟨f, h1, h2⟩ := late_endless_plain (E := envOf L syn.rules ind) hL hi
        ⟨r, List.mem_of_getLast? hr, .refl⟩ (Nat.le_refl toks.length) hn ((parse_timeout_iff hr).1 h)
      exact C82_runs_for_ever.2 ⟨f, ⟨r, hr, h1⟩, h2⟩

/-! ### A reference out of range -/

/-- `"a"` and then a reference to a rule that is not there. -/
def exDangling : Syntax := ⟨[.sequence [.tag c!"a" false false none 1, .node c!"b" none (some 7) 2] 3], [c!"x"]⟩

/-- A text with an `a` in front comes to the reference. -/
example (text : Str) (toks : List Tok) (ind : Indent) : Parses L exDangling ('a' :: text) toks ind .panic := by
  refine C82_panics.2 ⟨_, _, ⟨_, rfl, rfl⟩, .step .sequence (.step (.seq_next (.tag_ok ⟨text, rfl⟩))
    (.step .seq .here)), .node rfl⟩

/-- Another text does not. -/
example : ¬ Parses stdLexer exDangling c!"ba" [] Indent.default .panic := by
  rintro h
  have := parses_det h (parses_of (n := 5) (o := .err ⟨⟨0, 0⟩, .expectedTag c!"a" 1⟩ []) (by decide +kernel) (by simp))
  simp at this

/-! ### A rule that begins with itself after optional parts -/

/-- `x = [?"a" x]`. -/
def exEndless : Syntax :=
  ⟨[.sequence [.optional (.tag c!"a" false false none 1) 2, .node c!"x" none (some 0) 3] 4], [c!"x"]⟩

/-- The parser reads all of the `a`s in front and comes back to the rule behind them, again and again. -/
theorem exEndless_reaches {E : Env} (hE : E.refs = exEndless.rules) (rest : Str) (i : Nat) : ∀ k off,
    Reaches E ⟨.rule (.sequence [.optional (.tag c!"a" false false none 1) 2, .node c!"x" none (some 0) 3] 4),
      ⟨List.replicate k 'a' ++ rest, off⟩, i⟩
    ⟨.rule (.sequence [.optional (.tag c!"a" false false none 1) 2, .node c!"x" none (some 0) 3] 4),
      ⟨rest, off + k⟩, i⟩
  | 0, off => .here
  | k + 1, off => by
    have h := exEndless_reaches hE rest i k (off + 1)
    rw [show off + (k + 1) = off + 1 + k by omega]
    refine .step .sequence (.step (.seq_next (.optional_some (.tag_ok ?_))) (.step .seq (.step (.node ?_) h)))
    · exact ⟨List.replicate k 'a' ++ rest, by simp [List.replicate_succ]⟩
    · rw [hE]; rfl

theorem exEndless_diverges (hL : L.Lawful) (k : Nat) {rest : Str} (hr : rest.head? ≠ some 'a') (toks : List Tok)
    (ind : Indent) : ParseDiverges L exEndless (List.replicate k 'a' ++ rest) toks ind := by
  have ht : ¬ c!"a" <+: rest := by rintro ⟨t, rfl⟩; simp at hr
  refine (C82_comes_back hL).2 ⟨_, _, _, ⟨_, rfl, rfl⟩, exEndless_reaches rfl rest ind.indent k 0, .sequence, ?_⟩
  refine .step (.seq_next (.optional_none (.tag_fail ht))) (.step .seq (.step (.node rfl) ?_))
  simp only [adv, List.drop_zero, Nat.add_zero]
  exact .here

example : ParseDiverges stdLexer exEndless c!"aaab" [] Indent.default :=
  exEndless_diverges stdLexer_lawful 3 (rest := c!"b") (by simp) _ _

end Verif.Props
