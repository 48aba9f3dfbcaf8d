import Verif.Props.ViableCalc
import Verif.Props.Near
/-
C119: the error is reported where the text can no longer be continued, but for the length of a token.
-/
namespace Verif.Props
open Spec

/-- Some text that is accepted begins with the first `k` characters. -/
def CanGoOn (L : Lexer) (syn : Syntax) (ind : Indent) (text : Str) (k : Nat) : Prop :=
  ∃ rest ts, Parses L syn (text.take k ++ rest) [] ind (.ok ts)

theorem canGoOn_mono {L : Lexer} {syn : Syntax} {ind : Indent} {text : Str} {j k : Nat} (hjk : j ≤ k)
    (h : CanGoOn L syn ind text k) : CanGoOn L syn ind text j := by
  obtain ⟨rest, ts, h⟩ := h
  refine ⟨(text.take k).drop j ++ rest, ts, ?_⟩
  have : text.take j = (text.take k).take j := by rw [List.take_take, Nat.min_eq_left hjk]
  rw [this, ← List.append_assoc, List.take_append_drop]
  exact h

/-- Between a point from which there is a way to go on and one from which there is none there is a last one. -/
theorem last_point {p : Nat → Prop} (hp : ∀ {j k}, j ≤ k → p k → p j) {a : Nat} : ∀ {d : Nat}, p a → ¬ p (a + d) →
    ∃ k, a ≤ k ∧ k < a + d ∧ ∀ j, p j ↔ j ≤ k
  | 0, h, hn => absurd h hn
  | d + 1, h, hn => by
    by_cases hd : p (a + d)
    · refine ⟨a + d, by omega, by omega, fun j => ⟨fun hj => ?_, fun hj => hp hj hd⟩⟩
      exact Classical.byContradiction fun hc => hn (hp (by omega) hj)
    · obtain ⟨k, h1, h2, h3⟩ := last_point hp h hd
      exact ⟨k, h1, by omega, h3⟩

section
variable {L : Lexer} {M : Nat → Mark} {N A : Nat → Char → Prop} {K : Char → Prop} {syn : Syntax} {I m : Nat}

/-- No text that is accepted begins with what stands before the end of the error and the `m` characters after it. -/
theorem C119_hopeless (hm : 1 ≤ m) (hN : NearNumbers L m) (hs : ∀ r ∈ syn.rules, Spec.Near m r) {text : Str} {toks toks' : List Tok}
    {ind : Indent} {e : RErr} (h : Parses L syn text toks ind (.err e toks')) (hl : e.range.next + m ≤ text.length) :
    ¬ CanGoOn L syn ind text (e.range.next + m) := by
  rintro ⟨rest, ts, h1⟩
  obtain ⟨tr, h2, h3⟩ := parses_err_run.1 ⟨_, h⟩
  obtain ⟨_, h4⟩ : ∃ toks'', Parses L syn text [] ind (.err e toks'') := parses_err_run.2 ⟨tr, h2, h3⟩
  obtain ⟨_, h5⟩ := C86_final hm hN hs h4 (Nat.le_refl _) hl rest
  cases parses_det h1 h5

/-- The last point from which there is a way to go on is not before the error, and less than `m` characters after its end. -/
theorem C119_boundary (hL : L.Lawful) (hX : L.Exact) (hU : LL1 L M N syn.rules) (hI : ∀ i, (M i).idle ≤ I)
    (hC : Continues L K M A syn.rules) (hs : SyntaxOk syn) (hne : syn.rules ≠ []) {ind : Indent} (hP : Productive L syn.rules ind)
    (hm : 1 ≤ m) (hN : NearNumbers L m) (hr : ∀ r ∈ syn.rules, Spec.Near m r)
    {text : Str} {toks toks' : List Tok} {e : RErr} (h : Parses L syn text toks ind (.err e toks')) (hn : ¬ InString e.err)
    (hl : e.range.next + m ≤ text.length) :
    ∃ k, e.range.offset ≤ k ∧ k < e.range.next + m ∧ ∀ j, CanGoOn L syn ind text j ↔ j ≤ k := by
  have h1 : CanGoOn L syn ind text e.range.offset := by
    obtain ⟨tr, h2, h3⟩ := parses_err_run.1 ⟨_, h⟩
    obtain ⟨_, h4⟩ : ∃ toks'', Parses L syn text [] ind (.err e toks'') := parses_err_run.2 ⟨tr, h2, h3⟩
    obtain ⟨rest, ts, h5⟩ := C118_viable hL hX hU hI hC hs hne hP h4 hn
    exact ⟨rest, _, h5⟩
  have h2 := C119_hopeless hm hN hr h hl
  obtain ⟨d, hd⟩ : ∃ d, e.range.next + m = e.range.offset + d := ⟨e.range.length + m, by simp only [Range.next]; omega⟩
  rw [hd] at h2 ⊢
  exact last_point canGoOn_mono h1 h2

end

namespace Calc

theorem near : ∀ r ∈ syn.rules, Spec.Near 3 r := by
  simp only [syn, List.mem_cons, List.not_mem_nil, or_false]
  rintro r (rfl | rfl | rfl | rfl) <;> exact near_by rfl

end Calc

/-- In sums the error is less than three characters before the last point from which there is a way to go on. -/
theorem C119_calc {text : Str} {toks toks' : List Tok} {ind : Indent} {e : RErr}
    (h : Parses stdLexer Calc.syn text toks ind (.err e toks')) (hl : e.range.next + 3 ≤ text.length) :
    ∃ k, e.range.offset ≤ k ∧ k < e.range.next + 3 ∧ ∀ j, CanGoOn stdLexer Calc.syn ind text j ↔ j ≤ k :=
  C119_boundary stdLexer_lawful stdLexer_exact Calc.ll1 Calc.idle Calc.continues Calc.syntaxOk (by simp [Calc.syn]) Calc.productive
    (by decide) C86_numbers Calc.near h (no_text_error stdLexer_lawful Calc.no_texts h) hl

/-- `2*(3+)+4` can be continued up to the parenthesis, and not beyond the next two characters. -/
example : ∃ k, 5 ≤ k ∧ k < 8 ∧ ∀ j, CanGoOn stdLexer Calc.syn Indent.default c!"2*(3+)+4" j ↔ j ≤ k := by
  have h0 : (match parseWithIndent stdLexer 40 Calc.syn c!"2*(3+)+4" [] Indent.default with
      | .err e _ => e.range.offset == 5 && e.range.length == 0 | _ => false) = true := by decide +kernel
  split at h0
  · rename_i e toks' h
    have h : Parses stdLexer Calc.syn c!"2*(3+)+4" [] Indent.default (.err e toks') := ⟨by simp, 40, h⟩
    simp only [Bool.and_eq_true, beq_iff_eq] at h0
    have hnx : e.range.next = 5 := by simp [Range.next, h0.1, h0.2]
    obtain ⟨k, h1, h2, h3⟩ := C119_calc h (by simp [hnx])
    exact ⟨k, by omega, by omega, h3⟩
  · cases h0

/-- After `1e+` there is a way to go on, though the error is reported before the `e`. -/
theorem C119_late : (∃ e toks, Parses stdLexer Calc.syn c!"1e+;" [] Indent.default (.err e toks) ∧ e.range.next = 1) ∧
    CanGoOn stdLexer Calc.syn Indent.default c!"1e+;" 3 ∧ ¬ CanGoOn stdLexer Calc.syn Indent.default c!"1e+;" 4 := by
  have h0 : (match parseWithIndent stdLexer 40 Calc.syn c!"1e+;" [] Indent.default with
      | .err e _ => e.range.offset == 1 && e.range.length == 0 | _ => false) = true := by decide +kernel
  have h1 : (match parseWithIndent stdLexer 40 Calc.syn c!"1e+5" [] Indent.default with
      | .ok _ => true | _ => false) = true := by decide +kernel
  split at h0
  · rename_i e toks' h
    have h : Parses stdLexer Calc.syn c!"1e+;" [] Indent.default (.err e toks') := ⟨by simp, 40, h⟩
    simp only [Bool.and_eq_true, beq_iff_eq] at h0
    have hnx : e.range.next = 1 := by simp [Range.next, h0.1, h0.2]
    refine ⟨⟨e, toks', h, hnx⟩, ?_, ?_⟩
    · split at h1
      · rename_i ts h2
        exact ⟨c!"5", ts, by simp, 40, h2⟩
      · cases h1
    · have := C119_hopeless (by decide) C86_numbers Calc.near h (by simp [hnx])
      rwa [hnx] at this
  · cases h0

end Verif.Props
