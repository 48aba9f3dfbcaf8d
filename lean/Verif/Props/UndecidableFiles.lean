import Verif.Proofs.SmallRules
import Mathlib.Computability.Reduce
/-
C105: what cannot be decided about a syntax file.
-/
namespace Verif.Props
open Spec

/-- A text from the numbers of its characters. -/
def ofCodes (l : List Nat) : Str := l.map Char.ofNat

theorem ofCodes_toNat (s : Str) : ofCodes (s.map Char.toNat) = s := by
  simp [ofCodes, Function.comp_def]

theorem binaryWord_codes (pre post : List Nat) (i j n : Nat) : codes (binaryWord pre post i j n).reverse =
    codes post.reverse ++ (Nat.bits n).flatMap (fun b => if b then code i else code j) ++ codes pre.reverse := by
  simp only [binaryWord, codes, List.reverse_append, List.flatMap_append, List.reverse_reverse, List.append_assoc,
    ← List.map_reverse, List.flatMap_map]
  congr 2
  congr 1
  funext b
  cases b <;> rfl

section
variable {L : Lexer}

/-- The file of the number `n`: one text before, one after, and between them one of two texts for each binary digit. -/
def fileOf (before after one zero : Str) (n : Nat) : Str := before ++ (Nat.bits n).flatMap (fun b => if b then one else zero) ++ after

/-- It is computed from the number. -/
theorem C105_computed (before after one zero : Str) : Primrec fun n => (fileOf before after one zero n).map Char.toNat := by
  refine (binary_primrec (before.map Char.toNat) (after.map Char.toNat) (one.map Char.toNat) (zero.map Char.toNat)).of_eq fun n => ?_
  simp only [fileOf, List.map_append, List.map_flatMap]
  congr 2
  congr 1
  funext b
  cases b <;> rfl

/-- A family of files, each of which is read as a syntax, with which parsing always returns.  Which of them accept some text cannot be told
by a program. -/
theorem C105_family (hL : L.Lawful) (hX : L.Exact) (hz : ReadsZero L) : ∃ before after one zero : Str,
    (∀ n, ∃ syn, (∀ r, SyntaxReturns L (fileOf before after one zero n) r ↔ r = .ok syn) ∧ ∀ text ind, Acc L syn text ind ∨ Rej L syn text ind) ∧
    ∀ ind, ¬ ComputablePred fun n => ∃ syn, SyntaxReturns L (fileOf before after one zero n) (.ok syn) ∧ ∃ text, Acc L syn text ind := by
  obtain ⟨N, R, F, pre, post, i, j, hR, h1, h2, h3, h4, hn⟩ := words_undecidable
  obtain ⟨p, hp⟩ := small_file (N := N) (R := R) (F := F) hL hX hz nothing_endOk
  have hf : ∀ n, fileOf (p ++ codes post.reverse) (codes pre.reverse ++ startAfter) (code i) (code j) n =
      p ++ codes (binaryWord pre post i j n).reverse ++ startAfter := by
    intro n
    rw [binaryWord_codes]
    simp [fileOf]
  refine ⟨p ++ codes post.reverse, codes pre.reverse ++ startAfter, code i, code j, fun n => ?_, fun ind h => hn (h.of_eq fun n => ?_)⟩
  · obtain ⟨syn, h5, -, -, h6⟩ := hp (binaryWord pre post i j n)
    rw [hf]
    refine ⟨syn, h5, fun text ind => ?_⟩
    rw [(h6 text ind).1, (h6 text ind).2]
    exact C104_returns hL _ text ind
  · obtain ⟨syn, h5, -, -, h6⟩ := hp (binaryWord pre post i j n)
    refine Iff.trans ?_ (C104_histories hL hR (binaryWord_below h1 h2 h3 h4 n) ind)
    rw [hf]
    constructor
    · rintro ⟨syn', h7, text, h8⟩
      cases (h5 _).1 h7
      exact ⟨text, (h6 text ind).1.1 h8⟩
    · rintro ⟨text, h8⟩
      exact ⟨syn, (h5 _).2 rfl, text, (h6 text ind).1.2 h8⟩

/-- No program can tell from a file whether it is read as a syntax that accepts any text. -/
theorem C105_accepts_undecidable (hL : L.Lawful) (hX : L.Exact) (hz : ReadsZero L) (ind : Indent) :
    ¬ ComputablePred fun l : List Nat => ∃ syn, SyntaxReturns L (ofCodes l) (.ok syn) ∧ ∃ text, Acc L syn text ind := by
  obtain ⟨before, after, one, zero, -, h⟩ := C105_family hL hX hz
  refine fun hc => h ind (ComputablePred.computable_of_manyOneReducible ⟨_, (C105_computed before after one zero).to_comp, fun n => ?_⟩ hc)
  rw [ofCodes_toNat]

/-- No program can tell from two files whether they are read as syntaxes that accept the same texts. -/
theorem C105_same_undecidable (hL : L.Lawful) (hX : L.Exact) (hz : ReadsZero L) (ind : Indent) :
    ¬ ComputablePred fun l : List Nat × List Nat => ∃ syn syn', SyntaxReturns L (ofCodes l.1) (.ok syn) ∧ SyntaxReturns L (ofCodes l.2) (.ok syn') ∧
      ∀ text, Acc L syn text ind ↔ Acc L syn' text ind := by
  obtain ⟨before, after, one, zero, hr, h⟩ := C105_family hL hX hz
  intro hc
  have hnone : ∃ m, ¬ ∃ syn, SyntaxReturns L (fileOf before after one zero m) (.ok syn) ∧ ∃ text, Acc L syn text ind := by
    by_contra hall
    have hall : ∀ n, ∃ syn, SyntaxReturns L (fileOf before after one zero n) (.ok syn) ∧ ∃ text, Acc L syn text ind :=
      fun n => by_contra fun hn => hall ⟨n, hn⟩
    exact h ind ((ComputablePred.of_eq (p := fun _ => True) ⟨fun _ => isTrue trivial, by simpa using Computable.const true⟩ fun n => (iff_true_intro (hall n)).symm))
  obtain ⟨m, hm⟩ := hnone
  have hd : ComputablePred fun n => ¬ ∃ syn, SyntaxReturns L (fileOf before after one zero n) (.ok syn) ∧ ∃ text, Acc L syn text ind := by
    refine ComputablePred.computable_of_manyOneReducible (q := fun l : List Nat × List Nat => ∃ syn syn', SyntaxReturns L (ofCodes l.1) (.ok syn) ∧
      SyntaxReturns L (ofCodes l.2) (.ok syn') ∧ ∀ text, Acc L syn text ind ↔ Acc L syn' text ind)
      ⟨fun n => ((fileOf before after one zero n).map Char.toNat, (fileOf before after one zero m).map Char.toNat),
        (C105_computed before after one zero).to_comp.pair (Computable.const _), fun n => ?_⟩ hc
    simp only [ofCodes_toNat]
    constructor
    · intro hn
      obtain ⟨syn, h1, -⟩ := hr n
      obtain ⟨syn', h2, -⟩ := hr m
      have h1 := (h1 _).2 rfl
      have h2 := (h2 _).2 rfl
      exact ⟨syn, syn', h1, h2, fun text => ⟨fun h => absurd ⟨syn, h1, text, h⟩ hn, fun h => absurd ⟨syn', h2, text, h⟩ hm⟩⟩
    · rintro ⟨syn, syn', h1, h2, h3⟩ ⟨syn'', h4, text, h5⟩
      obtain ⟨syn₀, h0, -⟩ := hr n
      cases (h0 _).1 h1
      cases (h0 _).1 h4
      exact hm ⟨syn', h2, text, (h3 text).1 h5⟩
  exact h ind (hd.not.of_eq fun n => not_not)

/-- No program can tell from a file whether it is read as a syntax with which parsing runs for ever on some text. -/
theorem C105_loops_undecidable (hL : L.Lawful) (hX : L.Exact) (hz : ReadsZero L) (ind : Indent) :
    ¬ ComputablePred fun l : List Nat => ∃ syn, SyntaxReturns L (ofCodes l) (.ok syn) ∧ ∃ text, ParseDiverges L syn text [] ind := by
  obtain ⟨N, R, F, pre, post, i, j, hR, h1, h2, h3, h4, hn⟩ := words_undecidable
  obtain ⟨p, hp⟩ := small_file (N := N) (R := R) (F := F) hL hX hz loop_endOk
  have hf : ∀ n, fileOf (p ++ codes post.reverse) (codes pre.reverse ++ startAfter) (code i) (code j) n =
      p ++ codes (binaryWord pre post i j n).reverse ++ startAfter := by
    intro n
    rw [binaryWord_codes]
    simp [fileOf]
  refine fun hc => hn ((ComputablePred.computable_of_manyOneReducible ⟨_, (C105_computed (p ++ codes post.reverse) (codes pre.reverse ++ startAfter)
    (code i) (code j)).to_comp, fun n => ?_⟩ hc))
  obtain ⟨syn, h5, ho, hi, h6⟩ := hp (binaryWord pre post i j n)
  refine Iff.trans (C104_loops hL hR (binaryWord_below h1 h2 h3 h4 n) ind).symm ?_
  rw [ofCodes_toNat, hf]
  have ho' : SyntaxOk (historySyntax N R F loopRule (binaryWord pre post i j n)) :=
    history_syntaxOk (by simp [loopRule, nothingRule, refTo, Speakable, SpeakableL]) _
  have hi' := bare_noIndent (history_bare (N := N) (R := R) (F := F) (q := loopRule) (flatB_flat rfl) (binaryWord pre post i j n))
  have hd : ∀ text, ParseDiverges L syn text [] ind ↔ ParseDiverges L (historySyntax N R F loopRule (binaryWord pre post i j n)) text [] ind := by
    intro text
    rw [bare_diverges ho hi, bare_diverges ho' hi', (h6 text ind).1, (h6 text ind).2]
  constructor
  · rintro ⟨text, h8⟩
    exact ⟨syn, (h5 _).2 rfl, text, (hd text).2 h8⟩
  · rintro ⟨syn', h7, text, h8⟩
    cases (h5 _).1 h7
    exact ⟨text, (hd text).1 h8⟩

end

/-- For the lexer of the crate. -/
example (ind : Indent) :
    (¬ ComputablePred fun l : List Nat => ∃ syn, SyntaxReturns stdLexer (ofCodes l) (.ok syn) ∧ ∃ text, Acc stdLexer syn text ind) ∧
    ¬ ComputablePred fun l : List Nat => ∃ syn, SyntaxReturns stdLexer (ofCodes l) (.ok syn) ∧ ∃ text, ParseDiverges stdLexer syn text [] ind :=
  ⟨C105_accepts_undecidable stdLexer_lawful stdLexer_exact std_readsZero ind, C105_loops_undecidable stdLexer_lawful stdLexer_exact std_readsZero ind⟩

/-- Rewriting `0` to `1`, in rules with at most two alternatives each; there are 32 of them. -/
example : (smallSyntax 2 [([0], [1])] [[1]] nothingRule [0]).rules.length = 32 ∧
    Acc stdLexer (smallSyntax 2 [([0], [1])] [[1]] nothingRule [0]) c!"b#db#ab#" Indent.default ∧
    Rej stdLexer (smallSyntax 2 [([0], [1])] [[1]] nothingRule [0]) c!"b#db#b#" Indent.default :=
  ⟨by decide, ⟨[], by simp, 60, by decide +kernel⟩, ⟨⟨⟨2, 0⟩, .didNotExpectTag [] 0⟩, [], by simp, 60, by decide +kernel⟩⟩

/-- Five in binary, the least digit first. -/
example : fileOf c!"0 a = \"" c!"\"" c!"x" c!"y" 5 = c!"0 a = \"xyx\"" := by decide +kernel

end Verif.Props
