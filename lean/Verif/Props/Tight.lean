import Verif.Proofs.Tight
import Verif.Props.Edit
/-
C127: where what has been read can be continued, needless whitespace may be left out.
-/
namespace Verif.Props
open Spec

section
variable {L : Lexer} {syn : Syntax} {ind : Indent} {M : Nat → Mark} {N A : Nat → Char → Prop} {K : Char → Prop} {I : Nat}

/-- For every accepted text there is one that is no longer, is accepted with the same data, and is put together with nothing where
whitespace is optional and one space where it is not. -/
theorem C127_tight (hL : L.Lawful) (hX : L.Exact) (hU : LL1 L M N syn.rules) (hI : ∀ i, (M i).idle ≤ I)
    (hC : Continues L K M A syn.rules) (hs : SyntaxOk syn) {text : Str} {ts : List Tok} (h : Accepts L syn text ind ts) :
    ∃ text' ts' r, syn.rules.getLast? = some r ∧ Composes (envOf L (syn.rules.map tight) ind) (.rule (tight r)) 0 text' ts' ∧
      Accepts L syn text' ind ts' ∧ ts'.map (·.data) = ts.map (·.data) ∧ text'.length ≤ text.length := by
  obtain ⟨r, hr, h1⟩ := (C126_composes hL hX hU hI hC hs).1 h
  obtain ⟨text', h2, h3⟩ := composes_tightens h1
  obtain ⟨ts', h4, h5⟩ := h3 0
  exact ⟨text', ts', r, hr, h4.1, (C126_composes hL hX hU hI hC hs).2 ⟨r, hr, h4.2⟩, h5, h2⟩

/-- What is put together in this way is accepted. -/
theorem C127_sound (hL : L.Lawful) (hX : L.Exact) (hU : LL1 L M N syn.rules) (hI : ∀ i, (M i).idle ≤ I)
    (hC : Continues L K M A syn.rules) (hs : SyntaxOk syn) {r : Rule} (hr : syn.rules.getLast? = some r) {text : Str} {ts : List Tok}
    (h : Composes (envOf L (syn.rules.map tight) ind) (.rule (tight r)) 0 text ts) : Accepts L syn text ind ts :=
  (C126_composes hL hX hU hI hC hs).2 ⟨r, hr, tight_composes h (.rule r) rfl⟩

variable {M' : Nat → Mark} {N' A' : Nat → Char → Prop} {K' : Char → Prop} {I' : Nat}

/-- If the conditions hold for the tight rules too, these accept some of the texts, with the same data, and all data. -/
theorem C127_rules (hL : L.Lawful) (hX : L.Exact) (hU : LL1 L M N syn.rules) (hI : ∀ i, (M i).idle ≤ I)
    (hC : Continues L K M A syn.rules) (hs : SyntaxOk syn) (hU' : LL1 L M' N' (syn.rules.map tight)) (hI' : ∀ i, (M' i).idle ≤ I')
    (hC' : Continues L K' M' A' (syn.rules.map tight)) (hs' : SyntaxOk ⟨syn.rules.map tight, syn.names⟩) :
    (∀ text ts, Accepts L ⟨syn.rules.map tight, syn.names⟩ text ind ts → Accepts L syn text ind ts) ∧
    ∀ text ts, Accepts L syn text ind ts → ∃ text' ts', Accepts L ⟨syn.rules.map tight, syn.names⟩ text' ind ts' ∧
      Accepts L syn text' ind ts' ∧ ts'.map (·.data) = ts.map (·.data) ∧ text'.length ≤ text.length := by
  constructor
  · intro text ts h
    obtain ⟨r', hr', h1⟩ := (C126_composes hL hX hU' hI' hC' hs').1 h
    simp only [List.getLast?_map, Option.map_eq_some_iff] at hr'
    obtain ⟨r, hr, rfl⟩ := hr'
    exact C127_sound hL hX hU hI hC hs hr h1
  · intro text ts h
    obtain ⟨text', ts', r, hr, h1, h2, h3, h4⟩ := C127_tight hL hX hU hI hC hs h
    refine ⟨text', ts', (C126_composes hL hX hU' hI' hC' hs').2 ⟨tight r, ?_, h1⟩, h2, h3, h4⟩
    simp [List.getLast?_map, hr]

end

/-! ### Examples -/

/-- Sums without whitespace. -/
def Calc.tightSyn : Syntax := ⟨Calc.syn.rules.map tight, Calc.syn.names⟩

/-- Every sum can be written without whitespace. -/
theorem C127_calc {ind : Indent} :
    (∀ text ts, Accepts stdLexer Calc.tightSyn text ind ts → Accepts stdLexer Calc.syn text ind ts) ∧
    ∀ text ts, Accepts stdLexer Calc.syn text ind ts → ∃ text' ts', Accepts stdLexer Calc.tightSyn text' ind ts' ∧
      Accepts stdLexer Calc.syn text' ind ts' ∧ ts'.map (·.data) = ts.map (·.data) ∧ text'.length ≤ text.length := by
  obtain ⟨M, N, A, K, I, hU, hI, hC⟩ := C126_checked (syn := Calc.syn) (nums := stdNums) (ends := stdEnds) (o := 'z') stdLexer_lawful stdLexer_exact C112_numbers C120_numbers
    (by decide +kernel) (ms := findMarks stdNums Calc.syn.rules 6) (ns := findFurther stdNums Calc.syn.rules (findMarks stdNums Calc.syn.rules 6) 6)
    (gs := findBeyond stdNums stdEnds Calc.syn.rules (findMarks stdNums Calc.syn.rules 6) 6) (by decide +kernel) (by decide +kernel)
  obtain ⟨M', N', A', K', I', hU', hI', hC'⟩ := C126_checked (syn := Calc.tightSyn) (nums := stdNums) (ends := stdEnds) (o := 'z') stdLexer_lawful stdLexer_exact C112_numbers C120_numbers
    (by decide +kernel) (ms := findMarks stdNums Calc.tightSyn.rules 6) (ns := findFurther stdNums Calc.tightSyn.rules (findMarks stdNums Calc.tightSyn.rules 6) 6)
    (gs := findBeyond stdNums stdEnds Calc.tightSyn.rules (findMarks stdNums Calc.tightSyn.rules 6) 6) (by decide +kernel) (by decide +kernel)
  exact C127_rules stdLexer_lawful stdLexer_exact hU hI hC (C26_check_sound (by decide +kernel)) hU' hI' hC' (C26_check_sound (by decide +kernel))

/-- Without whitespace `1 + 2 * (3)` is `1+2*(3)`, and `1 +2` is not accepted. -/
example : (match parse stdLexer 90 Calc.tightSyn c!"1+2*(3)" [], parse stdLexer 90 Calc.syn c!" 1 + 2 * ( 3 ) " [], parse stdLexer 90 Calc.tightSyn c!"1 +2" [] with
    | .ok ts, .ok us, .err _ _ => ts.map (·.data) == us.map (·.data) | _, _, _ => false) = true := by decide +kernel

namespace Glued

/-- `[.." "!:"x" .w? "b"]`. -/
def doc : Rule := .sequence [.untilAny [' '] false (some ['x']) 1, .whitespace true 2, .tag ['b'] false false none 3] 4
def syn : Syntax := ⟨[doc], [c!"doc"]⟩

end Glued

/-- It is not enough that the next character decides: `a b` is accepted, but `ab` is not. -/
theorem C127_needed : (∃ ts, Accepts stdLexer Glued.syn c!"a b" Indent.default ts) ∧
    (∃ ns, confirmsAll stdNums Glued.syn.rules (findMarks stdNums Glued.syn.rules 6) ns = true) ∧
    (∃ ts, Composes (envOf stdLexer (Glued.syn.rules.map tight) Indent.default) (.rule (tight Glued.doc)) 0 c!"ab" ts) ∧
    ¬ ∃ ts, Accepts stdLexer Glued.syn c!"ab" Indent.default ts := by
  have h1 : (match parse stdLexer 40 Glued.syn c!"a b" [] with | .ok _ => true | _ => false) = true := by decide +kernel
  have h2 : (match parse stdLexer 40 Glued.syn c!"ab" [] with | .err _ _ => true | _ => false) = true := by decide +kernel
  refine ⟨?_, ⟨findFurther stdNums Glued.syn.rules (findMarks stdNums Glued.syn.rules 6) 6, by decide +kernel⟩, ?_, ?_⟩
  · split at h1
    · rename_i h
      obtain ⟨ts, h2, -⟩ := (C04_ok_iff_meaning stdLexer_lawful (toks := [])).1 ⟨by simp, 40, h⟩
      exact ⟨ts, h2⟩
    · cases h1
  · refine ⟨_, .sequence (.seq_cons (x := ['a']) (y := ['b']) (.token (i := 0) (j := 0) (tr := []) trivial (.until_ok (p := ⟨['a'], 0⟩) (n := 1) ⟨?_, ?_, ?_⟩ ?_))
      (.seq_cons (x := []) (y := ['b']) (.token (i := 0) (j := 0) (tr := []) trivial (.tag_ok (p := ⟨[], _⟩) (t := []) (prop := none) ?_))
      (.seq_cons (x := ['b']) (y := []) (.token (i := 0) (j := 0) (tr := []) trivial (.tag_ok (p := ⟨['b'], _⟩) (t := ['b']) (prop := none) ?_)) .seq_nil)))⟩
    all_goals decide
  · rintro ⟨ts, h⟩
    split at h2
    · rename_i h3
      cases parses_det ((C04_ok_iff_meaning stdLexer_lawful (toks := [])).2 ⟨ts, h, rfl⟩) ⟨by simp, 40, h3⟩
    · cases h2

end Verif.Props
