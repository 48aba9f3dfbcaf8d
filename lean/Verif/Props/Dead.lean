import Verif.Proofs.Dead
import Verif.Props.Continuable
/-
C125: rules that never match can be found; where the next character decides, all of them.
-/
namespace Verif.Props
open Spec

section
variable {L : Lexer} {syn : Syntax} {ind : Indent}

/-- A rule that is found dead matches nowhere, whatever the syntax. -/
theorem C125_dead {r : Rule} (h : isDead syn.rules r = true) : ¬ MatchesSomewhere (envOf L syn.rules ind) r := by
  rintro ⟨p, i, n, ts, j, tr, h1⟩
  have h2 := run_canMatch (E := envOf L syn.rules ind) findMatches_fixed h1 rfl
  simp only [isDead, Bool.not_eq_true'] at h
  exact absurd (h.symm.trans h2) (by simp)

/-- So no text is accepted if the last rule is found dead. -/
theorem C125_rejects (hL : L.Lawful) {r : Rule} (hr : syn.rules.getLast? = some r) (h : isDead syn.rules r = true) {text : Str} {toks toks' : List Tok} :
    ¬ Parses L syn text toks ind (.ok toks') := by
  intro h1
  obtain ⟨ts, ⟨r', j, tr, hr', h2⟩, -⟩ := (C04_ok_iff_meaning hL).1 h1
  cases hr.symm.trans hr'
  exact C125_dead h ⟨_, _, _, _, _, _, h2⟩

variable {nums : Bool → List Char} {ends : List Char} {o : Char}

/-- Where the next character decides and nothing may begin with what would have been read before it, all others match somewhere. -/
theorem C125_exact (hL : L.Lawful) (hX : L.Exact) (hn : NumbersBegin L nums) (hS : NumbersStop L ends) (ho : o ∉ alphabet nums syn.rules)
    {ms : List Found} {ns gs : List (List (Option Char))} (h : confirmsAll nums syn.rules ms ns = true)
    (h' : confirmsApart nums ends syn.rules ms gs = true) (hs : SyntaxOk syn) {x : Rule} (hx : Part syn.rules x) :
    isDead syn.rules x = true ↔ ¬ MatchesSomewhere (envOf L syn.rules ind) x := by
  refine ⟨C125_dead, fun hd => ?_⟩
  obtain ⟨I, hI⟩ := foundAt_idle ms
  obtain ⟨h1, h2⟩ := confirmsAll_lengths h
  have hU := (confirmsAll_iff hn ho h1 h2).1 h
  have hC := continues_of_apart hn hS ho h'
  have hP := outright_of hU hC
  cases hm : isDead syn.rules x with
  | true => rfl
  | false =>
    simp only [isDead, Bool.not_eq_false'] at hm
    rw [findMatches_texts hP, canMatch_someText x fun y hy => hP y (by obtain ⟨q, hq, hqx⟩ := hx; exact ⟨q, hq, Occurs.trans hy hqx⟩)] at hm
    obtain ⟨y, ts, hy⟩ := someText_yields (E := envOf L syn.rules ind) hL hX hU hI hC hS ho
      (findTexts_yields (E := envOf L syn.rules ind) hL hX hU hI hC hS ho _) x hx hm
    obtain ⟨tr, h3⟩ := generates_runs (E := envOf L syn.rules ind) hL hU hI hs hy hx (by
      simp only [List.drop_length]
      rintro ⟨c, t, h, -⟩
      cases h) 0
    exact absurd ⟨_, _, _, _, _, _, h3⟩ hd

/-- Then it can be computed whether any text is accepted. -/
theorem C125_any (hL : L.Lawful) (hX : L.Exact) (hn : NumbersBegin L nums) (hS : NumbersStop L ends) (ho : o ∉ alphabet nums syn.rules)
    {ms : List Found} {ns gs : List (List (Option Char))} (h : confirmsAll nums syn.rules ms ns = true)
    (h' : confirmsApart nums ends syn.rules ms gs = true) (hs : SyntaxOk syn) {r : Rule} (hr : syn.rules.getLast? = some r) :
    (∃ text ts, Accepts L syn text ind ts) ↔ isDead syn.rules r = false := by
  constructor
  · rintro ⟨text, ts, r', j, tr, hr', h1⟩
    cases hr.symm.trans hr'
    cases hm : isDead syn.rules r with
    | false => rfl
    | true => exact (C125_dead hm ⟨_, _, _, _, _, _, h1⟩).elim
  · intro hm
    obtain ⟨I, hI⟩ := foundAt_idle ms
    obtain ⟨h1, h2⟩ := confirmsAll_lengths h
    have hU := (confirmsAll_iff hn ho h1 h2).1 h
    have hC := continues_of_apart hn hS ho h'
    have hP := outright_of hU hC
    have hx : Part syn.rules r := ⟨r, List.mem_of_getLast? hr, .refl⟩
    simp only [isDead, Bool.not_eq_false'] at hm
    rw [findMatches_texts hP, canMatch_someText r fun y hy => hP y ⟨r, List.mem_of_getLast? hr, hy⟩] at hm
    obtain ⟨y, ts, hy⟩ := someText_yields (E := envOf L syn.rules ind) hL hX hU hI hC hS ho
      (findTexts_yields (E := envOf L syn.rules ind) hL hX hU hI hC hS ho _) r hx hm
    exact ⟨y, ts, (C112_grammar hL hn ho h hs).2 ⟨r, hr, hy⟩⟩

end

/-! ### Examples -/

namespace Hopeless

/-- `a = ["(" a ")"]`: there is no end to the brackets. -/
def a : Rule := .sequence [.tag ['('] false false none 1, .node c!"a" none (some 0) 2, .tag [')'] false false none 3] 4
/-- `{"x" a}`. -/
def either : Rule := .select [.tag ['x'] false false none 5, .node c!"a" none (some 0) 6] 7
/-- `["y" a]`. -/
def both : Rule := .sequence [.tag ['y'] false false none 8, .node c!"a" none (some 0) 9] 10

def syn : Syntax := ⟨[a, either], [c!"a", c!"either"]⟩
def syn' : Syntax := ⟨[a, both], [c!"a", c!"both"]⟩

end Hopeless

/-- Brackets without an end match nowhere, and the others do. -/
theorem C125_hopeless {ind : Indent} : ¬ MatchesSomewhere (envOf stdLexer Hopeless.syn.rules ind) Hopeless.a ∧
    (∃ text ts, Accepts stdLexer Hopeless.syn text ind ts) ∧ ¬ ∃ text ts, Accepts stdLexer Hopeless.syn' text ind ts := by
  have h := fun (syn : Syntax) => C125_any (syn := syn) (ind := ind) (nums := stdNums) (ends := stdEnds) (o := 'z') stdLexer_lawful stdLexer_exact C112_numbers C120_numbers
    (ms := findMarks stdNums syn.rules 6) (ns := findFurther stdNums syn.rules (findMarks stdNums syn.rules 6) 6)
    (gs := findBeyond stdNums stdEnds syn.rules (findMarks stdNums syn.rules 6) 6)
  refine ⟨C125_dead (by decide +kernel), ?_, ?_⟩
  · exact (h Hopeless.syn (by decide +kernel) (by decide +kernel) (by decide +kernel) (C26_check_sound (by decide +kernel)) (r := Hopeless.either) rfl).2 (by decide +kernel)
  · rw [h Hopeless.syn' (by decide +kernel) (by decide +kernel) (by decide +kernel) (C26_check_sound (by decide +kernel)) (r := Hopeless.both) rfl]
    decide +kernel

namespace Greedy

/-- `[..?"b" "a"]`: whatever could be the `a` has been read. -/
def rule : Rule := .sequence [.untilAny ['b'] true none 1, .tag ['a'] false false none 2] 3
def syn : Syntax := ⟨[rule], [c!"rule"]⟩

end Greedy

/-- In general there are others that match nowhere. -/
theorem C125_not_all {L : Lexer} {ind : Indent} : isDead Greedy.syn.rules Greedy.rule = false ∧
    ¬ MatchesSomewhere (envOf L Greedy.syn.rules ind) Greedy.rule := by
  refine ⟨by decide +kernel, ?_⟩
  rintro ⟨p, i, n, ts, j, tr, h⟩
  generalize hx : some (n, ts) = x at h
  cases h with
  | sequence h =>
    cases h with
    | seq_fail => cases hx
    | seq_cons h h' =>
      cases h with
      | until_ok hl _ =>
        cases h' with
        | seq_fail => cases hx
        | seq_cons h' _ =>
          cases h' with
          | tag_ok h' =>
            obtain ⟨s, hs⟩ := h'
            exact hl.2.2 'a' (by
              have : _ = List.drop _ _ := hs
              rw [← this]
              rfl) (by decide)

end Verif.Props
