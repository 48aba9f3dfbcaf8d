import Verif.Proofs.LeaveOut
import Verif.Props.DataNames
import Verif.Props.Syntax
/-
C131: alternatives that are found to match nowhere may be left out.
-/
namespace Verif.Props
open Spec

section
variable {L : Lexer} {syn : Syntax} {ind : Indent}

theorem withoutDead_closed (i : Nat) (q : Rule) (hq : (withoutDead syn).rules[i]? = some q)
    (h : canMatch (textAt (findMatches syn.rules syn.rules.length)) q = true) : textAt (findMatches syn.rules syn.rules.length) i = true := by
  simp only [withoutDead, leaveOutAll_map, List.getElem?_map, Option.map_eq_some_iff] at hq
  obtain ⟨r, hr, rfl⟩ := hq
  exact findMatches_fixed i r hr (canMatch_leaveOut r ▸ h)

theorem fewer_implies (hn : NoIndent syn.rules) (r r' : Rule) (h : Fewer (textAt (findMatches syn.rules syn.rules.length)) r r') :
    Implies (envOf L (withoutDead syn).rules ind) r r' := by
  obtain ⟨rs, id, hf, rfl, rfl⟩ := h
  intro p i o j h
  obtain ⟨tr, h1⟩ := select_sel.1 h
  exact select_sel.2 (sel_filter (E := envOf L (withoutDead syn).rules ind) withoutDead_closed (noIndent_withoutDead hn) hf h1)

theorem more_implies (hL : L.Lawful) (hn : NoIndent syn.rules) (hw : WellFormed (envOf L syn.rules ind)) (hs : SyntaxOk syn) (r r' : Rule)
    (h : More (textAt (findMatches syn.rules syn.rules.length)) syn.rules r r') : Implies (envOf L syn.rules ind) r r' := by
  obtain ⟨rs, id, hp, rfl, rfl⟩ := h
  intro p i o j h
  refine select_sel.2 (sel_unfilter (E := envOf L syn.rules ind) findMatches_fixed hn (fun x hx => ?_) (select_sel.1 h))
  have hx' : Part syn.rules x := decided_part hp (.select hx)
  obtain ⟨q, hq, ho⟩ := (show Part syn.rules x from hx')
  exact ⟨fun y id h => hn q hq y id (Occurs.trans h ho), wellFormed_has (E := envOf L syn.rules ind) hL hw hs hx' p (.inr hn)⟩

/-- What is accepted without indented lines is accepted without the alternatives, with the same data. -/
theorem C131_accepted (hn : NoIndent syn.rules) {text : Str} {toks toks' : List Tok} (h : Parses L syn text toks ind (.ok toks')) :
    Parses L (withoutDead syn) text toks ind (.ok toks') :=
  change_ok (fewer_implies hn) (change_fewerL _ hn) h

/-- What is rejected is rejected. -/
theorem C131_rejected (hn : NoIndent syn.rules) {text : Str} {toks : List Tok} (h : ∃ e toks', Parses L syn text toks ind (.err e toks')) :
    ∃ e toks', Parses L (withoutDead syn) text toks ind (.err e toks') :=
  change_err (fewer_implies hn) (change_fewerL _ hn) h

/-- If the syntax is well formed, no other texts are accepted. -/
theorem C131_same (hL : L.Lawful) (hn : NoIndent syn.rules) (hw : WellFormed (envOf L syn.rules ind)) (hs : SyntaxOk syn) {text : Str}
    {toks toks' : List Tok} : Parses L (withoutDead syn) text toks ind (.ok toks') ↔ Parses L syn text toks ind (.ok toks') :=
  ⟨change_ok (more_implies hL hn hw hs) (change_moreL _ fun r hr => ⟨r, hr, .refl⟩), C131_accepted hn⟩

/-- Nor are others rejected. -/
theorem C131_same_rejected (hL : L.Lawful) (hn : NoIndent syn.rules) (hw : WellFormed (envOf L syn.rules ind)) (hs : SyntaxOk syn) {text : Str}
    {toks : List Tok} : (∃ e toks', Parses L (withoutDead syn) text toks ind (.err e toks')) ↔ ∃ e toks', Parses L syn text toks ind (.err e toks') :=
  ⟨change_err (more_implies hL hn hw hs) (change_moreL _ fun r hr => ⟨r, hr, .refl⟩), C131_rejected hn⟩

/-- The other rules are dead or not as before. -/
theorem C131_dead (r : Rule) : isDead (withoutDead syn).rules r = isDead syn.rules r := by
  rw [isDead, isDead, withoutDead_length, findMatches_withoutDead syn _ (Nat.le_refl _)]

/-- None of the alternatives that are left is found to match nowhere. -/
theorem C131_none_left {rs : List Rule} {id : DebugId} (h : Part (withoutDead syn).rules (.select rs id)) {r : Rule} (hr : r ∈ rs) :
    isDead (withoutDead syn).rules r = false := by
  obtain ⟨q, hq, ho⟩ := h
  simp only [withoutDead, leaveOutAll_map] at hq
  obtain ⟨q, -, rfl⟩ := List.mem_map.1 hq
  obtain ⟨y, hy, -⟩ := occurs_leaveOut ho rfl
  cases y <;> simp only [leaveOut] at hy <;> cases hy
  rw [leaveOutOf_filter] at hr
  rw [C131_dead, isDead, (List.mem_filter.1 hr).2]
  rfl

/-- Nothing is left to leave out. -/
theorem C131_again : withoutDead (withoutDead syn) = withoutDead syn := by
  have h : findMatches (withoutDead syn).rules (withoutDead syn).rules.length = findMatches syn.rules syn.rules.length := by
    rw [withoutDead_length, findMatches_withoutDead syn _ (Nat.le_refl _)]
  rw [withoutDead, h]
  simp only [withoutDead, leaveOutAll_again]

end

/-! ### Examples -/

namespace Stuck

/-- `b = [b]`. -/
def b : Rule := .sequence [.node c!"b" none (some 0) 1] 2
/-- `{b "x":"x"}`. -/
def doc : Rule := .select [.node c!"b" none (some 0) 3, .tag ['x'] false false (some ['x']) 4] 5
def syn : Syntax := ⟨[b, doc], [c!"b", c!"doc"]⟩

end Stuck

theorem stuck_b {E : Env} (hE : E.refs = Stuck.syn.rules) {g p i o j tr} (h : Run E g p i o j tr) :
    g ≠ .rule Stuck.b ∧ g ≠ .seq [.node c!"b" none (some 0) 1] ∧ ∀ name prop id, g ≠ .rule (.node name prop (some 0) id) := by
  induction h with
  | sequence h ih =>
    refine ⟨fun he => ?_, by simp, by simp⟩
    simp only [Stuck.b, Goal.rule.injEq, Rule.sequence.injEq] at he
    exact ih.2.1 (by rw [he.1])
  | seq_fail h ih =>
    refine ⟨by simp, fun he => ?_, by simp⟩
    simp only [Goal.seq.injEq, List.cons.injEq] at he
    exact ih.2.2 _ _ _ (by rw [he.1])
  | seq_cons h _ ih _ =>
    refine ⟨by simp, fun he => ?_, by simp⟩
    simp only [Goal.seq.injEq, List.cons.injEq] at he
    exact ih.2.2 _ _ _ (by rw [he.1])
  | node_ok hr h ih =>
    refine ⟨by simp [Stuck.b], by simp, fun name prop id he => ?_⟩
    simp only [Goal.rule.injEq, Rule.node.injEq, Option.some.injEq] at he
    obtain ⟨-, -, rfl, -⟩ := he
    rw [hE] at hr
    cases hr
    exact ih.1 rfl
  | node_fail hr h ih =>
    refine ⟨by simp [Stuck.b], by simp, fun name prop id he => ?_⟩
    simp only [Goal.rule.injEq, Rule.node.injEq, Option.some.injEq] at he
    obtain ⟨-, -, rfl, -⟩ := he
    rw [hE] at hr
    cases hr
    exact ih.1 rfl
  | _ => simp [Stuck.b]

/-- If the alternatives run for ever, more is accepted without them. -/
theorem C131_stuck {ind : Indent} : (∃ ts, Parses stdLexer (withoutDead Stuck.syn) ['x'] [] ind (.ok ts)) ∧
    ∀ {L : Lexer} {text : Str} {ts : List Tok}, ¬ Parses L Stuck.syn text [] ind (.ok ts) := by
  constructor
  · exact ⟨[⟨⟨0, 1⟩, .bool ['x'] true⟩], parses_ok_run.2 ⟨_, 1, _, _, _, rfl,
      .select (.sel_here (.tag_ok (p := ⟨['x'], 0⟩) (prop := some ['x']) (List.prefix_refl _))), by simp, rfl⟩⟩
  · intro L text ts h
    obtain ⟨r, n, ts, j, tr, hr, h1, -⟩ := parses_ok_run.1 h
    cases hr
    cases h1 with
    | select h =>
      cases h with
      | sel_here h => exact (stuck_b rfl h).2.2 _ _ _ rfl
      | sel_next h _ => exact (stuck_b rfl h).2.2 _ _ _ rfl

namespace LeftBehind

/-- The alternative `[deep {}]` matches nowhere, but the indented lines of `deep` leave their indentation behind. -/
def syn : Syntax := ⟨[.select [.sequence [exDeep, .select [] 11] 12, exDeep] 13], [c!"doc"]⟩

end LeftBehind

/-- With indented lines less may be accepted without them. -/
theorem C131_left_behind : (∃ ts, Parses stdLexer LeftBehind.syn c!"  x" [] ⟨0, true, 4⟩ (.ok ts)) ∧
    ∀ ts, ¬ Parses stdLexer (withoutDead LeftBehind.syn) c!"  x" [] ⟨0, true, 4⟩ (.ok ts) := by
  constructor
  · exact ⟨[], by simp, 30, by rfl⟩
  · intro ts h
    have h1 : ∃ e, Parses stdLexer (withoutDead LeftBehind.syn) c!"  x" [] ⟨0, true, 4⟩ (.err e []) := ⟨⟨⟨3, 0⟩, .expectedTag c!"x" 4⟩, by simp, 30, by rfl⟩
    obtain ⟨e, h1⟩ := h1
    cases parses_det h h1

/-- `{a:"a" b:"b" ["x":"x" a]}` without the brackets that have no end. -/
example : (withoutDead Named.syn).rules = [Named.a, Named.b, .select [.node c!"b" (some c!"b") (some 1) 10] 14] := by rfl

/-- It accepts the same. -/
example {ind : Indent} {text : Str} {ts : List Tok} :
    Parses stdLexer (withoutDead Named.syn) text [] ind (.ok ts) ↔ Parses stdLexer Named.syn text [] ind (.ok ts) := by
  refine C131_same stdLexer_lawful ?_ (C25_check_sound stdLexer_lawful ind (by decide +kernel)) (C26_check_sound (by decide +kernel))
  have : ∀ x, Part Named.syn.rules x → (match x with | .lines _ true _ => False | _ => True) :=
    eachPart_part (P := fun x => match x with | .lines _ true _ => False | _ => True) (by
      simp [EachPart, EachPartOf, Named.syn, Named.a, Named.b, Named.doc])
  exact fun q hq r id h => this _ ⟨q, hq, h⟩

end Verif.Props
