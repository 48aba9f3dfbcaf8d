import Verif.Props.Lines
import Verif.Proofs.Origin
/-
C58: what becomes of the indentation.
-/
namespace Verif.Props
open Spec

/-- The indentation that a block `.l+` leaves behind when it is tried before `rest` with the
indentation `i`: if the first line that is not blank carries `i`, the columns of its spaces and tabs
after that are added. -/
inductive BlockIndent (tab : Nat) (rest : List Char) (i : Nat) : Nat → Prop
  | blank (h : AllBlank rest) : BlockIndent tab rest i i
  | shallow {k} (h : LineStart rest k) (hc : ¬ ∃ c, Carries tab i (rest.drop k) c) :
      BlockIndent tab rest i i
  | aligned {k c m} (h : LineStart rest k) (hc : Carries tab i (rest.drop k) c)
      (hm : Longest Blank (rest.drop (k + c)) m) :
      BlockIndent tab rest i (i + width tab ((rest.drop (k + c)).take m))

/-- The changes of the indentation that blocks of the syntax make, one after the other. -/
inductive Leaks (refs : List Rule) (tab : Nat) (text : Str) : Nat → Nat → Prop
  | none {i} : Leaks refs tab text i i
  | block {i j k r id off} (hx : Part refs (.lines r true id))
      (h : BlockIndent tab (text.drop off) i j) (h' : Leaks refs tab text j k) :
      Leaks refs tab text i k

theorem Leaks.trans {refs tab text i j k} (h : Leaks refs tab text i j)
    (h' : Leaks refs tab text j k) : Leaks refs tab text i k := by
  induction h with
  | none => exact h'
  | block hx h _ ih => exact .block hx h (ih h')

/-- The indentation that a block leaves behind is determined by the text. -/
theorem blockIndent_unique {tab rest i j j'} (h : BlockIndent tab rest i j)
    (h' : BlockIndent tab rest i j') : j = j' := by
  cases h with
  | blank h =>
    cases h' with
    | blank => rfl
    | shallow h1 => rfl
    | aligned h1 => exact absurd h (lineStart_not_allBlank h1)
  | shallow h hc =>
    cases h' with
    | blank => rfl
    | shallow => rfl
    | aligned h1 hc' => cases lineStart_unique h h1; exact absurd ⟨_, hc'⟩ hc
  | aligned h hc hm =>
    cases h' with
    | blank h1 => exact absurd h1 (lineStart_not_allBlank h)
    | shallow h1 hc' => cases lineStart_unique h h1; exact absurd ⟨_, hc⟩ hc'
    | aligned h1 hc' hm' =>
      cases lineStart_unique h h1
      cases carries_unique hc hc'
      cases longest_unique hm hm'
      rfl

/-- Only the first line of a block changes the indentation. -/
theorem line_later {E : Env} {r p i o j tr} (h : Run E (.line r true false) p i o j tr) : j = i := by
  cases h <;> rfl

theorem lines_later {E : Env} {g p i o j tr} (h : Run E g p i o j tr) :
    ∀ {r id item}, g = .lines r true id false item → j = i := by
  induction h with
  | lines_done => intros; rfl
  | lines_fail => intros; rfl
  | lines_stop _ h' => intro r id item hg; cases hg; exact line_later h'
  | lines_more _ h' _ _ ih => intro r id item hg; cases hg; rw [ih rfl, line_later h']
  | _ => intro r id item hg; cases hg

theorem line_first {E : Env} (ha : E.align = true) {r p i o j tr k} {rest : List Char}
    (hk : LineStart rest k) (hp : p.src = rest.drop k) (h : Run E (.line r true true) p i o j tr) :
    BlockIndent E.tab rest i j := by
  cases h with
  | line_shallow h => exact .shallow hk (by rwa [← hp])
  | line_deep h => exact absurd ⟨rfl, ha⟩ h
  | line_body h => exact absurd ⟨rfl, ha⟩ h
  | line_align _ h hm =>
    rw [hp, List.drop_drop] at hm ⊢
    exact .aligned hk (by rwa [← hp]) hm

theorem lines_block {E : Env} (hL : E.L.Lawful) (ha : E.align = true) {r id p i o j tr}
    (h : Run E (.rule (.lines r true id)) p i o j tr) : BlockIndent E.tab p.src i j := by
  cases h with
  | lines h =>
    cases h with
    | lines_done h => exact .blank (hL.line_done h).2
    | lines_fail h => exact absurd (hL.line_fail h).1 (by simp)
    | lines_stop h h' => exact line_first ha (call_cases hL h).1 rfl h'
    | lines_more h h' h'' =>
      rw [lines_later h'' rfl]
      exact line_first ha (call_cases hL h).1 rfl h'

/-- The goal is not about the inside of a block. -/
def Outside : Goal → Prop
  | .lines _ ind _ _ _ => ind = false
  | .line _ ind _ => ind = false
  | _ => True

theorem run_leaks {E : Env} (hL : E.L.Lawful) (ha : E.align = true) (text : Str) {g p i o j tr}
    (h : Run E g p i o j tr) : Inside text p → GoalPart E.refs g → Outside g →
      Leaks E.refs E.tab text i j := by
  induction h with
  | @lines r ind id p i o j tr h ih =>
    intro hp hg _
    cases ind with
    | true =>
      refine .block hg (off := p.off) ?_ .none
      rw [← hp]
      exact lines_block hL ha (.lines h)
    | false => exact ih hp hg rfl
  | lines_stop h h' ih => intro hp hg ho; cases ho; exact ih (inside_adv hp _) (part_child hg .lines) rfl
  | lines_more h h' h'' ih ih' =>
    intro hp hg ho; cases ho
    exact (ih (inside_adv hp _) (part_child hg .lines) rfl).trans (ih' (inside_adv hp _) hg rfl)
  | line_plain h ih => intro hp hg _; exact ih hp hg trivial
  | line_shallow => intro _ _ ho; cases ho
  | line_deep => intro _ _ ho; cases ho
  | line_body => intro _ _ ho; cases ho
  | line_align => intro _ _ ho; cases ho
  | select h ih => intro hp hg _; exact ih hp (fun r hr => part_child hg (.select hr)) trivial
  | sel_here h ih => intro hp hg _; exact ih hp (hg _ (by simp)) trivial
  | sel_next h h' ih ih' =>
    intro hp hg _
    exact (ih hp (hg _ (by simp)) trivial).trans (ih' hp (fun r hr => hg r (by simp [hr])) trivial)
  | fast_hit h hb ht hr h' ih =>
    intro hp hg _; exact ih hp (part_child hg (.fast (List.mem_of_getElem? hr))) trivial
  | fastTail_miss h hb ht hr h' ih =>
    intro hp hg _; exact ih hp (part_child hg (.fast (List.mem_of_getLast? hr))) trivial
  | fastTail_hit h hb ht hr h' ih =>
    intro hp hg _; exact ih hp (part_child hg (.fast (List.mem_of_getElem? hr))) trivial
  | fastTail_next h hb ht hr h' hr' h'' ih ih' =>
    intro hp hg _
    exact (ih hp (part_child hg (.fast (List.mem_of_getElem? hr))) trivial).trans
      (ih' hp (part_child hg (.fast (List.mem_of_getLast? hr'))) trivial)
  | sequence h ih => intro hp hg _; exact ih hp (fun r hr => part_child hg (.sequence hr)) trivial
  | seq_fail h ih => intro hp hg _; exact ih hp (hg _ (by simp)) trivial
  | seq_cons h h' ih ih' =>
    intro hp hg _
    exact (ih hp (hg _ (by simp)) trivial).trans
      (ih' (inside_adv hp _) (fun r hr => hg r (by simp [hr])) trivial)
  | repeat_opt h ih => intro hp hg _; exact ih hp (part_child hg .repeat_) trivial
  | repeat_fail h ih => intro hp hg _; exact ih hp (part_child hg .repeat_) trivial
  | repeat_ok h h' ih ih' =>
    intro hp hg _
    exact (ih hp (part_child hg .repeat_) trivial).trans
      (ih' (inside_adv hp _) (part_child hg .repeat_) trivial)
  | rep_stop h ih => intro hp hg _; exact ih hp hg trivial
  | rep_more h h' ih ih' =>
    intro hp hg _; exact (ih hp hg trivial).trans (ih' (inside_adv hp _) hg trivial)
  | sep_none h ih => intro hp hg _; exact ih hp (part_child hg .item) trivial
  | sep_fail h ih => intro hp hg _; exact ih hp (part_child hg .item) trivial
  | sep_first h h' ih ih' =>
    intro hp hg _
    exact (ih hp (part_child hg .item) trivial).trans
      (ih' (inside_adv hp _) ⟨part_child hg .item, part_child hg .sep⟩ trivial)
  | sep_stop h ih => intro hp hg _; exact ih hp hg.2 trivial
  | sep_trail h h' ih ih' =>
    intro hp hg _; exact (ih hp hg.2 trivial).trans (ih' (inside_adv hp _) hg.1 trivial)
  | sep_noTrail h h' ih ih' =>
    intro hp hg _; exact (ih hp hg.2 trivial).trans (ih' (inside_adv hp _) hg.1 trivial)
  | sep_more h h' h'' ih ih' ih'' =>
    intro hp hg _
    exact (ih hp hg.2 trivial).trans ((ih' (inside_adv hp _) hg.1 trivial).trans
      (ih'' (inside_adv hp _) hg trivial))
  | node_fail hr h ih => intro hp hg _; exact ih hp (part_ref hr) trivial
  | node_ok hr h ih => intro hp hg _; exact ih hp (part_ref hr) trivial
  | optional_none h ih => intro hp hg _; exact ih hp (part_child hg .optional) trivial
  | optional_some h ih => intro hp hg _; exact ih hp (part_child hg .optional) trivial
  | not_ok h ih => intro hp hg _; exact ih hp (part_child hg .not) trivial
  | not_fail h ih => intro hp hg _; exact ih hp (part_child hg .not) trivial
  | _ => intros; exact .none

section
variable {L : Lexer} {refs : List Rule}

/-- C58: what a block leaves behind depends on the text only: not on the rule of its lines, and not
on whether it matches. -/
theorem C58_block (hL : L.Lawful) {r id p} {ind ind' : Indent} (ha : ind.alignFirst = true)
    (h : (∃ n ts, Matches L refs (.lines r true id) p ind n ts ind') ∨
      Refuses L refs (.lines r true id) p ind ind') :
    ∀ j, BlockIndent ind.tabSpaces p.src ind.indent j ↔ j = ind'.indent := by
  have key : BlockIndent ind.tabSpaces p.src ind.indent ind'.indent := by
    rcases h with ⟨n, ts, h⟩ | h
    · obtain ⟨j, tr, h1, rfl⟩ := matches_iff.1 h
      exact lines_block (E := envOf L refs ind) hL ha h1
    · obtain ⟨j, tr, h1, rfl⟩ := refuses_iff.1 h
      exact lines_block (E := envOf L refs ind) hL ha h1
  exact fun j => ⟨fun h => blockIndent_unique h key, fun h => h ▸ key⟩

/-- C58: nothing but blocks changes the indentation. -/
theorem C58_only_blocks (hL : L.Lawful) {r text off} {ind ind' : Indent} (hr : Part refs r)
    (ha : ind.alignFirst = true)
    (h : (∃ n ts, Matches L refs r (from_ text off) ind n ts ind') ∨
      Refuses L refs r (from_ text off) ind ind') :
    Leaks refs ind.tabSpaces text ind.indent ind'.indent := by
  have hp : Inside text (from_ text off) := by simp [Inside, from_]
  rcases h with ⟨n, ts, h⟩ | h
  · obtain ⟨j, tr, h1, rfl⟩ := matches_iff.1 h
    exact run_leaks (E := envOf L refs ind) hL ha text h1 hp hr trivial
  · obtain ⟨j, tr, h1, rfl⟩ := refuses_iff.1 h
    exact run_leaks (E := envOf L refs ind) hL ha text h1 hp hr trivial

theorem width_noBlank {tab : Nat} {cs : List Char} (h : ∀ c ∈ cs, Blank c) (h' : ∀ c ∈ cs, ¬ Blank c) :
    width tab cs = 0 := by
  cases cs with
  | nil => rfl
  | cons c cs => exact absurd (h c (by simp)) (h' c (by simp))

/-- C58: in a text without spaces and tabs the indentation never changes. -/
theorem C58_no_blanks (hL : L.Lawful) {r text off} {ind ind' : Indent} (hr : Part refs r)
    (hb : ∀ c ∈ text, ¬ Blank c)
    (h : (∃ n ts, Matches L refs r (from_ text off) ind n ts ind') ∨
      Refuses L refs r (from_ text off) ind ind') : ind'.indent = ind.indent := by
  cases ha : ind.alignFirst with
  | false =>
    rcases h with ⟨n, ts, h⟩ | h
    · rw [(C23_no_leak_without_align_partial ha).1 n ts h]
    · rw [(C23_no_leak_without_align_partial ha).2 h]
  | true =>
    have h := C58_only_blocks hL hr ha h
    generalize ind.indent = i, ind'.indent = j at h
    induction h with
    | none => rfl
    | block hx h _ ih =>
      rw [ih]
      cases h with
      | blank => rfl
      | shallow => rfl
      | aligned _ _ hm =>
        rw [width_noBlank hm.2.1]; · rfl
        intro c hc
        exact hb c (List.mem_of_mem_drop (List.mem_of_mem_drop (List.mem_of_mem_take hc)))

end

/-- C58: two columns are left behind, whatever the rule for the lines. -/
example : BlockIndent 4 c!"\n  a\nb\n" 0 2 :=
  (C58_block stdLexer_lawful (refs := []) (r := exA) (id := 3) (p := ⟨c!"\n  a\nb\n", 0⟩)
    (ind := Indent.default) (ind' := { Indent.default with indent := 2 }) rfl
    (.inl ⟨5, [⟨⟨3, 1⟩, .bool c!"a" true⟩], matches_of_eval 9 (by decide +kernel)⟩) 2).2 rfl

end Verif.Props
