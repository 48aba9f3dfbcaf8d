import Verif.Proofs.Change
import Verif.Proofs.FateCycle
import Verif.Props.Rewrite
/-
Laws of rules that hold but for the failures that are met.
-/
namespace Verif
open Spec Props

theorem flat_child {c r : Rule} (h : Flat r) (hc : Child c r) : Flat c :=
  fun x id ho => h x id (Occurs.trans ho (.step .refl hc))

theorem flat_ref {refs : List Rule} (hn : NoIndent refs) {k : Nat} {r : Rule} (h : refs[k]? = some r) : Flat r :=
  hn r (List.mem_of_getElem? h)

theorem flat_lines {r : Rule} {ind : Bool} {id : DebugId} (h : Flat (.lines r ind id)) : ind = false := by
  cases ind with
  | false => rfl
  | true => exact absurd .refl (h r id)

def FlatGoal : Goal → Prop
  | .rule r => Flat r
  | .sel rs => ∀ r ∈ rs, Flat r
  | .seq rs => ∀ r ∈ rs, Flat r
  | .rep r => Flat r
  | .sepTail r b _ => Flat r ∧ Flat b
  | .lines r ind _ _ _ => Flat r ∧ ind = false
  | .line r ind _ => Flat r ∧ ind = false

theorem run_flat_goal {E : Env} (hn : NoIndent E.refs) {g p i o j tr} (h : Run E g p i o j tr) :
    FlatGoal g → j = i := by
  induction h <;> intro hp <;> simp only [FlatGoal] at * <;> try rfl
  all_goals grind [flat_child, Child, flat_ref, flat_lines, List.mem_of_getElem?, List.mem_of_getLast?]

theorem run_flat {E : Env} (hn : NoIndent E.refs) {r p i o j tr} (hf : Flat r) (h : Run E (.rule r) p i o j tr) :
    j = i := run_flat_goal hn h hf

/-! ### Separated lists -/

section
variable {E : Env} {r b : Rule}

/-- What becomes of a list that has read `n` characters and the data `ts`, when the separator then does `x`. -/
def ending (t : Bool) (n : Nat) (ts : List Tok) : Outcome → Outcome
  | none => some (n, ts)
  | some (m, us) => if t then some (n + m, ts ++ us) else none

theorem before_ending {t n ts m us} (x : Outcome) :
    before n ts (ending t m us x) = ending t (n + m) (ts ++ us) x := by
  cases x <;> cases t <;> simp [ending, before, Nat.add_assoc]

theorem sepTail_rep (hn : NoIndent E.refs) (hr : Flat r) (hb : Flat b) (id : DebugId) {t : Bool} {g p i o j tr}
    (h : Run E g p i o j tr) : g = .sepTail r b t →
    ∃ n ts x, Does E (.rep (.sequence [b, r] id)) p i (some (n, ts)) i ∧ Does E (.rule b) (adv p n) i x i ∧
      o = ending t n ts x := by
  induction h with
  | sep_stop h _ =>
    intro hg
    cases hg
    cases run_flat hn hb h
    exact ⟨0, [], none, ⟨_, .rep_stop (.sequence (.seq_fail h))⟩, ⟨_, by rw [adv_zero]; exact h⟩, rfl⟩
  | sep_noTrail h h' _ _ =>
    intro hg
    cases hg
    cases run_flat hn hb h
    cases run_flat hn hr h'
    exact ⟨0, [], _, ⟨_, .rep_stop (.sequence (.seq_cons h (.seq_fail h')))⟩, ⟨_, by rw [adv_zero]; exact h⟩, rfl⟩
  | sep_trail h h' _ _ =>
    intro hg
    cases hg
    cases run_flat hn hb h
    cases run_flat hn hr h'
    exact ⟨0, [], _, ⟨_, .rep_stop (.sequence (.seq_cons h (.seq_fail h')))⟩, ⟨_, by rw [adv_zero]; exact h⟩,
      by simp [ending]⟩
  | sep_more h h' _ _ _ ih =>
    intro hg
    cases hg
    cases run_flat hn hb h
    cases run_flat hn hr h'
    obtain ⟨l, vs, x, ⟨_, h1⟩, h2, rfl⟩ := ih rfl
    have h3 := Run.rep_more (.sequence (id := id) (.seq_cons h (.seq_cons h' .seq_nil))) h1
    simp only [before, Nat.add_zero, List.append_nil] at h3
    refine ⟨_, _, x, ⟨_, h3⟩, ?_, before_ending x⟩
    rw [← adv_add]
    exact h2
  | _ => intro hg; cases hg

theorem flat_two (hr : Flat r) (hb : Flat b) (id : DebugId) : Flat (.sequence [b, r] id) := by
  intro x id ho
  cases ho with
  | step ho hc =>
    cases hc with
    | sequence hc =>
      simp only [List.mem_cons, List.not_mem_nil, or_false] at hc
      rcases hc with rfl | rfl
      · exact hb _ _ ho
      · exact hr _ _ ho

theorem rep_sepTail (hn : NoIndent E.refs) (hr : Flat r) (hb : Flat b) (id : DebugId) (t : Bool) {g p i o j tr}
    (h : Run E g p i o j tr) : g = .rep (.sequence [b, r] id) → ∀ {n ts}, o = some (n, ts) → ∀ {x},
    Does E (.rule b) (adv p n) i x i → Does E (.sepTail r b t) p i (ending t n ts x) i := by
  have hx := flat_two hr hb id
  induction h with
  | rep_stop h _ =>
    intro hg n ts ho x hb'
    cases hg
    cases ho
    rw [adv_zero] at hb'
    obtain ⟨_, hb'⟩ := hb'
    cases h with
    | sequence h =>
      generalize hy : (none : Outcome) = y at h
      cases h with
      | seq_fail h =>
        obtain ⟨rfl, -, -⟩ := h.det hb'
        cases run_flat hn hb h
        exact ⟨_, .sep_stop h⟩
      | seq_cons h h' =>
        obtain ⟨rfl, -, -⟩ := h.det hb'
        cases h' with
        | seq_fail h' =>
          cases run_flat hn hb h
          cases run_flat hn hr h'
          cases t with
          | false => exact ⟨_, .sep_noTrail h h'⟩
          | true => exact ⟨_, by simpa [ending] using Run.sep_trail h h'⟩
        | seq_cons h' h'' => cases h''; simp [before] at hy
  | @rep_more _ p i m us j' tr o' k tr' h h' _ ih =>
    intro hg n ts ho x hb'
    cases hg
    cases run_flat hn hx h
    cases h with
    | sequence h =>
      generalize hy : (some (_, _) : Outcome) = y at h
      cases h with
      | seq_fail => cases hy
      | seq_cons h1 h2 =>
        cases run_flat hn hb h1
        cases h2 with
        | seq_fail => simp [before] at hy
        | seq_cons h2 h3 =>
          cases run_flat hn hr h2
          cases h3
          simp only [before, Option.some.injEq, Prod.mk.injEq, Nat.add_zero, List.append_nil] at hy
          obtain ⟨rfl, rfl⟩ := hy
          cases o' with
          | none => simp [before] at ho
          | some y =>
            obtain ⟨l, vs⟩ := y
            simp only [before, Option.some.injEq, Prod.mk.injEq] at ho
            obtain ⟨rfl, rfl⟩ := ho
            rw [← adv_add] at hb'
            obtain ⟨_, h4⟩ := ih rfl rfl hb'
            exact ⟨_, before_ending x ▸ Run.sep_more h1 h2 h4⟩
  | _ => intro hg; cases hg

/-- What ends a list. -/
def ender (t : Bool) (b : Rule) (id : DebugId) : Rule := if t then .optional b id else .not b id

theorem ender_does (hn : NoIndent E.refs) (hb : Flat b) {t : Bool} {id : DebugId} {p i o j} :
    Does E (.seq [ender t b id]) p i o j ↔ ∃ x, Does E (.rule b) p i x i ∧ j = i ∧ o = ending t 0 [] x := by
  constructor
  · rintro ⟨_, h⟩
    replace h := seq_single.1 h
    cases t with
    | false =>
      cases h with
      | not_ok h => cases run_flat hn hb h; exact ⟨_, ⟨_, h⟩, rfl, rfl⟩
      | not_fail h => cases run_flat hn hb h; exact ⟨_, ⟨_, h⟩, rfl, rfl⟩
    | true =>
      cases h with
      | optional_none h => cases run_flat hn hb h; exact ⟨_, ⟨_, h⟩, rfl, rfl⟩
      | optional_some h => cases run_flat hn hb h; exact ⟨_, ⟨_, h⟩, rfl, by simp [ending]⟩
  · rintro ⟨x, ⟨_, h⟩, rfl, rfl⟩
    cases t with
    | false =>
      cases x with
      | none => exact ⟨_, seq_single.2 (.not_ok h)⟩
      | some x => exact ⟨_, seq_single.2 (.not_fail h)⟩
    | true =>
      cases x with
      | none => exact ⟨_, seq_single.2 (.optional_none h)⟩
      | some x => exact ⟨_, by simpa [ending, ender] using seq_single.2 (Run.optional_some (id := id) h)⟩

theorem sepTail_seq (hn : NoIndent E.refs) (hr : Flat r) (hb : Flat b) (t : Bool) (id id' id'' : DebugId) {p i o j} :
    Does E (.sepTail r b t) p i o j ↔
      Does E (.seq [.repeat_ (.sequence [b, r] id) true id', ender t b id'']) p i o j := by
  constructor
  · rintro ⟨_, h⟩
    cases run_flat_goal hn h ⟨hr, hb⟩
    obtain ⟨n, ts, x, ⟨_, h1⟩, h2, rfl⟩ := sepTail_rep hn hr hb id h rfl
    obtain ⟨_, h3⟩ := (ender_does (id := id'') hn hb (t := t)).2 ⟨x, h2, rfl, rfl⟩
    have := Run.seq_cons (.repeat_opt (id := id') h1) h3
    rw [before_ending, Nat.add_zero, List.append_nil] at this
    exact ⟨_, this⟩
  · rintro ⟨_, h⟩
    cases h with
    | seq_fail h =>
      cases h with
      | repeat_opt h => exact absurd rfl (rep_some h rfl)
    | seq_cons h h' =>
      cases h with
      | repeat_opt h =>
        cases run_flat_goal hn h (flat_two hr hb id)
        obtain ⟨x, h2, rfl, rfl⟩ := (ender_does hn hb (t := t)).1 ⟨_, h'⟩
        rw [before_ending, Nat.add_zero, List.append_nil]
        exact rep_sepTail hn hr hb id t h rfl rfl h2

/-- A list, said with repetition. -/
theorem list_as_repeat (hn : NoIndent E.refs) (hr : Flat r) (hb : Flat b) (t : Bool) (id id₁ id₂ id₃ id₄ : DebugId) :
    SameReading E (.separateBy r b false t id)
      (.sequence [r, .repeat_ (.sequence [b, r] id₁) true id₂, ender t b id₃] id₄) := by
  intro p i o j
  constructor
  · rintro ⟨_, h⟩
    cases h with
    | sep_fail h => exact ⟨_, .sequence (.seq_fail h)⟩
    | sep_first h h' =>
      obtain ⟨_, h2⟩ := (sepTail_seq hn hr hb t id₁ id₂ id₃).1 ⟨_, h'⟩
      exact ⟨_, .sequence (.seq_cons h h2)⟩
  · rintro ⟨_, h⟩
    cases h with
    | sequence h =>
      cases h with
      | seq_fail h => exact ⟨_, .sep_fail h⟩
      | seq_cons h h' =>
        obtain ⟨_, h2⟩ := (sepTail_seq hn hr hb t id₁ id₂ id₃).2 ⟨_, h'⟩
        exact ⟨_, .sep_first h h2⟩

/-- The same when the list may be empty: nothing is read if no item is there. -/
theorem list_opt_as_repeat (hn : NoIndent E.refs) (hr : Flat r) (hb : Flat b) (t : Bool) (id id₁ id₂ id₃ id₄ id₅ id₆ : DebugId) :
    SameReading E (.separateBy r b true t id)
      (.select [.sequence [r, .repeat_ (.sequence [b, r] id₁) true id₂, ender t b id₃] id₄, .not r id₅] id₆) := by
  intro p i o j
  constructor
  · rintro ⟨_, h⟩
    cases h with
    | sep_none h =>
      cases run_flat hn hr h
      exact ⟨_, .select (.sel_next (.sequence (.seq_fail h)) (.sel_here (.not_ok h)))⟩
    | sep_first h h' =>
      have hj := run_flat_goal hn h' ⟨hr, hb⟩
      subst hj
      cases run_flat hn hr h
      obtain ⟨_, h2⟩ := (sepTail_seq hn hr hb t id₁ id₂ id₃).1 ⟨_, h'⟩
      have h3 := Run.sequence (id := id₄) (.seq_cons h h2)
      generalize before _ _ _ = o at *
      cases o with
      | some x => exact ⟨_, .select (.sel_here h3)⟩
      | none => exact ⟨_, .select (.sel_next h3 (.sel_next (.not_fail h) .sel_nil))⟩
  · rintro ⟨_, h⟩
    have := (list_as_repeat (E := E) hn hr hb t id id₁ id₂ id₃ id₄ p i)
    cases h with
    | select h =>
      cases h with
      | sel_here h =>
        obtain ⟨_, h⟩ := (this _ _).2 ⟨_, h⟩
        generalize hy : (some _ : Outcome) = y at h
        cases h with
        | sep_fail => cases hy
        | sep_first h h' => exact ⟨_, .sep_first h h'⟩
      | sel_next h h' =>
        obtain ⟨_, h⟩ := (this _ _).2 ⟨_, h⟩
        generalize hy : (none : Outcome) = y at h
        cases h with
        | sep_fail h =>
          cases run_flat hn hr h
          cases h' with
          | sel_here h' =>
            generalize hz : (some _ : Outcome) = z at h'
            cases h' with
            | not_ok h' =>
              cases run_flat hn hr h'
              cases hz
              exact ⟨_, .sep_none h'⟩
            | not_fail => cases hz
          | sel_next h' _ =>
            generalize hz : (none : Outcome) = z at h'
            cases h' with
            | not_ok => cases hz
            | not_fail h' => exact absurd (h.det h').1 (by simp)
        | sep_first h h1 =>
          have hj := run_flat_goal hn h1 ⟨hr, hb⟩
          subst hj
          cases run_flat hn hr h
          cases h' with
          | sel_here h' =>
            generalize hz : (some _ : Outcome) = z at h'
            cases h' with
            | not_ok h' => exact absurd (h.det h').1 (by simp)
            | not_fail => cases hz
          | sel_next h' h2 =>
            cases h2
            generalize hz : (none : Outcome) = z at h'
            cases h' with
            | not_ok => cases hz
            | not_fail h' =>
              cases run_flat hn hr h'
              rw [hy]
              exact ⟨_, .sep_first h h1⟩

end

end Verif
