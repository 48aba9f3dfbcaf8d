import Verif.Spec.Automaton
import Verif.Spec.Counts
/-
What the rules made from an automaton read, and what it costs.
-/
namespace Verif.Props
open Spec

section
variable {E : Env} {a : Automaton}

/-- What is read from a state on: everything if the automaton reads it, and less or nothing otherwise. -/
def GivesWhole (P : Prop) (s : Str) (o : Outcome) : Prop :=
  (P ∧ o = some (s.length, [])) ∨ (¬ P ∧ ∀ n ts, o = some (n, ts) → n < s.length ∧ ts = [])

theorem arrow_other {q : Nat} {c d : Char} {s : Str} (h : c ≠ d) {off i : Nat} : ∃ tr,
    Run E (.rule (a.arrow q c)) ⟨d :: s, off⟩ i none i tr ∧ Counts E (.rule (a.arrow q c)) ⟨d :: s, off⟩ i 2 2 := by
  have h1 : Run E (.rule (.tag [c] false false none 0)) ⟨d :: s, off⟩ i none i _ :=
    .tag_fail (by rintro ⟨t, ht⟩; simp at ht; exact h ht.1)
  exact ⟨_, .sequence (.seq_fail h1), .sequence (.seq_fail h1 (.leaf trivial))⟩

theorem arrow_end {q : Nat} {c : Char} {off i : Nat} : ∃ tr,
    Run E (.rule (a.arrow q c)) ⟨[], off⟩ i none i tr ∧ Counts E (.rule (a.arrow q c)) ⟨[], off⟩ i 2 2 := by
  have h1 : Run E (.rule (.tag [c] false false none 0)) ⟨[], off⟩ i none i _ := .tag_fail (by simp)
  exact ⟨_, .sequence (.seq_fail h1), .sequence (.seq_fail h1 (.leaf trivial))⟩

/-- Of the arrows that are tried none fits. -/
theorem arrows_none {q : Nat} {p : Pos} {i : Nat} : ∀ {cs : List Char},
    (∀ c ∈ cs, ∃ tr, Run E (.rule (a.arrow q c)) p i none i tr ∧ Counts E (.rule (a.arrow q c)) p i 2 2) →
    ∃ tr d, Run E (.sel (cs.map (a.arrow q))) p i none i tr ∧ Counts E (.sel (cs.map (a.arrow q))) p i (2 * cs.length) d
  | [], _ => ⟨_, _, .sel_nil, .sel_nil⟩
  | c :: cs, h => by
    obtain ⟨tr, h1, h2⟩ := h c (List.mem_cons_self ..)
    obtain ⟨tr', d, h3, h4⟩ := arrows_none fun c hc => h c (List.mem_cons_of_mem _ hc)
    have h5 := Counts.sel_next h1 h2 h4
    rw [show 2 + 2 * cs.length = 2 * (c :: cs).length by simp; omega] at h5
    exact ⟨_, _, .sel_next h1 h3, h5⟩

/-- The arrow that fits reads a character more than the next state. -/
theorem arrow_fits {q : Nat} {c : Char} {s : Str} {off i : Nat} {r : Rule} (hr : E.refs[a.next q c]? = some r)
    {o : Outcome} {tr : List RErr} {k d : Nat} (h : Run E (.rule r) ⟨s, off + 1⟩ i o i tr) (hc : Counts E (.rule r) ⟨s, off + 1⟩ i k d)
    (ho : ∀ n ts, o = some (n, ts) → ts = []) :
    ∃ tr d, Run E (.rule (a.arrow q c)) ⟨c :: s, off⟩ i (o.map fun x => (x.1 + 1, [])) i tr ∧
      Counts E (.rule (a.arrow q c)) ⟨c :: s, off⟩ i (k + 3) d := by
  have h1 : Run E (.rule (.tag [c] false false none 0)) ⟨c :: s, off⟩ i (some (1, [])) i [] := .tag_ok ⟨s, rfl⟩
  have hk : 1 + (1 + (1 + k)) = k + 3 := by omega
  match o, ho with
  | none, _ =>
    have h2 : Run E (.rule (.node [] none (some (a.next q c)) 0)) (adv ⟨c :: s, off⟩ 1) i none i tr := .node_fail hr h
    have h3 := Counts.sequence (id := 0) (.seq_cons h1 (.leaf trivial) (.seq_fail (rs := []) h2 (.node hr hc)))
    rw [hk] at h3
    exact ⟨_, _, .sequence (.seq_cons h1 (.seq_fail h2)), h3⟩
  | some (n, ts), ho =>
    cases ho n ts rfl
    have h2 : Run E (.rule (.node [] none (some (a.next q c)) 0)) (adv ⟨c :: s, off⟩ 1) i (some (n, [])) i tr := .node_ok hr h
    have h3 := Counts.sequence (id := 0) (.seq_cons h1 (.leaf trivial) (.seq_cons h2 (.node hr hc) .seq_nil))
    rw [Nat.add_zero, hk] at h3
    have h4 := Run.sequence (id := 0) (.seq_cons h1 (.seq_cons h2 .seq_nil))
    rw [show before 1 [] (before n [] (some (0, []))) = some (n + 1, []) by simp [before, Nat.add_comm]] at h4
    exact ⟨_, _, h4, h3⟩

/-- One of the arrows that are tried fits. -/
theorem arrows_fit {q : Nat} {c : Char} {s : Str} {off i : Nat} {r : Rule} (hr : E.refs[a.next q c]? = some r)
    {o : Outcome} {tr : List RErr} {k d : Nat} (h : Run E (.rule r) ⟨s, off + 1⟩ i o i tr) (hc : Counts E (.rule r) ⟨s, off + 1⟩ i k d)
    (ho : ∀ n ts, o = some (n, ts) → ts = []) : ∀ {cs : List Char}, cs.Nodup → c ∈ cs →
    ∃ tr m d, m ≤ 2 * cs.length + k + 1 ∧ Run E (.sel (cs.map (a.arrow q))) ⟨c :: s, off⟩ i (o.map fun x => (x.1 + 1, [])) i tr ∧
      Counts E (.sel (cs.map (a.arrow q))) ⟨c :: s, off⟩ i m d
  | [], _, hm => absurd hm List.not_mem_nil
  | e :: cs, hn, hm => by
    rw [List.nodup_cons] at hn
    by_cases he : e = c
    · subst he
      obtain ⟨tr, d, h1, h2⟩ := arrow_fits (a := a) hr h hc ho
      match o, h1 with
      | some x, h1 => exact ⟨_, _, _, by simp; omega, .sel_here h1, .sel_here h1 h2⟩
      | none, h1 =>
        obtain ⟨tr', d', h3, h4⟩ := arrows_none (E := E) (a := a) (q := q) (p := ⟨e :: s, off⟩) (i := i) (cs := cs) fun c' hc' =>
          arrow_other (by rintro rfl; exact hn.1 hc')
        exact ⟨_, _, _, by simp; omega, .sel_next h1 h3, .sel_next h1 h2 h4⟩
    · obtain ⟨tr', h1, h2⟩ := arrow_other (E := E) (a := a) (q := q) (s := s) he (off := off) (i := i)
      obtain ⟨tr'', m, d', hm', h3, h4⟩ := arrows_fit hr h hc ho hn.2 ((List.mem_cons.1 hm).resolve_left (Ne.symm he))
      exact ⟨_, _, _, by simp; omega, .sel_next h1 h3, .sel_next h1 h2 h4⟩

theorem run_select {rs : List Rule} {id : DebugId} {p : Pos} {i : Nat} {o : Outcome} {tr : List RErr} {m d : Nat}
    (h : Run E (.sel rs) p i o i tr) (hc : Counts E (.sel rs) p i m d) :
    ∃ tr, Run E (.rule (.select rs id)) p i o i tr ∧ Counts E (.rule (.select rs id)) p i (1 + m) (1 + d) := by
  match rs, h with
  | [], h =>
    cases h
    exact ⟨_, .select_empty, .select hc⟩
  | r :: rs, h => exact ⟨_, .select h, .select hc⟩

/-- The rule of a state reads what the automaton reads from that state on, with at most `2 k + 3` calls for each character. -/
theorem automaton_runs (hE : ∀ q < a.states, E.refs[q]? = some (a.rule q)) (hn : ∀ q c, q < a.states → a.next q c < a.states)
    (ha : a.alphabet.Nodup) : ∀ (s : Str) {q : Nat}, q < a.states → ∀ off i, ∃ o tr m d,
      Run E (.rule (a.rule q)) ⟨s, off⟩ i o i tr ∧ Counts E (.rule (a.rule q)) ⟨s, off⟩ i m d ∧
      m ≤ (2 * a.alphabet.length + 3) * (s.length + 1) ∧ GivesWhole (a.Reads q s) s o := by
  -- the arrows first
  have key : ∀ {q : Nat} {s : Str} {off i : Nat} {o tr m d}, Run E (.sel (a.alphabet.map (a.arrow q))) ⟨s, off⟩ i o i tr →
      Counts E (.sel (a.alphabet.map (a.arrow q))) ⟨s, off⟩ i m d →
      ∃ tr m' d', m' ≤ m + 2 ∧ Counts E (.rule (a.rule q)) ⟨s, off⟩ i m' d' ∧
        Run E (.rule (a.rule q)) ⟨s, off⟩ i (if a.final q = true ∧ o = none then some (0, []) else o) i tr := by
    intro q s off i o tr m d h hc
    obtain ⟨tr', h1, h2⟩ := run_select (id := 0) h hc
    by_cases hf : a.final q = true
    · refine ⟨tr', 1 + (1 + m), 1 + (1 + d), by omega, ?_, ?_⟩
      · simp only [Automaton.rule, hf, if_true]
        exact .optional h2
      · simp only [Automaton.rule, hf, if_true, true_and]
        match o, h1 with
        | none, h1 => exact .optional_none h1
        | some x, h1 => exact .optional_some h1
    · refine ⟨tr', 1 + m, 1 + d, by omega, ?_, ?_⟩
      · simpa [Automaton.rule, hf] using h2
      · simpa [Automaton.rule, hf] using h1
  intro s
  induction s with
  | nil =>
    intro q hq off i
    obtain ⟨tr, d, h1, h2⟩ := arrows_none (E := E) (a := a) (q := q) (p := ⟨[], off⟩) (i := i) (cs := a.alphabet) fun c _ => arrow_end
    obtain ⟨tr', m, d', hm, h3, h4⟩ := key h1 h2
    refine ⟨_, _, _, _, h4, h3, by simp; omega, ?_⟩
    by_cases hf : a.final q = true
    · exact .inl ⟨hf, by simp [hf]⟩
    · exact .inr ⟨hf, by simp [hf]⟩
  | cons c s ih =>
    intro q hq off i
    by_cases hm : c ∈ a.alphabet
    · obtain ⟨o, tr, k, d, h1, h2, hk, hw⟩ := ih (hn q c hq) (off + 1) i
      have ho : ∀ n ts, o = some (n, ts) → ts = [] := by
        rintro n ts rfl
        rcases hw with ⟨_, hw⟩ | ⟨_, hw⟩
        · cases hw; rfl
        · exact (hw _ _ rfl).2
      obtain ⟨tr', m, d', hm', h3, h4⟩ := arrows_fit (a := a) (hE _ (hn q c hq)) h1 h2 ho ha hm
      obtain ⟨tr'', m', d'', hm'', h5, h6⟩ := key h3 h4
      refine ⟨_, _, _, _, h6, h5, ?_, ?_⟩
      · rw [List.length_cons, Nat.mul_succ]
        omega
      · rcases hw with ⟨hw, rfl⟩ | ⟨hw, hw'⟩
        · exact .inl ⟨⟨hm, hw⟩, by simp⟩
        · refine .inr ⟨fun h => hw h.2, ?_⟩
          match o, hw' with
          | none, _ =>
            intro n ts h
            by_cases hf : a.final q = true
            · simp [hf] at h
              simp [← h.1, ← h.2]
            · simp [hf] at h
          | some x, hw' =>
            intro n ts h
            simp at h
            have := hw' _ _ rfl
            simp only [List.length_cons]
            exact ⟨by omega, h.2⟩
    · obtain ⟨tr, d, h1, h2⟩ := arrows_none (E := E) (a := a) (q := q) (p := ⟨c :: s, off⟩) (i := i) (cs := a.alphabet) fun e he =>
        arrow_other (by rintro rfl; exact hm he)
      obtain ⟨tr', m, d', hm', h3, h4⟩ := key h1 h2
      refine ⟨_, _, _, _, h4, h3, ?_, .inr ⟨fun h => hm h.1, ?_⟩⟩
      · rw [List.length_cons, Nat.mul_succ]
        omega
      · intro n ts h
        by_cases hf : a.final q = true
        · simp [hf] at h
          simp [← h.1, ← h.2]
        · simp [hf] at h

end

end Verif.Props
