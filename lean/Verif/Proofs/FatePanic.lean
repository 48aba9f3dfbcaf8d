import Verif.Proofs.Fate
/-
The parser panics exactly when trying comes to a panic.
-/
namespace Verif
open Spec

/-! ### A panic is reached -/

/-- The parts of the parser that belong to a goal panic for all large fuels. -/
def Booms (E : Env) (p : Pos) (i : Nat) : Goal → Prop
  | .rule r => ∀ toks s, s ≤ toks.length →
      ∃ n, ∀ m, n ≤ m → eval E.L E.refs m r ⟨toks, E.ind i⟩ s p = .panic
  | .sel rs => ∀ toks s oe id, s ≤ toks.length →
      ∃ n, ∀ m, n ≤ m → evalSelect (eval E.L E.refs m) id s p rs oe ⟨toks, E.ind i⟩ = .panic
  | .seq rs => ∀ toks s oe start, s ≤ toks.length →
      ∃ n, ∀ m, n ≤ m → evalSequence (eval E.L E.refs m) start rs p s oe ⟨toks, E.ind i⟩ = .panic
  | .rep r => ∀ toks s oe start opt first, s ≤ toks.length →
      ∃ n, ∀ m, n ≤ m → ∀ f, n ≤ f →
        evalRepeat (eval E.L E.refs m) r opt start f first p s oe ⟨toks, E.ind i⟩ = .panic
  | .sepTail r b trail => ∀ toks s oe start opt, s ≤ toks.length →
      ∃ n, ∀ m, n ≤ m → ∀ f, n ≤ f →
        (match eval E.L E.refs m b ⟨toks, E.ind i⟩ s p with
        | .ret (.err e) st2 => .ret (.ok (p.subtract start) s (errUpdate (some e) oe)) st2
        | .ret (.ok range2 s2 err2) st2 =>
          evalSeparateBy (eval E.L E.refs m) r b opt trail start f false
            (p.consume range2.length) s2 (errUpdate err2 oe) st2
        | .timeout => .timeout
        | .panic => .panic) = Out.panic
  | .lines r indent id first item => ∀ toks s oe start fl, s ≤ toks.length →
      (indent = true → E.align = true → fl = first) →
      ∃ n, ∀ m, n ≤ m → ∀ f, n ≤ f →
        evalLines E.L (if indent then lineClosureIndent (eval E.L E.refs m) r
            else lineClosure (eval E.L E.refs m) r) id start f first item p
          ⟨s, oe, fl, ⟨toks, E.ind i⟩⟩ = .panic
  | .line r indent first => ∀ toks s oe fl, s ≤ toks.length →
      (indent = true → E.align = true → fl = first) →
      ∃ n, ∀ m, n ≤ m →
        (if indent then lineClosureIndent (eval E.L E.refs m) r
            else lineClosure (eval E.L E.refs m) r) ⟨s, oe, fl, ⟨toks, E.ind i⟩⟩ p = .panic

theorem booms_one {E : Env} {p : Pos} {i : Nat} {r : Rule}
    (h : ∀ n toks s, s ≤ toks.length → eval E.L E.refs (n + 1) r ⟨toks, E.ind i⟩ s p = .panic) :
    Booms E p i (.rule r) := by
  intro toks s hs
  refine ⟨1, fun m hm => ?_⟩
  obtain ⟨m, rfl⟩ : ∃ k, m = k + 1 := ⟨m - 1, by omega⟩
  exact h m toks s hs

theorem lineItem_panic {ev : Ev} {r x p0 p}
    (h : x.st.ind.indent + 1 < 2 ^ 32 →
      ev r { x.st with ind := { x.st.ind with indent := x.st.ind.indent + 1 } } x.s p = .panic) :
    lineItem ev r x p0 p = .panic := by
  unfold lineItem
  simp only
  split
  · rfl
  · rw [h (by omega)]

theorem crash_booms {E : Env} {x : Site} (h : Crash E x) : Booms E x.p x.i x.g := by
  cases h with
  | table h hb ht hr =>
    refine booms_one fun n toks s hs => ?_
    rename_i tb args tail id p i c cs b bs
    simp only [eval, step, evalFastSelect, h, firstByte_eq hb, hr, ne_eq, ht, not_false_eq_true, if_true]
    cases tail <;> rfl
  | last h hb ht =>
    refine booms_one fun n toks s hs => ?_
    simp only [eval, step, evalFastSelect, h, firstByte_eq hb, ne_eq, ht, not_true_eq_false, if_true, if_false,
      List.getLast?_nil]
  | node hr =>
    refine booms_one fun n toks s hs => ?_
    simp only [eval, step, evalNode, hr]
  | line ha h hd hi =>
    rename_i r first p i k
    intro toks s oe fl hs hfl
    refine ⟨0, fun m _ => ?_⟩
    have hc : ¬ (fl = true ∧ E.align = true) := by
      rintro ⟨h1, h2⟩; exact ha ⟨by rw [← hfl rfl h2]; exact h1, h2⟩
    have ht : (p.consume k).tag [' '] = none := by
      apply tag_of_not_prefix
      rintro ⟨cs, hcs⟩
      apply hd
      simp only [consume_eq, adv_src] at hcs
      rw [← hcs]; rfl
    simp only [if_true, lineClosureIndent, Env.ind, eatIndent_of_carries h, if_neg hc, ht]
    exact lineItem_panic fun h => absurd h hi
  | align ha h hm hi =>
    rename_i r p i k mm
    intro toks s oe fl hs hfl
    refine ⟨0, fun m _ => ?_⟩
    have hf : fl = true := hfl rfl ha
    obtain ⟨ha1, ha2⟩ := eatAlign_spec E.tab (p.src.drop k)
    have := longest_unique hm ha1
    rw [← this] at ha2
    simp only [if_true, lineClosureIndent, Env.ind, eatIndent_of_carries h, hf, ha, and_self,
      consume_eq, adv_src, adv_adv]
    split
    · rfl
    · rw [← this, ha2]
      exact lineItem_panic fun h => absurd h hi

/-- The closure of `lines` returns what the meaning of the rules assigns, for all large fuels. -/
theorem run_line_eval {E : Env} {r : Rule} {ind first : Bool} {p : Pos} {i n : Nat} {ts j tr}
    (hr : Run E (.line r ind first) p i (some (n, ts)) j tr) (toks s oe fl) (hs : s ≤ toks.length)
    (hfl : ind = true → E.align = true → fl = first) :
    ∃ N range x, range.length = n ∧ x.s ≤ x.st.toks.length ∧
      x = ⟨x.s, errUpdate (best tr) oe, x.first, ⟨x.st.toks, E.ind j⟩⟩ ∧
      (ind = true → E.align = true → x.first = false) ∧
      ∀ m, N ≤ m → (if ind then lineClosureIndent (eval E.L E.refs m) r
          else lineClosure (eval E.L E.refs m) r) ⟨s, oe, fl, ⟨toks, E.ind i⟩⟩ p = .ret (some range) x := by
  obtain ⟨N, hN⟩ := run_returns hr toks s oe fl hs hfl
  have hgood : ∀ m, GoodLine E r ind first p i toks s oe
      ((if ind then lineClosureIndent (eval E.L E.refs m) r
        else lineClosure (eval E.L E.refs m) r) ⟨s, oe, fl, ⟨toks, E.ind i⟩⟩ p) := by
    intro m
    cases ind with
    | true => exact lineClosureIndent_good (eval_sound E m) r first fl _ i toks s oe hs (hfl rfl)
    | false => exact lineClosure_good (eval_sound E m) r first fl _ i toks s oe hs
  have hconst : ∀ m, N ≤ m →
      (if ind then lineClosureIndent (eval E.L E.refs m) r
        else lineClosure (eval E.L E.refs m) r) ⟨s, oe, fl, ⟨toks, E.ind i⟩⟩ p =
      (if ind then lineClosureIndent (eval E.L E.refs N) r
        else lineClosure (eval E.L E.refs N) r) ⟨s, oe, fl, ⟨toks, E.ind i⟩⟩ p := by
    intro m hm
    have hle : LineOut.le
        ((if ind then lineClosureIndent (eval E.L E.refs N) r
          else lineClosure (eval E.L E.refs N) r) ⟨s, oe, fl, ⟨toks, E.ind i⟩⟩ p)
        ((if ind then lineClosureIndent (eval E.L E.refs m) r
          else lineClosure (eval E.L E.refs m) r) ⟨s, oe, fl, ⟨toks, E.ind i⟩⟩ p) := by
      cases ind with
      | true => exact lineClosureIndent_mono (eval_le _ _ hm) _ _ _
      | false => exact lineClosure_mono (eval_le _ _ hm) _ _ _
    rcases hle with hle | hle
    · obtain ⟨_, _, he⟩ := hN N (Nat.le_refl _)
      rw [he] at hle; simp at hle
    · exact hle.symm
  obtain ⟨res, x', he⟩ := hN N (Nat.le_refl _)
  have hg := hgood N
  rw [he] at hg
  cases res with
  | none =>
    obtain ⟨j', tr', h1, _⟩ := hg
    simpa using (hr.det h1).1
  | some range =>
    obtain ⟨n', ts', j', tr'', h1, h2, h3, h4, h5, h6, h7⟩ := hg
    obtain ⟨heq, rfl, rfl⟩ := hr.det h1
    simp at heq
    obtain ⟨rfl, rfl⟩ := heq
    refine ⟨N, range, x', h2, h3, ?_, h7, fun m hm => by rw [hconst m hm, he]⟩
    cases x'; simp at *; simp [← h6, ← h5]

theorem doomed_booms {E : Env} {x : Site} (h : Doomed E x) : Booms E x.p x.i x.g := by
  induction h with
  | crash h => exact crash_booms h
  | step h hy ih =>
    cases h with
    | select =>
      intro toks s hs
      obtain ⟨N, hN⟩ := ih toks s none _ hs
      refine ⟨N + 1, fun m hm => ?_⟩
      obtain ⟨m, rfl⟩ : ∃ k, m = k + 1 := ⟨m - 1, by omega⟩
      exact hN m (by omega)
    | sel =>
      intro toks s oe id hs
      obtain ⟨N, hN⟩ := ih toks s hs
      refine ⟨N, fun m hm => ?_⟩
      simp only [evalSelect, hN m hm]
    | sel_next h =>
      intro toks s oe id hs
      obtain ⟨N, e, toks', h0, h1, h2, h3⟩ := run_none_eval h toks s hs
      obtain ⟨N', hN'⟩ := ih toks' s (errUpdate (some e) oe) id h1
      refine ⟨N + N', fun m hm => ?_⟩
      simp only [evalSelect, h3 m (by omega)]
      exact hN' m (by omega)
    | fast_hit h hb ht hr =>
      rename_i tb args tail id p i c cs b bs r
      intro toks s hs
      obtain ⟨N, hN⟩ := ih toks s hs
      refine ⟨N + 1, fun m hm => ?_⟩
      obtain ⟨m, rfl⟩ : ∃ k, m = k + 1 := ⟨m - 1, by omega⟩
      simp only [eval, step, evalFastSelect, h, firstByte_eq hb, hr, hN m (by omega), ne_eq, ht, not_false_eq_true,
        if_true]
      cases tail <;> rfl
    | fast_miss h hb ht hr =>
      intro toks s hs
      obtain ⟨N, hN⟩ := ih toks s hs
      refine ⟨N + 1, fun m hm => ?_⟩
      obtain ⟨m, rfl⟩ : ∃ k, m = k + 1 := ⟨m - 1, by omega⟩
      simp only [eval, step, evalFastSelect, h, firstByte_eq hb, hr, hN m (by omega), ne_eq, ht, not_true_eq_false,
        if_true, if_false]
    | fast_next h hb ht hr h' hr' =>
      intro toks s hs
      obtain ⟨N, e, toks', h0, h1, h2, h3⟩ := run_none_eval h' toks s hs
      obtain ⟨N', hN'⟩ := ih toks' s h1
      refine ⟨N + N' + 1, fun m hm => ?_⟩
      obtain ⟨m, rfl⟩ : ∃ k, m = k + 1 := ⟨m - 1, by omega⟩
      simp only [eval, step, evalFastSelect, h, firstByte_eq hb, hr, hr', h3 m (by omega), ne_eq, ht,
        not_false_eq_true, if_true, hN' m (by omega)]
    | sequence =>
      intro toks s hs
      obtain ⟨N, hN⟩ := ih toks s none _ hs
      refine ⟨N + 1, fun m hm => ?_⟩
      obtain ⟨m, rfl⟩ : ∃ k, m = k + 1 := ⟨m - 1, by omega⟩
      exact hN m (by omega)
    | seq =>
      intro toks s oe start hs
      obtain ⟨N, hN⟩ := ih toks s hs
      refine ⟨N, fun m hm => ?_⟩
      simp only [evalSequence, hN m hm]
    | seq_next h =>
      intro toks s oe start hs
      obtain ⟨N, s', toks', h1, h2, h3⟩ := run_some_eval h toks s hs
      obtain ⟨N', hN'⟩ := ih toks' s' _ start h1
      refine ⟨N + N', fun m hm => ?_⟩
      simp only [evalSequence, h3 m (by omega)]
      exact hN' m (by omega)
    | repeat_ =>
      rename_i opt id p i
      intro toks s hs
      obtain ⟨N, hN⟩ := ih toks s none p opt true hs
      refine ⟨N + 1, fun m hm => ?_⟩
      obtain ⟨m, rfl⟩ : ∃ k, m = k + 1 := ⟨m - 1, by omega⟩
      exact hN m (by omega) m (by omega)
    | rep =>
      intro toks s oe start opt first hs
      obtain ⟨N, hN⟩ := ih toks s hs
      refine ⟨N + 1, fun m hm f hf => ?_⟩
      obtain ⟨f, rfl⟩ : ∃ k, f = k + 1 := ⟨f - 1, by omega⟩
      simp only [evalRepeat, hN m (by omega)]
    | rep_next h =>
      intro toks s oe start opt first hs
      obtain ⟨N, s', toks', h1, h2, h3⟩ := run_some_eval h toks s hs
      obtain ⟨N', hN'⟩ := ih toks' s' _ start opt false h1
      refine ⟨N + N' + 1, fun m hm f hf => ?_⟩
      obtain ⟨f, rfl⟩ : ∃ k, f = k + 1 := ⟨f - 1, by omega⟩
      simp only [evalRepeat, h3 m (by omega)]
      exact hN' m (by omega) f (by omega)
    | sep =>
      intro toks s hs
      obtain ⟨N, hN⟩ := ih toks s hs
      refine ⟨N + 2, fun m hm => ?_⟩
      obtain ⟨m, rfl⟩ : ∃ k, m = k + 2 := ⟨m - 2, by omega⟩
      rw [eval]
      simp only [step]
      rw [evalSeparateBy]
      simp only [hN (m + 1) (by omega)]
    | sep_next h =>
      rename_i r b opt trail id p i n ts j tr
      intro toks s hs
      obtain ⟨N, s', toks', h1, h2, h3⟩ := run_some_eval h toks s hs
      obtain ⟨N', hN'⟩ := ih toks' s' (errUpdate (best tr) none) p opt h1
      refine ⟨N + N' + 2, fun m hm => ?_⟩
      obtain ⟨m, rfl⟩ : ∃ k, m = k + 2 := ⟨m - 2, by omega⟩
      rw [eval]
      simp only [step]
      rw [evalSeparateBy]
      simp only [h3 (m + 1) (by omega)]
      exact hN' (m + 1) (by omega) m (by omega)
    | tail =>
      intro toks s oe start opt hs
      obtain ⟨N, hN⟩ := ih toks s hs
      refine ⟨N, fun m hm f _ => ?_⟩
      simp only [hN m hm]
    | tail_item h =>
      intro toks s oe start opt hs
      obtain ⟨N, s', toks', h1, h2, h3⟩ := run_some_eval h toks s hs
      obtain ⟨N', hN'⟩ := ih toks' s' h1
      refine ⟨N + N' + 1, fun m hm f hf => ?_⟩
      obtain ⟨f, rfl⟩ : ∃ k, f = k + 1 := ⟨f - 1, by omega⟩
      simp only [h3 m (by omega), evalSeparateBy, consume_eq, hN' m (by omega)]
    | tail_next h h' =>
      rename_i tr n ts k tr'
      intro toks s oe start opt hs
      obtain ⟨N, s', toks', h1, h2, h3⟩ := run_some_eval h toks s hs
      obtain ⟨N', s'', toks'', g1, g2, g3⟩ := run_some_eval h' toks' s' h1
      obtain ⟨N'', hN''⟩ := ih toks'' s'' (errUpdate (best tr') (errUpdate (best tr) oe)) start opt g1
      refine ⟨N + N' + N'' + 1, fun m hm f hf => ?_⟩
      obtain ⟨f, rfl⟩ : ∃ k, f = k + 1 := ⟨f - 1, by omega⟩
      simp only [h3 m (by omega), evalSeparateBy, consume_eq, g3 m (by omega), adv_adv]
      have := hN'' m (by omega) f (by omega)
      simp only [consume_eq, adv_adv] at this
      exact this
    | lines =>
      rename_i p i
      intro toks s hs
      obtain ⟨N, hN⟩ := ih toks s none p true hs (fun _ _ => rfl)
      refine ⟨N + 1, fun m hm => ?_⟩
      obtain ⟨m, rfl⟩ : ∃ k, m = k + 1 := ⟨m - 1, by omega⟩
      exact hN m (by omega) m (by omega)
    | lines_line h =>
      intro toks s oe start fl hs hfl
      obtain ⟨N, hN⟩ := ih toks s oe fl hs hfl
      refine ⟨N + 1, fun m hm f hf => ?_⟩
      obtain ⟨f, rfl⟩ : ∃ k, f = k + 1 := ⟨f - 1, by omega⟩
      have := hN m (by omega)
      simp only [evalLines, h, consume_eq, this]
    | lines_next h h' =>
      intro toks s oe start fl hs hfl
      obtain ⟨N, range, x', h2, h3, hx, h7, h8⟩ := run_line_eval h' toks s oe fl hs hfl
      obtain ⟨N', hN'⟩ := ih x'.st.toks x'.s _ start x'.first h3 h7
      refine ⟨N + N' + 1, fun m hm f hf => ?_⟩
      obtain ⟨f, rfl⟩ : ∃ k, f = k + 1 := ⟨f - 1, by omega⟩
      simp only [evalLines, h, consume_eq, h8 m (by omega), h2, adv_adv]
      rw [hx]
      exact hN' m (by omega) f (by omega)
    | line_plain =>
      intro toks s oe fl hs hfl
      obtain ⟨N, hN⟩ := ih toks s hs
      refine ⟨N, fun m hm => ?_⟩
      have := hN m hm
      simp only [Bool.false_eq_true, if_false, lineClosure, this]
    | line_body ha h hd hi =>
      rename_i r first p i k
      intro toks s oe fl hs hfl
      obtain ⟨N, hN⟩ := ih toks s hs
      refine ⟨N, fun m hm => ?_⟩
      have hc : ¬ (fl = true ∧ E.align = true) := by
        rintro ⟨h1, h2⟩; exact ha ⟨by rw [← hfl rfl h2]; exact h1, h2⟩
      have ht : (p.consume k).tag [' '] = none := by
        apply tag_of_not_prefix
        rintro ⟨cs, hcs⟩
        apply hd
        simp only [consume_eq, adv_src] at hcs
        rw [← hcs]; rfl
      simp only [if_true, lineClosureIndent, Env.ind, eatIndent_of_carries h, if_neg hc, ht]
      exact lineItem_panic fun _ => hN m hm
    | line_align ha h hm hi =>
      rename_i r p i k mm
      intro toks s oe fl hs hfl
      obtain ⟨N, hN⟩ := ih toks s hs
      refine ⟨N, fun m hm' => ?_⟩
      have hf : fl = true := hfl rfl ha
      obtain ⟨ha1, ha2⟩ := eatAlign_spec E.tab (p.src.drop k)
      have := longest_unique hm ha1
      rw [← this] at ha2
      have hgo : ¬ (i + (eatAlign E.tab (p.src.drop k)).2 ≥ 2 ^ 32) := by rw [ha2]; omega
      simp only [if_true, lineClosureIndent, Env.ind, eatIndent_of_carries h, hf, ha, and_self,
        consume_eq, adv_src, adv_adv, if_neg hgo]
      rw [← this, ha2]
      refine lineItem_panic fun _ => ?_
      have := hN m hm'
      simpa [Env.ind, ha] using this
    | node hr =>
      rename_i name prop ix id p i r
      intro toks s hs
      have hl : (pushOpt prop .startNode p.start ⟨toks, E.ind i⟩ s).2 ≤
          (pushOpt prop .startNode p.start ⟨toks, E.ind i⟩ s).1.toks.length := by
        cases prop with
        | none => exact hs
        | some x => rw [pushOpt_some _ _ _ _ _ hs]; simp; omega
      obtain ⟨N, hN⟩ := ih _ _ hl
      refine ⟨N + 1, fun m hm => ?_⟩
      obtain ⟨m, rfl⟩ : ∃ k, m = k + 1 := ⟨m - 1, by omega⟩
      have he := hN m (by omega)
      have hst : (pushOpt prop .startNode p.start ⟨toks, E.ind i⟩ s).1 =
          ⟨(pushOpt prop .startNode p.start ⟨toks, E.ind i⟩ s).1.toks, E.ind i⟩ := by
        cases prop <;> rfl
      change eval _ _ m r ⟨_, E.ind i⟩ _ p = _ at he
      rw [← hst] at he
      simp only [eval, step, evalNode, hr, he]
    | optional =>
      intro toks s hs
      obtain ⟨N, hN⟩ := ih toks s hs
      refine ⟨N + 1, fun m hm => ?_⟩
      obtain ⟨m, rfl⟩ : ∃ k, m = k + 1 := ⟨m - 1, by omega⟩
      simp only [eval, step, evalOptional, hN m (by omega)]
    | not =>
      intro toks s hs
      obtain ⟨N, hN⟩ := ih toks s hs
      refine ⟨N + 1, fun m hm => ?_⟩
      obtain ⟨m, rfl⟩ : ∃ k, m = k + 1 := ⟨m - 1, by omega⟩
      simp only [eval, step, evalNot, hN m (by omega)]

/-! ### Every panic is one that trying comes to -/

/-- If the run `out` panics, trying the site comes to a panic. -/
def Faults (E : Env) (g : Goal) (p : Pos) (i : Nat) (out : Out) : Prop := out = .panic → Doomed E ⟨g, p, i⟩

def EvFaults (E : Env) (ev : Ev) : Prop :=
  ∀ r i toks s p, s ≤ toks.length → Faults E (.rule r) p i (ev r ⟨toks, E.ind i⟩ s p)

section
variable {E : Env} {ev : Ev} (hev : EvSound E ev) (hbl : EvFaults E ev)

theorem Faults.step {g g' : Goal} {p p' : Pos} {i i' : Nat} {out : Out} (h : Faults E g' p' i' out)
    (ht : Tries E ⟨g, p, i⟩ ⟨g', p', i'⟩) : Faults E g p i out := fun ho => .step ht (h ho)

include hev in
theorem sound_ok {r i toks s p range s' err st'} (hs : s ≤ toks.length)
    (heq : ev r ⟨toks, E.ind i⟩ s p = .ret (.ok range s' err) st') :
    ∃ n ts j tr, Run E (.rule r) p i (some (n, ts)) j tr ∧ range.length = n ∧
      s' ≤ st'.toks.length ∧ st' = ⟨st'.toks, E.ind j⟩ := by
  have hg := hev r i toks s p hs
  rw [heq] at hg
  obtain ⟨n, ts, j, tr, h1, h2, h3, h4, h5, h6⟩ := hg
  exact ⟨n, ts, j, tr, h1, by rw [h2]; simp, h3, good_ret_eta rfl h5⟩

include hev in
theorem sound_err {r i toks s p e st'} (hs : s ≤ toks.length)
    (heq : ev r ⟨toks, E.ind i⟩ s p = .ret (.err e) st') :
    ∃ j tr, Run E (.rule r) p i none j tr ∧ s ≤ st'.toks.length ∧ st' = ⟨st'.toks, E.ind j⟩ := by
  have hg := hev r i toks s p hs
  rw [heq] at hg
  obtain ⟨j, tr, h1, h2, h3, h4, h5⟩ := hg
  exact ⟨j, tr, h1, h2, good_ret_eta rfl h4⟩

theorem faults_done {g : Goal} {p : Pos} {i : Nat} {out : Out} (h : out.Done) : Faults E g p i out := by
  obtain ⟨_, _, rfl⟩ := h
  nofun

include hev hbl

theorem select_faults (id p) : ∀ rs i toks s oe, s ≤ toks.length →
    Faults E (.sel rs) p i (evalSelect ev id s p rs oe ⟨toks, E.ind i⟩)
  | [], i, toks, s, none, _ => nofun
  | [], i, toks, s, some e, hs => nofun
  | r :: rs, i, toks, s, oe, hs => by
    simp only [evalSelect]
    split
    · nofun
    · rename_i e st' heq
      obtain ⟨j, tr, h1, h2, h4⟩ := sound_err hev hs heq
      rw [h4]
      exact .step (select_faults id p rs j st'.toks s _ h2) (.sel_next h1)
    · nofun
    · rename_i heq
      exact fun _ => .step .sel (hbl _ _ _ _ _ hs heq)

theorem fastSelect_faults (tb args tail id i toks s p) (hs : s ≤ toks.length) :
    Faults E (.rule (.fastSelect tb args tail id)) p i
      (evalFastSelect ev tb args tail id ⟨toks, E.ind i⟩ s p) := by
  unfold evalFastSelect
  split
  · nofun
  · rename_i c cs hsrc
    obtain ⟨b, bs, hb⟩ := utf8_ne_nil c
    simp only [firstByte_eq hb]
    cases tail with
    | false =>
      simp only [Bool.false_eq_true, if_false]
      split
      · rename_i ht
        split
        · rename_i hr
          exact fun _ => .crash (.table hsrc hb ht hr)
        · rename_i r hr
          split
          · nofun
          · nofun
          · nofun
          · rename_i heq
            exact fun _ => .step (.fast_hit hsrc hb ht hr) (hbl _ _ _ _ _ hs heq)
      · nofun
    | true =>
      simp only [if_true]
      split
      · rename_i ht
        split
        · rename_i hr
          exact fun _ => .crash (.table hsrc hb ht hr)
        · rename_i r hr
          split
          · nofun
          · rename_i e st' heq
            obtain ⟨j, tr, h1, h2, h4⟩ := sound_err hev hs heq
            rw [h4]
            split
            · rename_i hr'
              rw [List.getLast?_eq_none_iff] at hr'
              subst hr'
              simp at hr
            · rename_i r' hr'
              split
              · nofun
              · nofun
              · nofun
              · rename_i heq
                exact fun _ => .step (.fast_next hsrc hb ht hr h1 hr') (hbl _ _ _ _ _ h2 heq)
          · nofun
          · rename_i heq
            exact fun _ => .step (.fast_hit hsrc hb ht hr) (hbl _ _ _ _ _ hs heq)
      · rename_i ht
        have ht' : tb b = 255 := by simpa using ht
        split
        · rename_i hr
          rw [List.getLast?_eq_none_iff] at hr
          subst hr
          exact fun _ => .crash (.last hsrc hb ht')
        · rename_i r hr
          split
          · nofun
          · nofun
          · nofun
          · rename_i heq
            exact fun _ => .step (.fast_miss hsrc hb ht' hr) (hbl _ _ _ _ _ hs heq)

theorem sequence_faults (start : Pos) : ∀ rs p i toks s oe, s ≤ toks.length →
    Faults E (.seq rs) p i (evalSequence ev start rs p s oe ⟨toks, E.ind i⟩)
  | [], p, i, toks, s, oe, hs => nofun
  | r :: rs, p, i, toks, s, oe, hs => by
    simp only [evalSequence]
    split
    · rename_i range s' err st' heq
      obtain ⟨n, ts, j, tr, h1, hlen, h3, h5⟩ := sound_ok hev hs heq
      rw [h5, hlen]
      exact .step (sequence_faults start rs (adv p n) j st'.toks s' _ h3) (.seq_next h1)
    · nofun
    · nofun
    · rename_i heq
      exact fun _ => .step .seq (hbl _ _ _ _ _ hs heq)

theorem rep_faults (r opt) (start : Pos) : ∀ fuel first p i toks s oe, s ≤ toks.length →
    Faults E (.rep r) p i (evalRepeat ev r opt start fuel first p s oe ⟨toks, E.ind i⟩)
  | 0, _, _, _, _, _, _, _ => nofun
  | fuel + 1, first, p, i, toks, s, oe, hs => by
    simp only [evalRepeat]
    split
    · rename_i range s' err st' heq
      obtain ⟨n, ts, j, tr, h1, hlen, h3, h5⟩ := sound_ok hev hs heq
      rw [h5, hlen]
      exact .step (rep_faults r opt start fuel false (adv p n) j st'.toks s' _ h3) (.rep_next h1)
    · split <;> nofun
    · nofun
    · rename_i heq
      exact fun _ => .step .rep (hbl _ _ _ _ _ hs heq)

theorem sepTail_faults (r b opt trail) (start : Pos) : ∀ fuel p i toks s oe, s ≤ toks.length →
    Faults E (.sepTail r b trail) p i
      (match ev b ⟨toks, E.ind i⟩ s p with
      | .ret (.err e) st2 => .ret (.ok (p.subtract start) s (errUpdate (some e) oe)) st2
      | .ret (.ok range2 s2 err2) st2 =>
        evalSeparateBy ev r b opt trail start fuel false
          (p.consume range2.length) s2 (errUpdate err2 oe) st2
      | .timeout => .timeout
      | .panic => .panic)
  | fuel, p, i, toks, s, oe, hs => by
    split
    · nofun
    · rename_i range s' err st' heq
      obtain ⟨m, us, j, tr, h1, hlen, h3, h5⟩ := sound_ok hev hs heq
      rw [h5, hlen, consume_eq]
      cases fuel with
      | zero => nofun
      | succ fuel =>
        simp only [evalSeparateBy]
        split
        · split <;> nofun
        · rename_i range2 s2 err2 st2 heq
          obtain ⟨n, ts, k, tr', g1, hlen2, g3, g5⟩ := sound_ok hev h3 heq
          have ih := sepTail_faults r b opt trail start fuel (adv p (m + n)) k st2.toks s2
            (errUpdate err2 (errUpdate err oe)) g3
          rw [← g5] at ih
          rw [hlen2, consume_eq, adv_adv]
          exact .step ih (.tail_next h1 g1)
        · nofun
        · rename_i heq
          exact fun _ => .step (.tail_item h1) (hbl _ _ _ _ _ h3 heq)
    · nofun
    · rename_i heq
      exact fun _ => .step .tail (hbl _ _ _ _ _ hs heq)

theorem separateBy_faults (r b opt trail id fuel i toks s p) (hs : s ≤ toks.length) :
    Faults E (.rule (.separateBy r b opt trail id)) p i
      (evalSeparateBy ev r b opt trail p fuel true p s none ⟨toks, E.ind i⟩) := by
  cases fuel with
  | zero => nofun
  | succ fuel =>
    simp only [evalSeparateBy]
    split
    · split <;> nofun
    · rename_i range s' err st' heq
      obtain ⟨n, ts, j, tr, h1, hlen, h3, h5⟩ := sound_ok hev hs heq
      have ih := sepTail_faults hev hbl r b opt trail p fuel (adv p n) j st'.toks s' (errUpdate err none) h3
      rw [← h5] at ih
      rw [hlen, consume_eq]
      exact .step ih (.sep_next h1)
    · nofun
    · rename_i heq
      exact fun _ => .step .sep (hbl _ _ _ _ _ hs heq)

omit hev in
theorem node_faults (name prop index id i toks s p) (hs : s ≤ toks.length) :
    Faults E (.rule (.node name prop index id)) p i
      (evalNode ev E.refs prop index id ⟨toks, E.ind i⟩ s p) := by
  unfold evalNode
  cases index with
  | none => nofun
  | some ix =>
    simp only
    cases hr : E.refs[ix]? with
    | none => exact fun _ => .crash (.node hr)
    | some r =>
      simp only
      cases prop with
      | none =>
        simp only [pushOpt]
        split
        · nofun
        · nofun
        · nofun
        · rename_i heq
          exact fun _ => .step (.node hr) (hbl _ _ _ _ _ hs heq)
      | some x =>
        rw [pushOpt_some _ _ _ _ _ hs]
        simp only
        have hs1 : s + 1 ≤ (toks.take s ++ [(⟨p.start, .startNode x⟩ : Tok)]).length := by
          simp; omega
        split
        · nofun
        · nofun
        · nofun
        · rename_i heq
          exact fun _ => .step (.node hr) (hbl _ _ _ _ _ hs1 heq)

omit hev in
theorem optional_faults (r id i toks s p) (hs : s ≤ toks.length) :
    Faults E (.rule (.optional r id)) p i (evalOptional ev r ⟨toks, E.ind i⟩ s p) := by
  unfold evalOptional
  split
  · nofun
  · nofun
  · nofun
  · rename_i heq
    exact fun _ => .step .optional (hbl _ _ _ _ _ hs heq)

omit hev in
theorem not_faults (r id i toks s p) (hs : s ≤ toks.length) :
    Faults E (.rule (.not r id)) p i (evalNot ev r id ⟨toks, E.ind i⟩ s p) := by
  unfold evalNot
  split
  · nofun
  · nofun
  · nofun
  · rename_i heq
    exact fun _ => .step .not (hbl _ _ _ _ _ hs heq)

omit hev in
theorem lineClosure_faults (r first fl p i toks s oe) (hs : s ≤ toks.length)
    (h : lineClosure ev r ⟨s, oe, fl, ⟨toks, E.ind i⟩⟩ p = .panic) : Doomed E ⟨.line r false first, p, i⟩ := by
  unfold lineClosure at h
  split at h
  · cases h
  · cases h
  · cases h
  · rename_i heq
    exact .step .line_plain (hbl _ _ _ _ _ hs heq)

omit hev in
theorem lineItem_faults (r) (p0 p : Pos) (i toks s oe fl) (hs : s ≤ toks.length)
    (h : lineItem ev r ⟨s, oe, fl, ⟨toks, E.ind i⟩⟩ p0 p = .panic) :
    ¬ i + 1 < 2 ^ 32 ∨ (i + 1 < 2 ^ 32 ∧ Doomed E ⟨.rule r, p, i + 1⟩) := by
  unfold lineItem at h
  simp only at h
  split at h
  · rename_i hi
    simp only [Env.ind] at hi
    exact .inl (by omega)
  · rename_i hi
    simp only [Env.ind] at hi
    have hind : ({ E.ind i with indent := (E.ind i).indent + 1 } : Indent) = E.ind (i + 1) := rfl
    rw [hind] at h
    split at h
    · cases h
    · cases h
    · cases h
    · rename_i heq
      exact .inr ⟨by omega, hbl _ _ _ _ _ hs heq⟩

omit hev in
theorem lineClosureIndent_faults (r first fl p i toks s oe) (hs : s ≤ toks.length)
    (hfl : E.align = true → fl = first)
    (h : lineClosureIndent ev r ⟨s, oe, fl, ⟨toks, E.ind i⟩⟩ p = .panic) :
    Doomed E ⟨.line r true first, p, i⟩ := by
  unfold lineClosureIndent at h
  split at h
  · cases h
  · rename_i k he
    have hc : Carries E.tab i p.src k := eatIndent_some _ _ _ _ he
    simp only at h
    split at h
    · rename_i hcond
      have ha : E.align = true := hcond.2
      have hf : first = true := by rw [← hfl ha]; exact hcond.1
      subst hf
      obtain ⟨hm, hw⟩ := eatAlign_spec E.tab (p.src.drop k)
      have e1 : (E.ind i).tabSpaces = E.tab := rfl
      simp only [e1, consume_eq, adv_adv] at h
      split at h
      · rename_i hi
        have hi' : i + (eatAlign E.tab (p.src.drop k)).2 ≥ 2 ^ 32 := hi
        exact .crash (.align ha hc hm (by rw [← hw]; omega))
      · have := lineItem_faults hbl r p (adv p (k + (eatAlign E.tab (p.src.drop k)).1))
          (i + (eatAlign E.tab (p.src.drop k)).2) toks s oe false hs h
        rw [hw] at this
        rcases this with h | ⟨hi, h⟩
        · exact .crash (.align ha hc hm h)
        · exact .step (.line_align ha hc hm hi) h
    · rename_i hcond
      have ha : ¬ (first = true ∧ E.align = true) := by
        rintro ⟨h1, h2⟩
        exact hcond ⟨by rw [hfl h2]; exact h1, h2⟩
      split at h
      · cases h
      · rename_i ht
        have hd : (p.src.drop k).head? ≠ some ' ' := by
          intro h
          apply tag_none ht
          have : (p.consume k).src = p.src.drop k := rfl
          rw [this]
          cases hq : p.src.drop k with
          | nil => rw [hq] at h; simp at h
          | cons c cs => rw [hq] at h; simp at h; subst h; exact ⟨cs, rfl⟩
        rcases lineItem_faults hbl r p (p.consume k) i toks s oe fl hs h with h | ⟨hi, h⟩
        · exact .crash (.line ha hc hd h)
        · exact .step (.line_body ha hc hd hi) h

theorem lines_faults (r indent id) (start : Pos) : ∀ fuel first item p i toks s oe fl,
    s ≤ toks.length → (indent = true → E.align = true → fl = first) →
    Faults E (.lines r indent id first item) p i
      (evalLines E.L (if indent then lineClosureIndent ev r else lineClosure ev r) id start
        fuel first item p ⟨s, oe, fl, ⟨toks, E.ind i⟩⟩)
  | 0, _, _, _, _, _, _, _, _, _, _ => nofun
  | fuel + 1, first, item, p, i, toks, s, oe, fl, hs, hfl => by
    simp only [evalLines]
    split
    · nofun
    · nofun
    · rename_i k h
      rw [consume_eq]
      have hg : GoodLine E r indent first (adv p k) i toks s oe
          ((if indent then lineClosureIndent ev r else lineClosure ev r)
            ⟨s, oe, fl, ⟨toks, E.ind i⟩⟩ (adv p k)) := by
        cases indent with
        | true => exact lineClosureIndent_good hev r first fl _ i toks s oe hs (hfl rfl)
        | false => exact lineClosure_good hev r first fl _ i toks s oe hs
      split
      · nofun
      · rename_i range x' heq
        rw [heq] at hg
        obtain ⟨n, ts, j, tr, h1, h2, h3, h4, h5, h6, h7⟩ := hg
        rw [h2, consume_eq, adv_adv]
        have hx : x' = ⟨x'.s, errUpdate (best tr) oe, x'.first, ⟨x'.st.toks, E.ind j⟩⟩ := by
          cases x'; simp at *; simp [← h6, ← h5]
        rw [hx]
        exact .step (lines_faults r indent id start fuel false _ (adv p (k + n)) j x'.st.toks x'.s _
          x'.first h3 h7) (.lines_next h h1)
      · nofun
      · rename_i heq
        refine fun _ => .step (.lines_line h) ?_
        cases indent with
        | true => exact lineClosureIndent_faults hbl r first fl _ i toks s oe hs (hfl rfl) heq
        | false => exact lineClosure_faults hbl r first fl _ i toks s oe hs heq

theorem step_faults (fuel : Nat) : EvFaults E (step E.L E.refs ev fuel) := by
  intro r i toks s p hs
  cases r with
  | whitespace => exact faults_done (done_whitespace _ _ _ _ _)
  | tag => exact faults_done (done_tag _ _ _ _ _ _ _ _)
  | untilAny => exact faults_done (done_untilAny _ _ _ _ _ _ _)
  | untilAnyOrWs => exact faults_done (done_untilAnyOrWs _ _ _ _ _ _ _)
  | text => exact faults_done (done_text _ _ _ _ _ _ _)
  | number => exact faults_done (done_number _ _ _ _ _ _ _)
  | select args id => exact (select_faults hev hbl id p args i toks s none hs).step .select
  | fastSelect => exact fastSelect_faults hev hbl _ _ _ _ _ _ _ _ hs
  | sequence args id => exact (sequence_faults hev hbl p args p i toks s none hs).step .sequence
  | separateBy => exact separateBy_faults hev hbl _ _ _ _ _ _ _ _ _ _ hs
  | repeat_ r opt id => exact (rep_faults hev hbl r opt p fuel true p i toks s none hs).step .repeat_
  | lines r indent id =>
    exact (lines_faults hev hbl r indent id p fuel true [] p i toks s none true hs (fun _ _ => rfl)).step .lines
  | node => exact node_faults hbl _ _ _ _ _ _ _ _ hs
  | optional => exact optional_faults hbl _ _ _ _ _ _ hs
  | not => exact not_faults hbl _ _ _ _ _ _ hs

end

theorem eval_faults (E : Env) : ∀ n, EvFaults E (eval E.L E.refs n)
  | 0 => fun _ _ _ _ _ _ => nofun
  | n + 1 => step_faults (eval_sound E n) (eval_faults E n) n

/-- Parsing a rule panics, for some fuel or for all large ones, exactly when trying it comes to a panic. -/
theorem doomed_iff_panic {E : Env} {r : Rule} {p : Pos} {i : Nat} {toks : List Tok} {s : Nat}
    (hs : s ≤ toks.length) :
    Doomed E ⟨.rule r, p, i⟩ ↔ ∃ n, eval E.L E.refs n r ⟨toks, E.ind i⟩ s p = .panic := by
  constructor
  · intro h
    obtain ⟨n, hn⟩ := doomed_booms h toks s hs
    exact ⟨n, hn n (Nat.le_refl _)⟩
  · rintro ⟨n, hn⟩
    exact eval_faults E n r i toks s p hs hn

end Verif
