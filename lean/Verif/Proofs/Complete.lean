import Verif.Proofs.Sound
import Verif.Proofs.Det
import Verif.Proofs.Fuel
/-
Completeness: when the meaning of the rules assigns an outcome, the parser returns.
Induction on the derivation.  Together with soundness and determinism the parser then returns
exactly the assigned outcome.
-/
namespace Verif
open Spec

/-- The run has a result. -/
def Out.Done (o : Out) : Prop := ∃ res st, o = .ret res st

theorem Out.Done.ne_timeout {o : Out} (h : o.Done) : o ≠ .timeout := by
  obtain ⟨_, _, rfl⟩ := h; simp

/-- A run with a result returns the assigned outcome: success. -/
theorem good_some {E g p i toks s oe start out n ts j tr} (hd : Out.Done out)
    (hg : Good E g p i toks s oe start out) (hr : Run E g p i (some (n, ts)) j tr) :
    ∃ s' st', out = .ret (.ok ⟨start, p.off + n - start⟩ s' (errUpdate (best tr) oe)) st' ∧
      s' ≤ st'.toks.length ∧ st'.toks.take s' = toks.take s ++ ts ∧ st'.ind = E.ind j := by
  obtain ⟨res, st', rfl⟩ := hd
  cases res with
  | ok range s' oe' =>
    obtain ⟨n', ts', j', tr', h1, h2, h3, h4, h5, h6⟩ := hg
    obtain ⟨he, rfl, rfl⟩ := hr.det h1
    simp at he
    obtain ⟨rfl, rfl⟩ := he
    exact ⟨s', st', by rw [h2, h6], h3, h4, h5⟩
  | err e =>
    obtain ⟨j', tr', h1, _⟩ := hg
    simpa using (hr.det h1).1

/-- A run with a result returns the assigned outcome: failure. -/
theorem good_none {E g p i toks s oe start out j tr} (hd : Out.Done out)
    (hg : Good E g p i toks s oe start out) (hr : Run E g p i none j tr) :
    ∃ e st', out = .ret (.err e) st' ∧ some e = errUpdate (best tr) oe ∧
      s ≤ st'.toks.length ∧ st'.toks.take s = toks.take s ∧ st'.ind = E.ind j := by
  obtain ⟨res, st', rfl⟩ := hd
  cases res with
  | ok range s' oe' =>
    obtain ⟨n', ts', j', tr', h1, _⟩ := hg
    simpa using (hr.det h1).1
  | err e =>
    obtain ⟨j', tr', h1, h2, h3, h4, h5⟩ := hg
    obtain ⟨_, rfl, rfl⟩ := hr.det h1
    exact ⟨e, st', rfl, h5, h2, h3, h4⟩

/-- The line closure has a result. -/
def LineOut.Done (o : LineOut) : Prop := ∃ r x, o = .ret r x

/-- The parts of the parser that belong to a goal have a result for all large fuels. -/
def Returns (E : Env) (p : Pos) (i : Nat) : Goal → Prop
  | .rule r => ∀ toks s, s ≤ toks.length →
      ∃ n, ∀ m, n ≤ m → (eval E.L E.refs m r ⟨toks, E.ind i⟩ s p).Done
  | .sel rs => ∀ toks s oe id, s ≤ toks.length →
      ∃ n, ∀ m, n ≤ m → (evalSelect (eval E.L E.refs m) id s p rs oe ⟨toks, E.ind i⟩).Done
  | .seq rs => ∀ toks s oe start, s ≤ toks.length →
      ∃ n, ∀ m, n ≤ m → (evalSequence (eval E.L E.refs m) start rs p s oe ⟨toks, E.ind i⟩).Done
  | .rep r => ∀ toks s oe start opt first, s ≤ toks.length →
      ∃ n, ∀ m, n ≤ m → ∀ f, n ≤ f →
        (evalRepeat (eval E.L E.refs m) r opt start f first p s oe ⟨toks, E.ind i⟩).Done
  | .sepTail r b trail => ∀ toks s oe start opt, s ≤ toks.length →
      ∃ n, ∀ m, n ≤ m → ∀ f, n ≤ f → Out.Done
        (match eval E.L E.refs m b ⟨toks, E.ind i⟩ s p with
        | .ret (.err e) st2 => .ret (.ok (p.subtract start) s (errUpdate (some e) oe)) st2
        | .ret (.ok range2 s2 err2) st2 =>
          evalSeparateBy (eval E.L E.refs m) r b opt trail start f false
            (p.consume range2.length) s2 (errUpdate err2 oe) st2
        | .timeout => .timeout
        | .panic => .panic)
  | .lines r indent id first item => ∀ toks s oe start fl, s ≤ toks.length →
      (indent = true → E.align = true → fl = first) →
      ∃ n, ∀ m, n ≤ m → ∀ f, n ≤ f →
        (evalLines E.L (if indent then lineClosureIndent (eval E.L E.refs m) r
            else lineClosure (eval E.L E.refs m) r) id start f first item p
          ⟨s, oe, fl, ⟨toks, E.ind i⟩⟩).Done
  | .line r indent first => ∀ toks s oe fl, s ≤ toks.length →
      (indent = true → E.align = true → fl = first) →
      ∃ n, ∀ m, n ≤ m →
        ((if indent then lineClosureIndent (eval E.L E.refs m) r
            else lineClosure (eval E.L E.refs m) r) ⟨s, oe, fl, ⟨toks, E.ind i⟩⟩ p).Done

theorem done_ret {res : Res} {st : St} : (Out.ret res st).Done := ⟨_, _, rfl⟩

theorem ret_one {E : Env} {p : Pos} {i : Nat} {r : Rule}
    (h : ∀ n toks s, s ≤ toks.length → (eval E.L E.refs (n + 1) r ⟨toks, E.ind i⟩ s p).Done) :
    Returns E p i (.rule r) := by
  intro toks s hs
  refine ⟨1, fun m hm => ?_⟩
  obtain ⟨m, rfl⟩ : ∃ k, m = k + 1 := ⟨m - 1, by omega⟩
  exact h m toks s hs

theorem done_whitespace (opt id st s p) : (evalWhitespace opt id st s p).Done := by
  unfold evalWhitespace; simp only; split <;> exact done_ret
theorem done_tag (t nt inv prop id st s p) : (evalTag t nt inv prop id st s p).Done := by
  unfold evalTag emitOpt; split <;> split <;> exact done_ret
theorem done_untilAny (any opt prop id st s p) : (evalUntilAny any opt prop id st s p).Done := by
  unfold evalUntilAny emitOpt; simp only; split <;> exact done_ret
theorem done_untilAnyOrWs (any opt prop id st s p) :
    (evalUntilAnyOrWs any opt prop id st s p).Done := by
  unfold evalUntilAnyOrWs emitOpt; simp only; split <;> exact done_ret
theorem done_text (L e prop id st s p) : (evalText L e prop id st s p).Done := by
  unfold evalText emitOpt; split
  · split
    · exact done_ret
    · split <;> exact done_ret
  · exact done_ret
theorem done_number (L prop us id st s p) : (evalNumber L prop us id st s p).Done := by
  unfold evalNumber emitOpt; split
  · split <;> exact done_ret
  · exact done_ret

theorem done_errUpdate (e : RErr) (oe : Option RErr) : errUpdate (some e) oe ≠ none := by
  cases oe with
  | none => simp
  | some o => simp only [errUpdate]; split <;> simp

theorem returns_rule {E : Env} {p : Pos} {i : Nat} {r : Rule} {m n : Nat} {toks : List Tok} {s : Nat}
    (h : ∀ m, n ≤ m → (eval E.L E.refs m r ⟨toks, E.ind i⟩ s p).Done) (hm : n ≤ m) :
    eval E.L E.refs m r ⟨toks, E.ind i⟩ s p = eval E.L E.refs n r ⟨toks, E.ind i⟩ s p :=
  eval_det (h m hm).ne_timeout (h n (Nat.le_refl _)).ne_timeout

/-- A rule that succeeds, for all large fuels. -/
theorem rule_some {E : Env} {p : Pos} {i : Nat} {r : Rule} {n ts j tr} (ih : Returns E p i (.rule r))
    (hr : Run E (.rule r) p i (some (n, ts)) j tr) (toks s) (hs : s ≤ toks.length) :
    ∃ N s' toks', s' ≤ toks'.length ∧ toks'.take s' = toks.take s ++ ts ∧
      ∀ m, N ≤ m → eval E.L E.refs m r ⟨toks, E.ind i⟩ s p =
        .ret (.ok ⟨p.off, n⟩ s' (best tr)) ⟨toks', E.ind j⟩ := by
  obtain ⟨N, hN⟩ := ih toks s hs
  obtain ⟨s', st', he, h1, h2, h3⟩ :=
    good_some (hN N (Nat.le_refl _)) (eval_sound E N r i toks s p hs) hr
  refine ⟨N, s', st'.toks, h1, h2, fun m hm => ?_⟩
  rw [returns_rule hN hm, he, ← good_ret_eta rfl h3]
  simp

/-- A rule that fails, for all large fuels. -/
theorem rule_none {E : Env} {p : Pos} {i : Nat} {r : Rule} {j tr} (ih : Returns E p i (.rule r))
    (hr : Run E (.rule r) p i none j tr) (toks s) (hs : s ≤ toks.length) :
    ∃ N e toks', some e = best tr ∧ s ≤ toks'.length ∧ toks'.take s = toks.take s ∧
      ∀ m, N ≤ m → eval E.L E.refs m r ⟨toks, E.ind i⟩ s p =
        .ret (.err e) ⟨toks', E.ind j⟩ := by
  obtain ⟨N, hN⟩ := ih toks s hs
  obtain ⟨e, st', he, h0, h1, h2, h3⟩ :=
    good_none (hN N (Nat.le_refl _)) (eval_sound E N r i toks s p hs) hr
  refine ⟨N, e, st'.toks, h0, h1, h2, fun m hm => ?_⟩
  rw [returns_rule hN hm, he, ← good_ret_eta rfl h3]

theorem returns_rep_none {E : Env} {p : Pos} {i : Nat} {r : Rule} {j tr}
    (ih : Returns E p i (.rule r)) (hr : Run E (.rule r) p i none j tr) :
    Returns E p i (.rep r) := by
  intro toks s oe start opt first hs
  obtain ⟨N, e, toks', h0, h1, h2, h3⟩ := rule_none ih hr toks s hs
  refine ⟨N + 1, fun m hm f hf => ?_⟩
  obtain ⟨f, rfl⟩ : ∃ k, f = k + 1 := ⟨f - 1, by omega⟩
  simp only [evalRepeat, h3 m (by omega)]
  split <;> exact done_ret

theorem returns_rep_some {E : Env} {p : Pos} {i : Nat} {r : Rule} {n ts j tr}
    (ih : Returns E p i (.rule r)) (hr : Run E (.rule r) p i (some (n, ts)) j tr)
    (ih' : Returns E (adv p n) j (.rep r)) :
    Returns E p i (.rep r) := by
  intro toks s oe start opt first hs
  obtain ⟨N, s', toks', h1, h2, h3⟩ := rule_some ih hr toks s hs
  obtain ⟨N', hN'⟩ := ih' toks' s' (errUpdate (best tr) oe) start opt false h1
  refine ⟨N + N' + 1, fun m hm f hf => ?_⟩
  obtain ⟨f, rfl⟩ : ∃ k, f = k + 1 := ⟨f - 1, by omega⟩
  simp only [evalRepeat, h3 m (by omega)]
  exact hN' m (by omega) f (by omega)

theorem returns_repeat {E : Env} {p : Pos} {i : Nat} {r : Rule} {opt id}
    (ih : Returns E p i (.rep r)) : Returns E p i (.rule (.repeat_ r opt id)) := by
  intro toks s hs
  obtain ⟨N, hN⟩ := ih toks s none p opt true hs
  refine ⟨N + 1, fun m hm => ?_⟩
  obtain ⟨m, rfl⟩ : ∃ k, m = k + 1 := ⟨m - 1, by omega⟩
  exact hN m (by omega) m (by omega)

theorem returns_sep_none {E : Env} {p : Pos} {i : Nat} {r b : Rule} {opt trail id j tr}
    (ih : Returns E p i (.rule r)) (hr : Run E (.rule r) p i none j tr) :
    Returns E p i (.rule (.separateBy r b opt trail id)) := by
  intro toks s hs
  obtain ⟨N, e, toks', h0, h1, h2, h3⟩ := rule_none ih hr toks s hs
  refine ⟨N + 2, fun m hm => ?_⟩
  obtain ⟨m, rfl⟩ : ∃ k, m = k + 2 := ⟨m - 2, by omega⟩
  rw [eval]
  simp only [step]
  rw [evalSeparateBy]
  simp only [h3 (m + 1) (by omega)]
  split <;> exact done_ret

theorem lineItem_done {ev : Ev} {r x p0 p} (hi : x.st.ind.indent + 1 < 2 ^ 32)
    (h : (ev r { x.st with ind := { x.st.ind with indent := x.st.ind.indent + 1 } } x.s p).Done) :
    (lineItem ev r x p0 p).Done := by
  unfold lineItem
  simp only
  rw [if_neg (by omega)]
  obtain ⟨res, st, h⟩ := h
  rw [h]
  cases res <;> exact ⟨_, _, rfl⟩

theorem run_returns {E : Env} {g p i o j tr} (h : Run E g p i o j tr) : Returns E p i g := by
  induction h with
  | ws_ok | ws_fail => exact ret_one fun _ _ _ _ => done_whitespace _ _ _ _ _
  | tag_ok | tag_fail | notTag_ok | notTag_fail =>
    exact ret_one fun _ _ _ _ => done_tag _ _ _ _ _ _ _ _
  | until_ok | until_fail => exact ret_one fun _ _ _ _ => done_untilAny _ _ _ _ _ _ _
  | untilWs_ok | untilWs_fail => exact ret_one fun _ _ _ _ => done_untilAnyOrWs _ _ _ _ _ _ _
  | text_ok | text_none | text_empty | text_bad =>
    exact ret_one fun _ _ _ _ => done_text _ _ _ _ _ _ _
  | num_ok | num_none | num_bad => exact ret_one fun _ _ _ _ => done_number _ _ _ _ _ _ _
  | select_empty => exact ret_one fun _ _ _ _ => done_ret
  | select _ ih =>
    intro toks s hs
    obtain ⟨N, hN⟩ := ih toks s none _ hs
    refine ⟨N + 1, fun m hm => ?_⟩
    obtain ⟨m, rfl⟩ : ∃ k, m = k + 1 := ⟨m - 1, by omega⟩
    exact hN m (by omega)
  | sel_nil =>
    intro toks s oe id hs
    refine ⟨0, fun m _ => ?_⟩
    cases oe <;> exact done_ret
  | sel_here h ih =>
    intro toks s oe id hs
    rename_i x _ _
    obtain ⟨n, ts⟩ := x
    obtain ⟨N, s', toks', h1, h2, h3⟩ := rule_some ih h toks s hs
    refine ⟨N, fun m hm => ?_⟩
    simp only [evalSelect, h3 m hm]
    exact done_ret
  | sel_next h _ ih ih' =>
    intro toks s oe id hs
    obtain ⟨N, e, toks', h0, h1, h2, h3⟩ := rule_none ih h toks s hs
    obtain ⟨N', hN'⟩ := ih' toks' s (errUpdate (some e) oe) id h1
    refine ⟨N + N', fun m hm => ?_⟩
    simp only [evalSelect, h3 m (by omega)]
    exact hN' m (by omega)
  | fast_end h =>
    refine ret_one fun _ _ _ _ => ?_
    simp only [eval, step, evalFastSelect, h]
    exact done_ret
  | fast_miss h hb ht =>
    refine ret_one fun _ _ _ _ => ?_
    simp only [eval, step, evalFastSelect, h, firstByte_eq hb, ht]
    exact done_ret
  | fast_hit h hb ht hr _ ih =>
    intro toks s hs
    obtain ⟨N, hN⟩ := ih toks s hs
    refine ⟨N + 1, fun m hm => ?_⟩
    obtain ⟨m, rfl⟩ : ∃ k, m = k + 1 := ⟨m - 1, by omega⟩
    obtain ⟨res, st, he⟩ := hN m (by omega)
    simp only [eval, step, evalFastSelect, h, firstByte_eq hb, hr, he, ne_eq, ht, not_false_eq_true,
      if_true, Bool.false_eq_true, if_false]
    cases res <;> exact done_ret
  | fastTail_miss h hb ht hr _ ih =>
    intro toks s hs
    obtain ⟨N, hN⟩ := ih toks s hs
    refine ⟨N + 1, fun m hm => ?_⟩
    obtain ⟨m, rfl⟩ : ∃ k, m = k + 1 := ⟨m - 1, by omega⟩
    obtain ⟨res, st, he⟩ := hN m (by omega)
    simp only [eval, step, evalFastSelect, h, firstByte_eq hb, hr, he, ne_eq, ht, not_true_eq_false,
      if_true, if_false]
    cases res <;> exact done_ret
  | fastTail_hit h hb ht hr h' ih =>
    intro toks s hs
    rename_i x _ _
    obtain ⟨n, ts⟩ := x
    obtain ⟨N, s', toks', h1, h2, h3⟩ := rule_some ih h' toks s hs
    refine ⟨N + 1, fun m hm => ?_⟩
    obtain ⟨m, rfl⟩ : ∃ k, m = k + 1 := ⟨m - 1, by omega⟩
    simp only [eval, step, evalFastSelect, h, firstByte_eq hb, hr, h3 m (by omega), ne_eq, ht,
      not_false_eq_true, if_true]
    exact done_ret
  | fastTail_next h hb ht hr h' hr' _ ih ih' =>
    intro toks s hs
    obtain ⟨N, e, toks', h0, h1, h2, h3⟩ := rule_none ih h' toks s hs
    obtain ⟨N', hN'⟩ := ih' toks' s h1
    refine ⟨N + N' + 1, fun m hm => ?_⟩
    obtain ⟨m, rfl⟩ : ∃ k, m = k + 1 := ⟨m - 1, by omega⟩
    obtain ⟨res, st, he⟩ := hN' m (by omega)
    simp only [eval, step, evalFastSelect, h, firstByte_eq hb, hr, hr', h3 m (by omega), ne_eq, ht,
      not_false_eq_true, if_true, he]
    cases res <;> exact done_ret
  | sequence _ ih =>
    intro toks s hs
    obtain ⟨N, hN⟩ := ih toks s none _ hs
    refine ⟨N + 1, fun m hm => ?_⟩
    obtain ⟨m, rfl⟩ : ∃ k, m = k + 1 := ⟨m - 1, by omega⟩
    exact hN m (by omega)
  | seq_nil =>
    intro toks s oe start hs
    exact ⟨0, fun m _ => done_ret⟩
  | seq_fail h ih =>
    intro toks s oe start hs
    obtain ⟨N, e, toks', h0, h1, h2, h3⟩ := rule_none ih h toks s hs
    refine ⟨N, fun m hm => ?_⟩
    simp only [evalSequence, h3 m hm]
    exact done_ret
  | seq_cons h _ ih ih' =>
    intro toks s oe start hs
    obtain ⟨N, s', toks', h1, h2, h3⟩ := rule_some ih h toks s hs
    rename_i tr _ _ _ _
    obtain ⟨N', hN'⟩ := ih' toks' s' (errUpdate (best tr) oe) start h1
    refine ⟨N + N', fun m hm => ?_⟩
    simp only [evalSequence, h3 m (by omega)]
    exact hN' m (by omega)
  | repeat_opt _ ih => exact returns_repeat ih
  | repeat_fail h ih => exact returns_repeat (returns_rep_none ih h)
  | repeat_ok h _ ih ih' => exact returns_repeat (returns_rep_some ih h ih')
  | rep_stop h ih => exact returns_rep_none ih h
  | rep_more h _ ih ih' => exact returns_rep_some ih h ih'
  | sep_none h ih => exact returns_sep_none ih h
  | sep_fail h ih => exact returns_sep_none ih h
  | sep_first h _ ih ih' =>
    intro toks s hs
    obtain ⟨N, s', toks', h1, h2, h3⟩ := rule_some ih h toks s hs
    rename_i r b opt trail _ p _ n _ j tr _ _ _ _
    obtain ⟨N', hN'⟩ := ih' toks' s' (errUpdate (best tr) none) p opt h1
    refine ⟨N + N' + 2, fun m hm => ?_⟩
    obtain ⟨m, rfl⟩ : ∃ k, m = k + 2 := ⟨m - 2, by omega⟩
    rw [eval]
    simp only [step]
    rw [evalSeparateBy]
    simp only [h3 (m + 1) (by omega)]
    exact hN' (m + 1) (by omega) m (by omega)
  | sep_stop h ih =>
    intro toks s oe start opt hs
    obtain ⟨N, e, toks', h0, h1, h2, h3⟩ := rule_none ih h toks s hs
    refine ⟨N, fun m hm f _ => ?_⟩
    simp only [h3 m hm]
    exact done_ret
  | sep_trail h h' ih ih' =>
    intro toks s oe start opt hs
    obtain ⟨N, s', toks', h1, h2, h3⟩ := rule_some ih h toks s hs
    obtain ⟨N', e, toks'', g0, g1, g2, g3⟩ := rule_none ih' h' toks' s' h1
    refine ⟨N + N' + 1, fun m hm f hf => ?_⟩
    obtain ⟨f, rfl⟩ : ∃ k, f = k + 1 := ⟨f - 1, by omega⟩
    simp only [h3 m (by omega), evalSeparateBy, consume_eq, g3 m (by omega)]
    split <;> exact done_ret
  | sep_noTrail h h' ih ih' =>
    intro toks s oe start opt hs
    obtain ⟨N, s', toks', h1, h2, h3⟩ := rule_some ih h toks s hs
    obtain ⟨N', e, toks'', g0, g1, g2, g3⟩ := rule_none ih' h' toks' s' h1
    refine ⟨N + N' + 1, fun m hm f hf => ?_⟩
    obtain ⟨f, rfl⟩ : ∃ k, f = k + 1 := ⟨f - 1, by omega⟩
    simp only [h3 m (by omega), evalSeparateBy, consume_eq, g3 m (by omega)]
    split <;> exact done_ret
  | sep_more h h' _ ih ih' ih'' =>
    rename_i tr _ _ _ tr' _ _ _ _
    intro toks s oe start opt hs
    obtain ⟨N, s', toks', h1, h2, h3⟩ := rule_some ih h toks s hs
    obtain ⟨N', s'', toks'', g1, g2, g3⟩ := rule_some ih' h' toks' s' h1
    obtain ⟨N'', hN''⟩ := ih'' toks'' s'' (errUpdate (best tr') (errUpdate (best tr) oe)) start opt g1
    refine ⟨N + N' + N'' + 1, fun m hm f hf => ?_⟩
    obtain ⟨f, rfl⟩ : ∃ k, f = k + 1 := ⟨f - 1, by omega⟩
    simp only [h3 m (by omega), evalSeparateBy, consume_eq, g3 m (by omega), adv_adv]
    have := hN'' m (by omega) f (by omega)
    simp only [consume_eq, adv_adv] at this
    exact this
  | lines _ ih =>
    intro toks s hs
    rename_i p _ _ _ _ _
    obtain ⟨N, hN⟩ := ih toks s none p true hs (fun _ _ => rfl)
    refine ⟨N + 1, fun m hm => ?_⟩
    obtain ⟨m, rfl⟩ : ∃ k, m = k + 1 := ⟨m - 1, by omega⟩
    exact hN m (by omega) m (by omega)
  | lines_done h =>
    intro toks s oe start fl hs hfl
    refine ⟨1, fun m _ f hf => ?_⟩
    obtain ⟨f, rfl⟩ : ∃ k, f = k + 1 := ⟨f - 1, by omega⟩
    simp only [evalLines, h]
    exact done_ret
  | lines_fail h =>
    intro toks s oe start fl hs hfl
    refine ⟨1, fun m _ f hf => ?_⟩
    obtain ⟨f, rfl⟩ : ∃ k, f = k + 1 := ⟨f - 1, by omega⟩
    simp only [evalLines, h]
    exact done_ret
  | lines_stop h h' ih =>
    rename_i r ind id first item p i k j tr
    intro toks s oe start fl hs hfl
    obtain ⟨N, hN⟩ := ih toks s oe fl hs hfl
    refine ⟨N + 1, fun m hm f hf => ?_⟩
    obtain ⟨f, rfl⟩ : ∃ k, f = k + 1 := ⟨f - 1, by omega⟩
    obtain ⟨res, x', he⟩ := hN m (by omega)
    simp only [evalLines, h, consume_eq, he]
    cases res with
    | none => exact done_ret
    | some range =>
      -- impossible: the line was assigned a failure
      exfalso
      have hg : GoodLine E r ind first (adv p k) i toks s oe
          ((if ind then lineClosureIndent (eval E.L E.refs m) r
            else lineClosure (eval E.L E.refs m) r) ⟨s, oe, fl, ⟨toks, E.ind i⟩⟩ (adv p k)) := by
        cases ind with
        | true => exact lineClosureIndent_good (eval_sound E m) r first fl _ i toks s oe hs (hfl rfl)
        | false => exact lineClosure_good (eval_sound E m) r first fl _ i toks s oe hs
      rw [he] at hg
      obtain ⟨n, ts, j', tr', h1, _⟩ := hg
      simpa using (h'.det h1).1
  | lines_more h h' _ ih ih' =>
    rename_i r ind id first item p i k n ts j tr o l tr' _
    intro toks s oe start fl hs hfl
    obtain ⟨N, hN⟩ := ih toks s oe fl hs hfl
    have hgood : ∀ m, GoodLine E r ind first (adv p k) i toks s oe
        ((if ind then lineClosureIndent (eval E.L E.refs m) r
          else lineClosure (eval E.L E.refs m) r) ⟨s, oe, fl, ⟨toks, E.ind i⟩⟩ (adv p k)) := by
      intro m
      cases ind with
      | true => exact lineClosureIndent_good (eval_sound E m) r first fl _ i toks s oe hs (hfl rfl)
      | false => exact lineClosure_good (eval_sound E m) r first fl _ i toks s oe hs
    -- the result of the closure does not depend on the fuel
    have hconst : ∀ m, N ≤ m →
        (if ind then lineClosureIndent (eval E.L E.refs m) r
          else lineClosure (eval E.L E.refs m) r) ⟨s, oe, fl, ⟨toks, E.ind i⟩⟩ (adv p k) =
        (if ind then lineClosureIndent (eval E.L E.refs N) r
          else lineClosure (eval E.L E.refs N) r) ⟨s, oe, fl, ⟨toks, E.ind i⟩⟩ (adv p k) := by
      intro m hm
      have hle : LineOut.le
          ((if ind then lineClosureIndent (eval E.L E.refs N) r
            else lineClosure (eval E.L E.refs N) r) ⟨s, oe, fl, ⟨toks, E.ind i⟩⟩ (adv p k))
          ((if ind then lineClosureIndent (eval E.L E.refs m) r
            else lineClosure (eval E.L E.refs m) r) ⟨s, oe, fl, ⟨toks, E.ind i⟩⟩ (adv p k)) := by
        cases ind with
        | true => exact lineClosureIndent_mono (eval_le _ _ hm) _ _ _
        | false => exact lineClosure_mono (eval_le _ _ hm) _ _ _
      rcases hle with hle | hle
      · obtain ⟨_, _, he⟩ := hN N (Nat.le_refl _)
        rw [he] at hle; simp at hle
      · exact hle.symm
    obtain ⟨res, x', he⟩ := hN N (Nat.le_refl _)
    have hg := hgood N
    rw [he] at hg
    cases res with
    | none =>
      obtain ⟨j', tr', h1, _⟩ := hg
      simpa using (h'.det h1).1
    | some range =>
      obtain ⟨n', ts', j', tr'', h1, h2, h3, h4, h5, h6, h7⟩ := hg
      obtain ⟨heq, rfl, rfl⟩ := h'.det h1
      simp at heq
      obtain ⟨rfl, rfl⟩ := heq
      obtain ⟨N', hN'⟩ := ih' x'.st.toks x'.s (errUpdate (best tr) oe) start x'.first h3 h7
      have hx : x' = ⟨x'.s, errUpdate (best tr) oe, x'.first, ⟨x'.st.toks, E.ind j⟩⟩ := by
        cases x'; simp at *; simp [← h6, ← h5]
      refine ⟨N + N' + 1, fun m hm f hf => ?_⟩
      obtain ⟨f, rfl⟩ : ∃ k, f = k + 1 := ⟨f - 1, by omega⟩
      simp only [evalLines, h, consume_eq, hconst m (by omega), he, h2, adv_adv]
      rw [hx]
      exact hN' m (by omega) f (by omega)
  | line_plain _ ih =>
    intro toks s oe fl hs hfl
    obtain ⟨N, hN⟩ := ih toks s hs
    refine ⟨N, fun m hm => ?_⟩
    obtain ⟨res, st, he⟩ := hN m hm
    simp only [Bool.false_eq_true, if_false, lineClosure, he]
    cases res <;> exact ⟨_, _, rfl⟩
  | line_shallow h =>
    intro toks s oe fl hs hfl
    refine ⟨0, fun m _ => ?_⟩
    simp only [if_true, lineClosureIndent, Env.ind, eatIndent_of_not h]
    exact ⟨_, _, rfl⟩
  | line_deep ha h hd =>
    rename_i r first p i k
    intro toks s oe fl hs hfl
    refine ⟨0, fun m _ => ?_⟩
    have hc : ¬ (fl = true ∧ E.align = true) := by
      rintro ⟨h1, h2⟩; exact ha ⟨by rw [← hfl rfl h2]; exact h1, h2⟩
    have ht : (p.consume k).tag [' '] = some ⟨p.off + k, 1⟩ := by
      apply tag_of_prefix
      simp only [consume_eq, adv_src]
      cases hq : p.src.drop k with
      | nil => rw [hq] at hd; simp at hd
      | cons c cs => rw [hq] at hd; simp at hd; subst hd; exact ⟨cs, rfl⟩
    simp only [if_true, lineClosureIndent, Env.ind, eatIndent_of_carries h, if_neg hc, ht]
    exact ⟨_, _, rfl⟩
  | line_body ha h hd hi _ ih =>
    rename_i r first p i k o j tr _
    intro toks s oe fl hs hfl
    obtain ⟨N, hN⟩ := ih toks s hs
    refine ⟨N, fun m hm => ?_⟩
    have hc : ¬ (fl = true ∧ E.align = true) := by
      rintro ⟨h1, h2⟩; exact ha ⟨by rw [← hfl rfl h2]; exact h1, h2⟩
    have ht : (p.consume k).tag [' '] = none := by
      apply tag_of_not_prefix
      rintro ⟨cs, hcs⟩
      apply hd
      simp only [consume_eq, adv_src] at hcs
      rw [← hcs]; rfl
    simp only [if_true, lineClosureIndent, Env.ind, eatIndent_of_carries h, if_neg hc, ht]
    exact lineItem_done hi (hN m hm)
  | line_align ha h hm hi _ ih =>
    rename_i r p i k mm o j tr _
    intro toks s oe fl hs hfl
    obtain ⟨N, hN⟩ := ih toks s hs
    refine ⟨N, fun m hm' => ?_⟩
    have hf : fl = true := hfl rfl ha
    obtain ⟨ha1, ha2⟩ := eatAlign_spec E.tab (p.src.drop k)
    have := longest_unique hm ha1
    rw [← this] at ha2
    have hgo : ¬ (i + (eatAlign E.tab (p.src.drop k)).2 ≥ 2 ^ 32) := by rw [ha2]; omega
    simp only [if_true, lineClosureIndent, Env.ind, eatIndent_of_carries h, hf, ha, and_self,
      consume_eq, adv_src, adv_adv, if_neg hgo]
    rw [← this, ha2]
    refine lineItem_done hi ?_
    have := hN m hm'
    simpa [Env.ind, ha] using this
  | node_unresolved => exact ret_one fun _ _ _ _ => done_ret
  | node_fail hr h ih =>
    rename_i name prop ix id p i r j tr
    intro toks s hs
    have hl : (pushOpt prop .startNode p.start ⟨toks, E.ind i⟩ s).2 ≤
        (pushOpt prop .startNode p.start ⟨toks, E.ind i⟩ s).1.toks.length := by
      cases prop with
      | none => exact hs
      | some x => rw [pushOpt_some _ _ _ _ _ hs]; simp; omega
    obtain ⟨N, hN⟩ := ih _ _ hl
    refine ⟨N + 1, fun m hm => ?_⟩
    obtain ⟨m, rfl⟩ : ∃ k, m = k + 1 := ⟨m - 1, by omega⟩
    obtain ⟨res, st, he⟩ := hN m (by omega)
    have hst : (pushOpt prop .startNode p.start ⟨toks, E.ind i⟩ s).1 =
        ⟨(pushOpt prop .startNode p.start ⟨toks, E.ind i⟩ s).1.toks, E.ind i⟩ := by
      cases prop <;> rfl
    rw [← hst] at he
    simp only [eval, step, evalNode, hr, he]
    cases res <;> exact done_ret
  | node_ok hr h ih =>
    rename_i name prop ix id p i r n ts j tr
    intro toks s hs
    have hl : (pushOpt prop .startNode p.start ⟨toks, E.ind i⟩ s).2 ≤
        (pushOpt prop .startNode p.start ⟨toks, E.ind i⟩ s).1.toks.length := by
      cases prop with
      | none => exact hs
      | some x => rw [pushOpt_some _ _ _ _ _ hs]; simp; omega
    obtain ⟨N, hN⟩ := ih _ _ hl
    refine ⟨N + 1, fun m hm => ?_⟩
    obtain ⟨m, rfl⟩ : ∃ k, m = k + 1 := ⟨m - 1, by omega⟩
    obtain ⟨res, st, he⟩ := hN m (by omega)
    have hst : (pushOpt prop .startNode p.start ⟨toks, E.ind i⟩ s).1 =
        ⟨(pushOpt prop .startNode p.start ⟨toks, E.ind i⟩ s).1.toks, E.ind i⟩ := by
      cases prop <;> rfl
    rw [← hst] at he
    simp only [eval, step, evalNode, hr, he]
    cases res <;> exact done_ret
  | optional_none _ ih | optional_some _ ih =>
    intro toks s hs
    obtain ⟨N, hN⟩ := ih toks s hs
    refine ⟨N + 1, fun m hm => ?_⟩
    obtain ⟨m, rfl⟩ : ∃ k, m = k + 1 := ⟨m - 1, by omega⟩
    obtain ⟨res, st, he⟩ := hN m (by omega)
    simp only [eval, step, evalOptional, he]
    cases res <;> exact done_ret
  | not_ok _ ih | not_fail _ ih =>
    intro toks s hs
    obtain ⟨N, hN⟩ := ih toks s hs
    refine ⟨N + 1, fun m hm => ?_⟩
    obtain ⟨m, rfl⟩ : ∃ k, m = k + 1 := ⟨m - 1, by omega⟩
    obtain ⟨res, st, he⟩ := hN m (by omega)
    simp only [eval, step, evalNot, he]
    cases res <;> exact done_ret

/-- Success assigned by the meaning of the rules is what the parser returns. -/
theorem run_some_eval {E : Env} {p : Pos} {i : Nat} {r : Rule} {n ts j tr}
    (hr : Run E (.rule r) p i (some (n, ts)) j tr) (toks s) (hs : s ≤ toks.length) :
    ∃ N s' toks', s' ≤ toks'.length ∧ toks'.take s' = toks.take s ++ ts ∧
      ∀ m, N ≤ m → eval E.L E.refs m r ⟨toks, E.ind i⟩ s p =
        .ret (.ok ⟨p.off, n⟩ s' (best tr)) ⟨toks', E.ind j⟩ :=
  rule_some (run_returns hr) hr toks s hs

/-- Failure assigned by the meaning of the rules is what the parser returns. -/
theorem run_none_eval {E : Env} {p : Pos} {i : Nat} {r : Rule} {j tr}
    (hr : Run E (.rule r) p i none j tr) (toks s) (hs : s ≤ toks.length) :
    ∃ N e toks', some e = best tr ∧ s ≤ toks'.length ∧ toks'.take s = toks.take s ∧
      ∀ m, N ≤ m → eval E.L E.refs m r ⟨toks, E.ind i⟩ s p =
        .ret (.err e) ⟨toks', E.ind j⟩ :=
  rule_none (run_returns hr) hr toks s hs

end Verif
