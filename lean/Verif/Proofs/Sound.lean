import Verif.Proofs.Basics
/-
Soundness: whatever the parser returns is what the meaning of the rules assigns.
Induction on the fuel.
-/
namespace Verif
open Spec

/-- The indentation settings with current indentation `i`. -/
def Spec.Env.ind (E : Env) (i : Nat) : Indent := ⟨i, E.align, E.tab⟩

/-- The result `out`, obtained from the vector `toks` in state `s` with the best error so far `oe`
by a parser that started at offset `start` and is now at `p`, is the one assigned to the goal `g`. -/
def Good (E : Env) (g : Goal) (p : Pos) (i : Nat) (toks : List Tok) (s : Nat) (oe : Option RErr)
    (start : Nat) : Out → Prop
  | .ret (.ok range s' oe') st' => ∃ n ts j tr, Run E g p i (some (n, ts)) j tr ∧
      range = ⟨start, p.off + n - start⟩ ∧ s' ≤ st'.toks.length ∧
      st'.toks.take s' = toks.take s ++ ts ∧ st'.ind = E.ind j ∧ oe' = errUpdate (best tr) oe
  | .ret (.err e) st' => ∃ j tr, Run E g p i none j tr ∧ s ≤ st'.toks.length ∧
      st'.toks.take s = toks.take s ∧ st'.ind = E.ind j ∧ some e = errUpdate (best tr) oe
  | _ => True

/-- A parser all of whose results are the assigned ones. -/
def EvSound (E : Env) (ev : Ev) : Prop :=
  ∀ r i toks s p, s ≤ toks.length →
    Good E (.rule r) p i toks s none p.off (ev r ⟨toks, E.ind i⟩ s p)

theorem take_keep {toks toks1 toks2 : List Tok} {s s1 : Nat} {ts : List Tok} (hs : s ≤ toks.length)
    (h1l : s1 ≤ toks1.length) (h1 : toks1.take s1 = toks.take s ++ ts)
    (h2l : s1 ≤ toks2.length) (h2 : toks2.take s1 = toks1.take s1) :
    s ≤ toks2.length ∧ toks2.take s = toks.take s := by
  have hl := congrArg List.length h1
  simp [Nat.min_eq_left hs, Nat.min_eq_left h1l] at hl
  refine ⟨by omega, ?_⟩
  have : toks2.take s = (toks2.take s1).take s := by rw [List.take_take, Nat.min_eq_left (by omega)]
  rw [this, h2, h1, List.take_append_of_le_length (by simp; omega), List.take_take, Nat.min_self]

section
variable {E : Env}

theorem good_ret_eta {E : Env} {toks : List Tok} {i : Nat} {st : St} (h1 : st.toks = toks)
    (h2 : st.ind = E.ind i) : st = ⟨toks, E.ind i⟩ := by
  cases st; simp_all

theorem emitOpt_good {g p i toks s prop mk n} (hs : s ≤ toks.length)
    (h : Run E g p i (some (n, named prop p.off n mk)) i []) :
    Good E g p i toks s none p.off (emitOpt prop mk ⟨p.off, n⟩ ⟨toks, E.ind i⟩ s) := by
  unfold emitOpt
  cases prop with
  | none =>
    refine ⟨n, _, i, [], h, by simp, hs, by simp [pushOpt, named], rfl, rfl⟩
  | some x =>
    rw [pushOpt_some _ _ _ _ _ hs]
    refine ⟨n, _, i, [], h, by simp, by simp; omega, ?_, rfl, rfl⟩
    simp only [named]
    rw [List.take_of_length_le (by simp; omega)]

theorem fail_good {g p i toks s e} (hs : s ≤ toks.length) (h : Run E g p i none i [e]) :
    Good E g p i toks s none p.off (.ret (.err e) ⟨toks, E.ind i⟩) :=
  ⟨i, [e], h, hs, rfl, rfl, rfl⟩

theorem whitespace_good (opt id i toks s p) (hs : s ≤ toks.length) :
    Good E (.rule (.whitespace opt id)) p i toks s none p.off
      (evalWhitespace opt id ⟨toks, E.ind i⟩ s p) := by
  have hl := whitespace_longest p
  have hr : p.whitespace = ⟨p.off, p.whitespace.length⟩ := rfl
  unfold evalWhitespace
  simp only
  split
  · rename_i h
    rw [h.1] at hl
    rw [hr, h.1, h.2]
    exact fail_good hs (.ws_fail hl)
  · rename_i h
    refine ⟨p.whitespace.length, [], i, [], .ws_ok hl ?_, ?_, hs, by simp, rfl, rfl⟩
    · intro h0
      cases opt with
      | true => rfl
      | false => exact absurd ⟨h0, rfl⟩ h
    · rw [hr]; simp

theorem tag_good (t nt inv prop id i toks s p) (hs : s ≤ toks.length) :
    Good E (.rule (.tag t nt inv prop id)) p i toks s none p.off
      (evalTag t nt inv prop id ⟨toks, E.ind i⟩ s p) := by
  unfold evalTag
  split
  · rename_i range h
    obtain ⟨h1, rfl⟩ := tag_some h
    cases nt with
    | true => exact fail_good hs (.notTag_fail h1)
    | false => exact emitOpt_good hs (.tag_ok h1)
  · rename_i h
    have h1 := tag_none h
    cases nt with
    | true => exact emitOpt_good hs (.notTag_ok h1)
    | false => exact fail_good hs (.tag_fail h1)

theorem untilAny_good (any opt prop id i toks s p) (hs : s ≤ toks.length) :
    Good E (.rule (.untilAny any opt prop id)) p i toks s none p.off
      (evalUntilAny any opt prop id ⟨toks, E.ind i⟩ s p) := by
  have hl := untilAny_longest p any
  have hr : p.untilAny any = ⟨p.off, (p.untilAny any).length⟩ := rfl
  unfold evalUntilAny
  simp only
  split
  · rename_i h
    rw [h.1] at hl
    rw [hr, h.1, h.2]
    exact fail_good hs (.until_fail hl)
  · rename_i h
    rw [hr]
    exact emitOpt_good hs (.until_ok hl (by
      intro h0
      cases opt with
      | true => rfl
      | false => exact absurd ⟨h0, rfl⟩ h))

theorem untilAnyOrWs_good (any opt prop id i toks s p) (hs : s ≤ toks.length) :
    Good E (.rule (.untilAnyOrWs any opt prop id)) p i toks s none p.off
      (evalUntilAnyOrWs any opt prop id ⟨toks, E.ind i⟩ s p) := by
  have hl := untilAnyOrWs_longest p any
  have hr : p.untilAnyOrWs any = ⟨p.off, (p.untilAnyOrWs any).length⟩ := rfl
  unfold evalUntilAnyOrWs
  simp only
  split
  · rename_i h
    rw [h.1] at hl
    rw [hr, h.1, h.2]
    exact fail_good hs (.untilWs_fail hl)
  · rename_i h
    rw [hr]
    exact emitOpt_good hs (.untilWs_ok hl (by
      intro h0
      cases opt with
      | true => rfl
      | false => exact absurd ⟨h0, rfl⟩ h))

theorem text_good (empty prop id i toks s p) (hs : s ≤ toks.length) :
    Good E (.rule (.text empty prop id)) p i toks s none p.off
      (evalText E.L empty prop id ⟨toks, E.ind i⟩ s p) := by
  unfold evalText
  split
  · rename_i n h
    split
    · rename_i h2
      rw [h2.2] at h ⊢
      rw [h2.1]
      exact fail_good hs (.text_empty h)
    · rename_i h2
      have h2' : n = 2 → empty = true := by intro h0; cases empty <;> simp_all
      split
      · rename_i r e ht
        exact fail_good hs (.text_bad h h2' ht)
      · rename_i t ht
        exact emitOpt_good hs (.text_ok h h2' ht)
  · rename_i h
    exact fail_good hs (.text_none h)

theorem number_good (prop us id i toks s p) (hs : s ≤ toks.length) :
    Good E (.rule (.number prop us id)) p i toks s none p.off
      (evalNumber E.L prop us id ⟨toks, E.ind i⟩ s p) := by
  unfold evalNumber
  split
  · rename_i n h
    split
    · rename_i e hv
      exact fail_good hs (.num_bad h hv)
    · rename_i v hv
      exact emitOpt_good hs (.num_ok h hv)
  · rename_i h
    exact fail_good hs (.num_none h)

variable {ev : Ev} (hev : EvSound E ev)
include hev

theorem select_good (id p) : ∀ rs i toks s oe, s ≤ toks.length → (rs = [] → oe ≠ none) →
    Good E (.sel rs) p i toks s oe p.off (evalSelect ev id s p rs oe ⟨toks, E.ind i⟩)
  | [], i, toks, s, none, _, h => absurd rfl (h rfl)
  | [], i, toks, s, some e, hs, _ => ⟨i, [], .sel_nil, hs, rfl, rfl, rfl⟩
  | r :: rs, i, toks, s, oe, hs, _ => by
    simp only [evalSelect]
    have hg := hev r i toks s p hs
    split
    · rename_i range s' err st' heq
      rw [heq] at hg
      obtain ⟨n, ts, j, tr, h1, h2, h3, h4, h5, h6⟩ := hg
      refine ⟨n, ts, j, tr, .sel_here h1, ?_, h3, h4, h5, ?_⟩
      · rw [h2]; simp [Pos.peek]
      · rw [h6]; rfl
    · rename_i e st' heq
      rw [heq] at hg
      obtain ⟨j, tr, h1, h2, h3, h4, h5⟩ := hg
      rw [good_ret_eta rfl h4]
      have ih := select_good id p rs j st'.toks s (errUpdate (some e) oe) h2
        (by intro _; cases oe with
          | none => simp
          | some o => simp only [errUpdate]; split <;> simp)
      have h5' : some e = best tr := by rw [h5]; rfl
      cases hout : evalSelect ev id s p rs (errUpdate (some e) oe) ⟨st'.toks, E.ind j⟩ with
      | timeout => trivial
      | panic => trivial
      | ret res st'' =>
        rw [hout] at ih
        cases res with
        | ok range s' oe' =>
          obtain ⟨n, ts, k, tr', g1, g2, g3, g4, g5, g6⟩ := ih
          refine ⟨n, ts, k, tr ++ tr', .sel_next h1 g1, g2, g3, by rw [g4, h3], g5, ?_⟩
          rw [g6, best_append, h5', errUpdate_assoc]
        | err e' =>
          obtain ⟨k, tr', g1, g2, g3, g4, g5⟩ := ih
          refine ⟨k, tr ++ tr', .sel_next h1 g1, g2, by rw [g3, h3], g4, ?_⟩
          rw [g5, best_append, h5', errUpdate_assoc]
    · trivial
    · trivial

theorem fastSelect_good (tb args tail id i toks s p) (hs : s ≤ toks.length) :
    Good E (.rule (.fastSelect tb args tail id)) p i toks s none p.off
      (evalFastSelect ev tb args tail id ⟨toks, E.ind i⟩ s p) := by
  unfold evalFastSelect
  split
  · rename_i hsrc
    exact fail_good hs (.fast_end hsrc)
  · rename_i c cs hsrc
    obtain ⟨b, bs, hb⟩ := utf8_ne_nil c
    simp only [firstByte_eq hb]
    cases tail with
    | false =>
      simp only [Bool.false_eq_true, if_false]
      split
      · rename_i ht
        split
        · trivial
        · rename_i r hr
          have hg := hev r i toks s p hs
          split
          · rename_i range s' err st' heq
            rw [heq] at hg
            obtain ⟨n, ts, j, tr, h1, h2, h3, h4, h5, h6⟩ := hg
            refine ⟨n, ts, j, tr, .fast_hit hsrc hb ht hr h1, ?_, h3, h4, h5, h6⟩
            rw [h2]; simp [Pos.peek]
          · rename_i e st' heq
            rw [heq] at hg
            obtain ⟨j, tr, h1, h2, h3, h4, h5⟩ := hg
            exact ⟨j, tr, .fast_hit hsrc hb ht hr h1, h2, h3, h4, h5⟩
          · trivial
          · trivial
      · rename_i ht
        exact fail_good hs (.fast_miss hsrc hb (by simpa using ht))
    | true =>
      simp only [if_true]
      split
      · rename_i ht
        split
        · trivial
        · rename_i r hr
          have hg := hev r i toks s p hs
          split
          · rename_i range s' err st' heq
            rw [heq] at hg
            obtain ⟨n, ts, j, tr, h1, h2, h3, h4, h5, h6⟩ := hg
            refine ⟨n, ts, j, tr, .fastTail_hit hsrc hb ht hr h1, ?_, h3, h4, h5, h6⟩
            rw [h2]; simp [Pos.peek]
          · rename_i e st' heq
            rw [heq] at hg
            obtain ⟨j, tr, h1, h2, h3, h4, h5⟩ := hg
            rw [good_ret_eta rfl h4]
            split
            · trivial
            · rename_i r' hr'
              have hg' := hev r' j st'.toks s p h2
              split
              · rename_i range s' err st'' heq
                rw [heq] at hg'
                obtain ⟨n, ts, k, tr', g1, g2, g3, g4, g5, g6⟩ := hg'
                refine ⟨n, ts, k, tr ++ tr', .fastTail_next hsrc hb ht hr h1 hr' g1, ?_, g3,
                  by rw [g4, h3], g5, ?_⟩
                · rw [g2]; simp [Pos.peek]
                · rw [g6, best_append, errUpdate_none_right, errUpdate_none_right, h5]; simp
              · rename_i e' st'' heq
                rw [heq] at hg'
                obtain ⟨k, tr', g1, g2, g3, g4, g5⟩ := hg'
                refine ⟨k, tr ++ tr', .fastTail_next hsrc hb ht hr h1 hr' g1, g2,
                  by rw [g3, h3], g4, ?_⟩
                rw [some_retErr, g5, best_append, errUpdate_none_right, errUpdate_none_right, h5]
                simp
              · trivial
              · trivial
          · trivial
          · trivial
      · rename_i ht
        have ht' : tb b = 255 := by simpa using ht
        split
        · trivial
        · rename_i r hr
          have hg := hev r i toks s p hs
          split
          · rename_i range s' err st' heq
            rw [heq] at hg
            obtain ⟨n, ts, j, tr, h1, h2, h3, h4, h5, h6⟩ := hg
            refine ⟨n, ts, j, tr, .fastTail_miss hsrc hb ht' hr h1, ?_, h3, h4, h5, h6⟩
            rw [h2]; simp [Pos.peek]
          · rename_i e st' heq
            rw [heq] at hg
            obtain ⟨j, tr, h1, h2, h3, h4, h5⟩ := hg
            exact ⟨j, tr, .fastTail_miss hsrc hb ht' hr h1, h2, h3, h4, h5⟩
          · trivial
          · trivial

omit hev in
/-- What a goal gives after a first part that succeeded. -/
theorem good_cons {g g' : Goal} {p : Pos} {i j : Nat} {toks : List Tok} {s : Nat}
    {oe : Option RErr} {start : Nat} {n ts tr s1} {toks1 : List Tok} {out : Out}
    (hs : s ≤ toks.length) (hl : s1 ≤ toks1.length) (ht : toks1.take s1 = toks.take s ++ ts)
    (hrun : ∀ o k tr', Run E g' (adv p n) j o k tr' → Run E g p i (before n ts o) k (tr ++ tr'))
    (h : Good E g' (adv p n) j toks1 s1 (errUpdate (best tr) oe) start out) :
    Good E g p i toks s oe start out := by
  cases out with
  | timeout => trivial
  | panic => trivial
  | ret res st'' =>
    cases res with
    | ok range s' oe' =>
      obtain ⟨m, us, k, tr', g1, g2, g3, g4, g5, g6⟩ := h
      refine ⟨n + m, ts ++ us, k, tr ++ tr', hrun _ _ _ g1, ?_, g3, ?_, g5, ?_⟩
      · rw [g2]; simp [Nat.add_assoc]
      · rw [g4, ht, List.append_assoc]
      · rw [g6, best_append, errUpdate_assoc]
    | err e =>
      obtain ⟨k, tr', g1, g2, g3, g4, g5⟩ := h
      obtain ⟨q1, q2⟩ := take_keep hs hl ht g2 g3
      refine ⟨k, tr ++ tr', hrun _ _ _ g1, q1, q2, g4, ?_⟩
      rw [g5, best_append, errUpdate_assoc]

theorem sequence_good (start : Pos) : ∀ rs p i toks s oe, s ≤ toks.length →
    Good E (.seq rs) p i toks s oe start.off
      (evalSequence ev start rs p s oe ⟨toks, E.ind i⟩)
  | [], p, i, toks, s, oe, hs =>
    ⟨0, [], i, [], .seq_nil, by simp [Pos.subtract], hs, by simp, rfl, by simp⟩
  | r :: rs, p, i, toks, s, oe, hs => by
    simp only [evalSequence]
    have hg := hev r i toks s p hs
    split
    · rename_i range s' err st' heq
      rw [heq] at hg
      obtain ⟨n, ts, j, tr, h1, h2, h3, h4, h5, h6⟩ := hg
      rw [good_ret_eta rfl h5]
      have hlen : range.length = n := by rw [h2]; simp
      rw [hlen, h6]
      exact good_cons hs h3 h4 (fun _ _ _ h' => .seq_cons h1 h')
        (sequence_good start rs (adv p n) j st'.toks s' _ h3)
    · rename_i e st' heq
      rw [heq] at hg
      obtain ⟨j, tr, h1, h2, h3, h4, h5⟩ := hg
      refine ⟨j, tr, .seq_fail h1, h2, h3, h4, ?_⟩
      rw [some_retErr, h5]; simp
    · trivial
    · trivial

theorem rep_good (r opt) (start : Pos) : ∀ fuel p i toks s oe, s ≤ toks.length →
    Good E (.rep r) p i toks s oe start.off
      (evalRepeat ev r opt start fuel false p s oe ⟨toks, E.ind i⟩)
  | 0, _, _, _, _, _, _ => trivial
  | fuel + 1, p, i, toks, s, oe, hs => by
    simp only [evalRepeat]
    have hg := hev r i toks s p hs
    split
    · rename_i range s' err st' heq
      rw [heq] at hg
      obtain ⟨n, ts, j, tr, h1, h2, h3, h4, h5, h6⟩ := hg
      rw [good_ret_eta rfl h5]
      have hlen : range.length = n := by rw [h2]; simp
      rw [hlen, h6]
      exact good_cons hs h3 h4 (fun _ _ _ h' => .rep_more h1 h')
        (rep_good r opt start fuel (adv p n) j st'.toks s' _ h3)
    · rename_i e st' heq
      rw [heq] at hg
      obtain ⟨j, tr, h1, h2, h3, h4, h5⟩ := hg
      simp only [Bool.false_eq_true, false_and, if_false]
      refine ⟨0, [], j, tr, .rep_stop h1, by simp [Pos.subtract], h2, by simp [h3], h4, ?_⟩
      rw [h5]; simp
    · trivial
    · trivial

theorem repeat_good (r opt id fuel i toks s p) (hs : s ≤ toks.length) :
    Good E (.rule (.repeat_ r opt id)) p i toks s none p.off
      (evalRepeat ev r opt p fuel true p s none ⟨toks, E.ind i⟩) := by
  cases fuel with
  | zero => trivial
  | succ fuel =>
    simp only [evalRepeat]
    have hg := hev r i toks s p hs
    split
    · rename_i range s' err st' heq
      rw [heq] at hg
      obtain ⟨n, ts, j, tr, h1, h2, h3, h4, h5, h6⟩ := hg
      rw [good_ret_eta rfl h5]
      have hlen : range.length = n := by rw [h2]; simp
      rw [hlen, h6]
      refine good_cons (E := E) hs h3 h4 (fun _ _ _ h' => ?_)
        (rep_good hev r opt p fuel (adv p n) j st'.toks s' _ h3)
      cases opt with
      | true => exact .repeat_opt (.rep_more h1 h')
      | false => exact .repeat_ok h1 h'
    · rename_i e st' heq
      rw [heq] at hg
      obtain ⟨j, tr, h1, h2, h3, h4, h5⟩ := hg
      cases opt with
      | true =>
        simp only [Bool.true_eq_false, and_false, if_false]
        refine ⟨0, [], j, tr, .repeat_opt (.rep_stop h1), by simp [Pos.subtract], h2, by simp [h3],
          h4, ?_⟩
        rw [h5]; simp
      | false =>
        simp only [and_self, if_true]
        exact ⟨j, tr, .repeat_fail h1, h2, h3, h4, by rw [some_retErr, h5]; simp⟩
    · trivial
    · trivial

/-- What `SeparateBy` does once an item has been read. -/
theorem sepTail_good (r b opt trail) (start : Pos) : ∀ fuel p i toks s oe, s ≤ toks.length →
    Good E (.sepTail r b trail) p i toks s oe start.off
      (match ev b ⟨toks, E.ind i⟩ s p with
      | .ret (.err e) st2 => .ret (.ok (p.subtract start) s (errUpdate (some e) oe)) st2
      | .ret (.ok range2 s2 err2) st2 =>
        evalSeparateBy ev r b opt trail start fuel false
          (p.consume range2.length) s2 (errUpdate err2 oe) st2
      | .timeout => .timeout
      | .panic => .panic)
  | fuel, p, i, toks, s, oe, hs => by
    have hg := hev b i toks s p hs
    split
    · rename_i e st' heq
      rw [heq] at hg
      obtain ⟨j, tr, h1, h2, h3, h4, h5⟩ := hg
      refine ⟨0, [], j, tr, .sep_stop h1, by simp [Pos.subtract], h2, by simp [h3], h4, ?_⟩
      rw [h5]; simp
    · rename_i range s' err st' heq
      rw [heq] at hg
      obtain ⟨m, us, j, tr, h1, h2, h3, h4, h5, h6⟩ := hg
      rw [good_ret_eta rfl h5]
      have hlen : range.length = m := by rw [h2]; simp
      rw [hlen, h6, consume_eq, errUpdate_none_right]
      cases fuel with
      | zero => trivial
      | succ fuel =>
        simp only [evalSeparateBy]
        have hg := hev r j st'.toks s' (adv p m) h3
        split
        · rename_i e st2 heq
          rw [heq] at hg
          obtain ⟨k, tr', g1, g2, g3, g4, g5⟩ := hg
          cases trail with
          | false =>
            simp only [Bool.false_eq_true, false_and, and_self, or_true, if_true]
            obtain ⟨q1, q2⟩ := take_keep hs h3 h4 g2 g3
            refine ⟨k, tr ++ tr', .sep_noTrail h1 g1, q1, q2, g4, ?_⟩
            rw [some_retErr, g5, best_append, errUpdate_none_right, errUpdate_assoc]
          | true =>
            simp only [Bool.false_eq_true, false_and, Bool.true_eq_false, and_false, or_false,
              if_false]
            refine ⟨m, us, k, tr ++ tr', .sep_trail h1 g1, ?_, g2, by rw [g3, h4], g4, ?_⟩
            · simp [Pos.subtract]
            · rw [g5, best_append, errUpdate_none_right, errUpdate_assoc]
        · rename_i range2 s2 err2 st2 heq
          rw [heq] at hg
          obtain ⟨n, ts, k, tr', g1, g2, g3, g4, g5, g6⟩ := hg
          have hlen2 : range2.length = n := by rw [g2]; simp
          simp only [hlen2, g6, errUpdate_none_right, consume_eq, adv_adv]
          have ih := sepTail_good r b opt trail start fuel (adv p (m + n)) k st2.toks s2
            (errUpdate (best (tr ++ tr')) oe) g3
          have hst := good_ret_eta (E := E) rfl g5
          rw [← hst] at ih
          simp only [best_append, consume_eq, adv_adv, ← errUpdate_assoc] at ih
          refine good_cons (g' := .sepTail r b trail) (n := m + n) (j := k) (tr := tr ++ tr') (E := E) hs g3 (by rw [g4, h4, List.append_assoc])
            (fun o k' tr'' h' => ?_) ?_
          · rw [List.append_assoc]
            exact .sep_more h1 g1 h'
          · simp only [best_append, ← errUpdate_assoc]
            exact ih
        · trivial
        · trivial
    · trivial
    · trivial

theorem separateBy_good (r b opt trail id fuel i toks s p) (hs : s ≤ toks.length) :
    Good E (.rule (.separateBy r b opt trail id)) p i toks s none p.off
      (evalSeparateBy ev r b opt trail p fuel true p s none ⟨toks, E.ind i⟩) := by
  cases fuel with
  | zero => trivial
  | succ fuel =>
    simp only [evalSeparateBy]
    have hg := hev r i toks s p hs
    split
    · rename_i e st' heq
      rw [heq] at hg
      obtain ⟨j, tr, h1, h2, h3, h4, h5⟩ := hg
      cases opt with
      | true =>
        simp only [Bool.true_eq_false, and_false, false_and, or_self, if_false]
        refine ⟨0, [], j, tr, .sep_none h1, by simp [Pos.subtract], h2, by simp [h3], h4, ?_⟩
        rw [h5]; simp
      | false =>
        simp only [and_self, true_or, if_true]
        exact ⟨j, tr, .sep_fail h1, h2, h3, h4, by rw [some_retErr, h5]; simp⟩
    · rename_i range s' err st' heq
      rw [heq] at hg
      obtain ⟨n, ts, j, tr, h1, h2, h3, h4, h5, h6⟩ := hg
      have hlen : range.length = n := by rw [h2]; simp
      rw [hlen, h6, consume_eq]
      have ih := sepTail_good hev r b opt trail p fuel (adv p n) j st'.toks s'
        (errUpdate (best tr) none) h3
      rw [← good_ret_eta (E := E) rfl h5] at ih
      exact good_cons (E := E) hs h3 h4 (fun _ _ _ h' => .sep_first h1 h') ih
    · trivial
    · trivial

theorem node_good (name prop index id i toks s p) (hs : s ≤ toks.length) :
    Good E (.rule (.node name prop index id)) p i toks s none p.off
      (evalNode ev E.refs prop index id ⟨toks, E.ind i⟩ s p) := by
  unfold evalNode
  cases index with
  | none => exact fail_good hs .node_unresolved
  | some ix =>
    simp only
    cases hr : E.refs[ix]? with
    | none => trivial
    | some r =>
      simp only
      -- the state after the start token
      generalize hd : pushOpt prop .startNode p.start ⟨toks, E.ind i⟩ s = d
      have hd1 : d.1 = ⟨d.1.toks, E.ind i⟩ ∧ d.2 ≤ d.1.toks.length ∧
          d.1.toks.take d.2 = toks.take s ++
            (match prop with
            | none => []
            | some n => [⟨⟨p.off, 0⟩, .startNode n⟩]) := by
        cases prop with
        | none => subst hd; simp [pushOpt, hs]
        | some x =>
          rw [pushOpt_some _ _ _ _ _ hs] at hd
          subst hd
          refine ⟨rfl, by simp; omega, ?_⟩
          rw [List.take_of_length_le (by simp; omega)]
          rfl
      obtain ⟨hd1, hd2, hd3⟩ := hd1
      have hg := hev r i d.1.toks d.2 p hd2
      rw [← hd1] at hg
      split
      · rename_i e st' heq
        rw [heq] at hg
        obtain ⟨j, tr, h1, h2, h3, h4, h5⟩ := hg
        obtain ⟨q1, q2⟩ := take_keep hs hd2 hd3 h2 h3
        exact ⟨j, tr, .node_fail hr h1, q1, q2, h4, h5⟩
      · rename_i range s' err st' heq
        rw [heq] at hg
        obtain ⟨n, ts, j, tr, h1, h2, h3, h4, h5, h6⟩ := hg
        have hlen : range.length = n := by rw [h2]; simp
        rw [hlen]
        have hrange : (p.consume n).subtract p = ⟨p.off, n⟩ := by simp [Pos.subtract]
        rw [hrange]
        refine ⟨n, wrapped prop p.off n ts, j, tr, .node_ok hr h1, by simp, ?_⟩
        cases prop with
        | none =>
          simp only [pushOpt, wrapped]
          exact ⟨h3, by simp [h4, hd3], h5, h6⟩
        | some x =>
          rw [pushOpt_some _ _ _ _ _ h3]
          simp only [wrapped]
          refine ⟨by simp; omega, ?_, h5, h6⟩
          rw [List.take_of_length_le (by simp; omega), h4, hd3]
          simp
      · trivial
      · trivial

theorem optional_good (r id i toks s p) (hs : s ≤ toks.length) :
    Good E (.rule (.optional r id)) p i toks s none p.off
      (evalOptional ev r ⟨toks, E.ind i⟩ s p) := by
  unfold evalOptional
  have hg := hev r i toks s p hs
  split
  · rename_i range s' err st' heq
    rw [heq] at hg
    obtain ⟨n, ts, j, tr, h1, h2, h3, h4, h5, h6⟩ := hg
    refine ⟨n, ts, j, tr, .optional_some h1, ?_, h3, h4, h5, h6⟩
    rw [h2]; simp [Pos.subtract]
  · rename_i e st' heq
    rw [heq] at hg
    obtain ⟨j, tr, h1, h2, h3, h4, h5⟩ := hg
    exact ⟨0, [], j, tr, .optional_none h1, by simp [Pos.start], h2, by simp [h3], h4, h5⟩
  · trivial
  · trivial

theorem not_good (r id i toks s p) (hs : s ≤ toks.length) :
    Good E (.rule (.not r id)) p i toks s none p.off
      (evalNot ev r id ⟨toks, E.ind i⟩ s p) := by
  unfold evalNot
  have hg := hev r i toks s p hs
  split
  · rename_i range s' err st' heq
    rw [heq] at hg
    obtain ⟨n, ts, j, tr, h1, h2, h3, h4, h5, h6⟩ := hg
    obtain ⟨q1, q2⟩ := take_keep hs h3 h4 h3 rfl
    refine ⟨j, _, .not_fail h1, q1, q2, h5, ?_⟩
    rw [h2]; simp [Pos.rawString]
  · rename_i e st' heq
    rw [heq] at hg
    obtain ⟨j, tr, h1, h2, h3, h4, h5⟩ := hg
    exact ⟨0, [], j, [], .not_ok h1, by simp [Pos.start], h2, by simp [h3], h4, rfl⟩
  · trivial
  · trivial

omit hev in
/-- The result of one call of the closure of `lines` is the one assigned to the line. -/
def GoodLine (E : Env) (r : Rule) (indent first : Bool) (p : Pos) (i : Nat) (toks : List Tok)
    (s : Nat) (oe : Option RErr) : LineOut → Prop
  | .ret none x' => ∃ j tr, Run E (.line r indent first) p i none j tr ∧
      x'.s = s ∧ s ≤ x'.st.toks.length ∧ x'.st.toks.take s = toks.take s ∧
      x'.st.ind = E.ind j ∧ x'.oe = errUpdate (best tr) oe
  | .ret (some range) x' => ∃ n ts j tr, Run E (.line r indent first) p i (some (n, ts)) j tr ∧
      range.length = n ∧ x'.s ≤ x'.st.toks.length ∧ x'.st.toks.take x'.s = toks.take s ++ ts ∧
      x'.st.ind = E.ind j ∧ x'.oe = errUpdate (best tr) oe ∧
      (indent = true → E.align = true → x'.first = false)
  | _ => True

theorem lineClosure_good (r first fl p i toks s oe) (hs : s ≤ toks.length) :
    GoodLine E r false first p i toks s oe
      (lineClosure ev r ⟨s, oe, fl, ⟨toks, E.ind i⟩⟩ p) := by
  unfold lineClosure
  have hg := hev r i toks s p hs
  split
  · rename_i e st' heq
    rw [heq] at hg
    obtain ⟨j, tr, h1, h2, h3, h4, h5⟩ := hg
    exact ⟨j, tr, .line_plain h1, rfl, h2, h3, h4, by rw [h5]; simp⟩
  · rename_i range s' err st' heq
    rw [heq] at hg
    obtain ⟨n, ts, j, tr, h1, h2, h3, h4, h5, h6⟩ := hg
    exact ⟨n, ts, j, tr, .line_plain h1, by rw [h2]; simp, h3, h4, h5, by rw [h6]; simp, by simp⟩
  · trivial
  · trivial

theorem lineItem_good (r first) (p0 : Pos) (k i0 i toks s oe fl) (hs : s ≤ toks.length)
    (hrun : ∀ o j tr, i + 1 < 2 ^ 32 → Run E (.rule r) (adv p0 k) (i + 1) o j tr →
      Run E (.line r true first) p0 i0 (before k [] o) i tr)
    (hfl : E.align = true → fl = false) :
    GoodLine E r true first p0 i0 toks s oe
      (lineItem ev r ⟨s, oe, fl, ⟨toks, E.ind i⟩⟩ p0 (adv p0 k)) := by
  unfold lineItem
  simp only
  split
  · trivial
  · rename_i hi
    have hi' : i + 1 < 2 ^ 32 := by simp only [Env.ind] at hi; omega
    have hg := hev r (i + 1) toks s (adv p0 k) hs
    have hind : ({ E.ind i with indent := (E.ind i).indent + 1 } : Indent) = E.ind (i + 1) := rfl
    rw [hind]
    split
    · rename_i e st' heq
      rw [heq] at hg
      obtain ⟨j, tr, h1, h2, h3, h4, h5⟩ := hg
      refine ⟨i, tr, hrun _ _ _ hi' h1, rfl, h2, h3, ?_, by rw [h5]; simp⟩
      simp [h4, Env.ind]
    · rename_i range s' err st' heq
      rw [heq] at hg
      obtain ⟨n, ts, j, tr, h1, h2, h3, h4, h5, h6⟩ := hg
      refine ⟨k + n, ts, i, tr, hrun _ _ _ hi' h1, ?_, h3, h4, ?_, by rw [h6]; simp, ?_⟩
      · rw [h2]; simp; omega
      · simp [h5, Env.ind]
      · exact fun _ => hfl
    · trivial
    · trivial

theorem lineClosureIndent_good (r first fl p i toks s oe) (hs : s ≤ toks.length)
    (hfl : E.align = true → fl = first) :
    GoodLine E r true first p i toks s oe
      (lineClosureIndent ev r ⟨s, oe, fl, ⟨toks, E.ind i⟩⟩ p) := by
  unfold lineClosureIndent
  split
  · rename_i he
    exact ⟨i, [], .line_shallow (eatIndent_none _ _ _ he), rfl, hs, rfl, rfl, by simp⟩
  · rename_i k he
    have hc : Carries E.tab i p.src k := eatIndent_some _ _ _ _ he
    simp only
    split
    · rename_i hcond
      have ha : E.align = true := hcond.2
      have hf : first = true := by rw [← hfl ha]; exact hcond.1
      subst hf
      obtain ⟨hm, hw⟩ := eatAlign_spec E.tab (p.src.drop k)
      have e1 : (E.ind i).tabSpaces = E.tab := rfl
      simp only [e1, consume_eq, adv_adv]
      split
      · trivial
      · have hw' : i + (eatAlign E.tab (p.src.drop k)).2 =
            i + width E.tab ((p.src.drop k).take (eatAlign E.tab (p.src.drop k)).1) := by rw [hw]
        refine lineItem_good hev r true p (k + (eatAlign E.tab (p.src.drop k)).1) i
          (i + (eatAlign E.tab (p.src.drop k)).2) toks s oe false hs ?_ (fun _ => rfl)
        intro o j tr hi hr
        rw [hw'] at hi hr ⊢
        exact .line_align ha hc hm hi hr
    · rename_i hcond
      have ha : ¬ (first = true ∧ E.align = true) := by
        rintro ⟨h1, h2⟩
        exact hcond ⟨by rw [hfl h2]; exact h1, h2⟩
      split
      · rename_i range ht
        have := (tag_some ht).1
        have hd : (p.src.drop k).head? = some ' ' := by
          obtain ⟨x, hx⟩ := this
          have : (p.consume k).src = p.src.drop k := rfl
          rw [← this, ← hx]; rfl
        exact ⟨i, [], .line_deep ha hc hd, rfl, hs, rfl, rfl, by simp⟩
      · rename_i ht
        have hd : (p.src.drop k).head? ≠ some ' ' := by
          intro h
          apply tag_none ht
          have : (p.consume k).src = p.src.drop k := rfl
          rw [this]
          cases hq : p.src.drop k with
          | nil => rw [hq] at h; simp at h
          | cons c cs => rw [hq] at h; simp at h; subst h; exact ⟨cs, rfl⟩
        refine lineItem_good hev r first p k i i toks s oe fl hs ?_ ?_
        · intro o j tr hi hr
          exact .line_body ha hc hd hi hr
        · intro h
          rw [hfl h]
          cases first with
          | false => rfl
          | true => exact absurd ⟨rfl, h⟩ ha

theorem lines_good (r indent id) (start : Pos) : ∀ fuel first item p i toks s oe fl,
    s ≤ toks.length → (indent = true → E.align = true → fl = first) →
    Good E (.lines r indent id first item) p i toks s oe start.off
      (evalLines E.L (if indent then lineClosureIndent ev r else lineClosure ev r) id start
        fuel first item p ⟨s, oe, fl, ⟨toks, E.ind i⟩⟩)
  | 0, _, _, _, _, _, _, _, _, _, _ => trivial
  | fuel + 1, first, item, p, i, toks, s, oe, fl, hs, hfl => by
    simp only [evalLines]
    split
    · rename_i k h
      exact ⟨k, [], i, [], .lines_done h, by simp [Pos.subtract], hs, by simp, rfl, by simp⟩
    · rename_i k h
      refine ⟨i, _, .lines_fail h, hs, rfl, rfl, ?_⟩
      rw [some_retErr]
      rfl
    · rename_i k h
      rw [consume_eq]
      have hg : GoodLine E r indent first (adv p k) i toks s oe
          ((if indent then lineClosureIndent ev r else lineClosure ev r)
            ⟨s, oe, fl, ⟨toks, E.ind i⟩⟩ (adv p k)) := by
        cases indent with
        | true => exact lineClosureIndent_good hev r first fl _ i toks s oe hs (hfl rfl)
        | false => exact lineClosure_good hev r first fl _ i toks s oe hs
      split
      · rename_i x' heq
        rw [heq] at hg
        obtain ⟨j, tr, h1, h2, h3, h4, h5, h6⟩ := hg
        refine ⟨k, [], j, tr, .lines_stop h h1, ?_, by omega, by rw [h2, h4]; simp, h5, h6⟩
        simp [Pos.subtract]
      · rename_i range x' heq
        rw [heq] at hg
        obtain ⟨n, ts, j, tr, h1, h2, h3, h4, h5, h6, h7⟩ := hg
        rw [h2, consume_eq, adv_adv]
        have hx : x' = ⟨x'.s, errUpdate (best tr) oe, x'.first, ⟨x'.st.toks, E.ind j⟩⟩ := by
          cases x'; simp at *; simp [← h6, ← h5]
        rw [hx]
        refine good_cons (E := E) hs h3 h4 (fun o l tr' h' => .lines_more h h1 h')
          (lines_good r indent id start fuel false _ (adv p (k + n)) j x'.st.toks x'.s _ x'.first
            h3 h7)
      · trivial
      · trivial

theorem step_sound (fuel : Nat) : EvSound E (step E.L E.refs ev fuel) := by
  intro r i toks s p hs
  cases r with
  | whitespace => exact whitespace_good _ _ _ _ _ _ hs
  | tag => exact tag_good _ _ _ _ _ _ _ _ _ hs
  | untilAny => exact untilAny_good _ _ _ _ _ _ _ _ hs
  | untilAnyOrWs => exact untilAnyOrWs_good _ _ _ _ _ _ _ _ hs
  | text => exact text_good _ _ _ _ _ _ _ hs
  | number => exact number_good _ _ _ _ _ _ _ hs
  | select args id =>
    cases args with
    | nil => exact fail_good hs .select_empty
    | cons r rs =>
      have h := select_good hev id p (r :: rs) i toks s none hs (by simp)
      simp only [step]
      cases hout : evalSelect ev id s p (r :: rs) none ⟨toks, E.ind i⟩ with
      | timeout => trivial
      | panic => trivial
      | ret res st' =>
        rw [hout] at h
        cases res with
        | ok =>
          obtain ⟨n, ts, j, tr, h1, h2⟩ := h
          exact ⟨n, ts, j, tr, .select h1, h2⟩
        | err =>
          obtain ⟨j, tr, h1, h2⟩ := h
          exact ⟨j, tr, .select h1, h2⟩
  | fastSelect => exact fastSelect_good hev _ _ _ _ _ _ _ _ hs
  | sequence args id =>
    have h := sequence_good hev p args p i toks s none hs
    simp only [step]
    cases hout : evalSequence ev p args p s none ⟨toks, E.ind i⟩ with
    | timeout => trivial
    | panic => trivial
    | ret res st' =>
      rw [hout] at h
      cases res with
      | ok =>
        obtain ⟨n, ts, j, tr, h1, h2⟩ := h
        exact ⟨n, ts, j, tr, .sequence h1, h2⟩
      | err =>
        obtain ⟨j, tr, h1, h2⟩ := h
        exact ⟨j, tr, .sequence h1, h2⟩
  | separateBy => exact separateBy_good hev _ _ _ _ _ _ _ _ _ _ hs
  | repeat_ => exact repeat_good hev _ _ _ _ _ _ _ _ hs
  | lines r indent id =>
    have h := lines_good hev r indent id p fuel true [] p i toks s none true hs (fun _ _ => rfl)
    simp only [step]
    generalize evalLines E.L (if indent = true then lineClosureIndent ev r else lineClosure ev r)
      id p fuel true [] p ⟨s, none, true, ⟨toks, E.ind i⟩⟩ = out at h ⊢
    cases out with
    | timeout => trivial
    | panic => trivial
    | ret res st' =>
      cases res with
      | ok =>
        obtain ⟨n, ts, j, tr, h1, h2⟩ := h
        exact ⟨n, ts, j, tr, .lines h1, h2⟩
      | err =>
        obtain ⟨j, tr, h1, h2⟩ := h
        exact ⟨j, tr, .lines h1, h2⟩
  | node => exact node_good hev _ _ _ _ _ _ _ _ hs
  | optional => exact optional_good hev _ _ _ _ _ _ hs
  | not => exact not_good hev _ _ _ _ _ _ hs

end

theorem eval_sound (E : Env) : ∀ n, EvSound E (eval E.L E.refs n)
  | 0 => fun _ _ _ _ _ _ => trivial
  | n + 1 => step_sound (eval_sound E n) n

end Verif
