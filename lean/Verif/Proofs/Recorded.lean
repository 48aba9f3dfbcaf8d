import Verif.Proofs.Sound
import Verif.Proofs.Det
import Verif.Spec.Recorded
/-
The vector after a run, success or failure, is given by what has been recorded last.
-/
namespace Verif
open Spec

/-- What is recorded is determined. -/
theorem Spec.Recs.det {E : Env} {g p i a} (h : Recs E g p i a) : ∀ {b}, Recs E g p i b → a = b := by
  induction h with
  | leaf_ok hl h =>
    intro _ h'
    cases h' with
    | leaf_ok _ h1 => have := (h.det h1).1; simp_all
    | leaf_fail _ h1 => have := (h.det h1).1; simp_all
    | _ => exact hl.elim
  | leaf_fail hl h =>
    intro _ h'
    cases h' with
    | leaf_ok _ h1 => have := (h.det h1).1; simp_all
    | leaf_fail _ h1 => rfl
    | _ => exact hl.elim
  | _ =>
    intro _ h'
    cases h' <;> first
      | rfl
      | (rename_i hl _; exact hl.elim)
      | grind [Leaf, → Spec.Run.det, → longest_unique, → carries_unique]

/-- The vector after the recordings `a`, which began with the vector `toks` in state `s`. -/
def lastVec (toks : List Tok) (s : Nat) (a : List (List Tok)) : List Tok :=
  match a.getLast? with
  | none => toks
  | some v => toks.take s ++ v

@[simp] theorem lastVec_nil (toks : List Tok) (s : Nat) : lastVec toks s [] = toks := rfl

theorem lastVec_concat (toks : List Tok) (s : Nat) (a : List (List Tok)) (v : List Tok) :
    lastVec toks s (a ++ [v]) = toks.take s ++ v := by simp [lastVec]

/-- Recordings behind the data `ts`, after others. -/
theorem lastVec_behind {toks t1 : List Tok} {s s1 : Nat} {ts : List Tok} {a b : List (List Tok)}
    (h1 : t1 = lastVec toks s a) (ht : t1.take s1 = toks.take s ++ ts) :
    lastVec t1 s1 b = lastVec toks s (a ++ behind ts b) := by
  rcases List.eq_nil_or_concat b with rfl | ⟨b, v, rfl⟩
  · simp [behind, h1]
  · rw [List.concat_eq_append, lastVec_concat, ht]
    simp only [behind, List.map_append, List.map_cons, List.map_nil]
    rw [← List.append_assoc a, lastVec_concat, List.append_assoc]

/-- Recordings in the same state, after others. -/
theorem lastVec_append {toks t1 : List Tok} {s : Nat} {a b : List (List Tok)}
    (h1 : t1 = lastVec toks s a) (ht : t1.take s = toks.take s) :
    lastVec t1 s b = lastVec toks s (a ++ b) := by
  have := lastVec_behind (b := b) (ts := []) h1 (by simpa using ht)
  simpa [behind] using this

/-- The vector after the run `out` is the one after the recordings that belong to the goal. -/
def Left (E : Env) (g : Goal) (p : Pos) (i : Nat) (toks : List Tok) (s : Nat) : Out → Prop
  | .ret _ st' => ∃ a, Recs E g p i a ∧ st'.toks = lastVec toks s a
  | _ => True

def EvLeft (E : Env) (ev : Ev) : Prop :=
  ∀ r i toks s p, s ≤ toks.length → Left E (.rule r) p i toks s (ev r ⟨toks, E.ind i⟩ s p)

section
variable {E : Env}

/-- A goal that records what another one does. -/
theorem Left.imp {g g' : Goal} {p p' : Pos} {i i' : Nat} {toks : List Tok} {s : Nat} {out : Out}
    (h : Left E g p i toks s out) (hr : ∀ a, Recs E g p i a → Recs E g' p' i' a) :
    Left E g' p' i' toks s out := by
  cases out with
  | ret res st => obtain ⟨a, ha, h⟩ := h; exact ⟨a, hr a ha, h⟩
  | _ => trivial

/-- A goal that goes on, after recordings, behind the data `ts`. -/
theorem Left.cons {g g' : Goal} {p p' : Pos} {i i' : Nat} {toks t1 : List Tok} {s s1 : Nat} {out : Out}
    {ts : List Tok} {a : List (List Tok)} (h1 : t1 = lastVec toks s a) (ht : t1.take s1 = toks.take s ++ ts)
    (h : Left E g p i t1 s1 out) (hr : ∀ b, Recs E g p i b → Recs E g' p' i' (a ++ behind ts b)) :
    Left E g' p' i' toks s out := by
  cases out with
  | ret res st => obtain ⟨b, hb, h⟩ := h; exact ⟨_, hr b hb, h.trans (lastVec_behind h1 ht)⟩
  | _ => trivial

/-- A goal that goes on, after recordings, with another way. -/
theorem Left.next {g g' : Goal} {p p' : Pos} {i i' : Nat} {toks t1 : List Tok} {s : Nat} {out : Out}
    {a : List (List Tok)} (h1 : t1 = lastVec toks s a) (ht : t1.take s = toks.take s)
    (h : Left E g p i t1 s out) (hr : ∀ b, Recs E g p i b → Recs E g' p' i' (a ++ b)) :
    Left E g' p' i' toks s out := by
  cases out with
  | ret res st => obtain ⟨b, hb, h⟩ := h; exact ⟨_, hr b hb, h.trans (lastVec_append h1 ht)⟩
  | _ => trivial

/-- The state only changes by the item of a rule without parts. -/
theorem leaf_left {r : Rule} {p i toks s} {out : Out} (hl : Leaf r) (hs : s ≤ toks.length)
    (hg : Good E (.rule r) p i toks s none p.off out)
    (hv : ∀ res st, out = .ret res st → (st.toks = toks ∧ (∀ rg s' oe, res = .ok rg s' oe → s' = s)) ∨
      ∃ t rg oe, res = .ok rg (s + 1) oe ∧ st.toks = toks.take s ++ [t]) :
    Left E (.rule r) p i toks s out := by
  cases out with
  | ret res st =>
    cases res with
    | ok rg s' oe =>
      obtain ⟨n, ts, j, tr, h1, h2, h3, h4, h5, h6⟩ := hg
      refine ⟨_, .leaf_ok hl h1, ?_⟩
      rcases hv _ _ rfl with ⟨hq, hs'⟩ | ⟨t, rg', oe', hv, hv'⟩
      · have := hs' _ _ _ rfl
        subst this
        rw [hq] at h4
        have : ts = [] := by
          have := congrArg List.length h4
          simp only [List.length_append] at this
          exact List.eq_nil_of_length_eq_zero (by omega)
        subst this
        simp [hq]
      · cases hv
        rw [hv', List.take_of_length_le (by simp; omega)] at h4
        have : ts = [t] := (List.append_cancel_left h4).symm
        subst this
        rw [hv']
        simp [lastVec]
    | err e =>
      obtain ⟨j, tr, h1, h2, h3, h4, h5⟩ := hg
      refine ⟨_, .leaf_fail hl h1, ?_⟩
      rcases hv _ _ rfl with ⟨hv, _⟩ | ⟨t, rg', oe', hv, hv'⟩
      · simp [hv]
      · cases hv
  | _ => trivial

/-- What a rule without parts does to the vector. -/
def Quiet (toks : List Tok) (s : Nat) (out : Out) : Prop :=
  ∀ res st, out = .ret res st → (st.toks = toks ∧ (∀ rg s' oe, res = .ok rg s' oe → s' = s)) ∨
      ∃ t rg oe, res = .ok rg (s + 1) oe ∧ st.toks = toks.take s ++ [t]

theorem quiet_err {toks : List Tok} {s : Nat} {e : RErr} {ind : Indent} :
    Quiet toks s (.ret (.err e) ⟨toks, ind⟩) := by
  rintro _ _ ⟨⟩; exact .inl ⟨rfl, by simp⟩

theorem quiet_ok {toks : List Tok} {s : Nat} {rg : Range} {oe : Option RErr} {ind : Indent} :
    Quiet toks s (.ret (.ok rg s oe) ⟨toks, ind⟩) := by
  rintro _ _ ⟨⟩; exact .inl ⟨rfl, by rintro _ _ _ ⟨⟩; rfl⟩

theorem quiet_emit {toks : List Tok} {s : Nat} {rg : Range} {prop : Option Str} {mk} {ind : Indent}
    (hs : s ≤ toks.length) : Quiet toks s (emitOpt prop mk rg ⟨toks, ind⟩ s) := by
  unfold emitOpt
  cases prop with
  | none => exact quiet_ok
  | some x =>
    rw [pushOpt_some _ _ _ _ _ hs]
    rintro _ _ ⟨⟩
    exact .inr ⟨_, _, _, rfl, rfl⟩

theorem whitespace_left (opt id i toks s p) (hs : s ≤ toks.length) :
    Left E (.rule (.whitespace opt id)) p i toks s (evalWhitespace opt id ⟨toks, E.ind i⟩ s p) := by
  refine leaf_left trivial hs (whitespace_good _ _ _ _ _ _ hs) ?_
  change Quiet _ _ _
  unfold evalWhitespace
  dsimp only
  split
  · exact quiet_err
  · exact quiet_ok

theorem tag_left (t nt inv prop id i toks s p) (hs : s ≤ toks.length) :
    Left E (.rule (.tag t nt inv prop id)) p i toks s (evalTag t nt inv prop id ⟨toks, E.ind i⟩ s p) := by
  refine leaf_left trivial hs (tag_good _ _ _ _ _ _ _ _ _ hs) ?_
  change Quiet _ _ _
  unfold evalTag
  split <;> split <;> first | exact quiet_err | exact quiet_emit hs

theorem untilAny_left (any opt prop id i toks s p) (hs : s ≤ toks.length) :
    Left E (.rule (.untilAny any opt prop id)) p i toks s
      (evalUntilAny any opt prop id ⟨toks, E.ind i⟩ s p) := by
  refine leaf_left trivial hs (untilAny_good _ _ _ _ _ _ _ _ hs) ?_
  change Quiet _ _ _
  unfold evalUntilAny
  dsimp only
  split
  · exact quiet_err
  · exact quiet_emit hs

theorem untilAnyOrWs_left (any opt prop id i toks s p) (hs : s ≤ toks.length) :
    Left E (.rule (.untilAnyOrWs any opt prop id)) p i toks s
      (evalUntilAnyOrWs any opt prop id ⟨toks, E.ind i⟩ s p) := by
  refine leaf_left trivial hs (untilAnyOrWs_good _ _ _ _ _ _ _ _ hs) ?_
  change Quiet _ _ _
  unfold evalUntilAnyOrWs
  dsimp only
  split
  · exact quiet_err
  · exact quiet_emit hs

theorem text_left (empty prop id i toks s p) (hs : s ≤ toks.length) :
    Left E (.rule (.text empty prop id)) p i toks s (evalText E.L empty prop id ⟨toks, E.ind i⟩ s p) := by
  refine leaf_left trivial hs (text_good _ _ _ _ _ _ _ hs) ?_
  change Quiet _ _ _
  unfold evalText
  split
  · split
    · exact quiet_err
    · split
      · exact quiet_err
      · exact quiet_emit hs
  · exact quiet_err

theorem number_left (prop us id i toks s p) (hs : s ≤ toks.length) :
    Left E (.rule (.number prop us id)) p i toks s (evalNumber E.L prop us id ⟨toks, E.ind i⟩ s p) := by
  refine leaf_left trivial hs (number_good _ _ _ _ _ _ _ hs) ?_
  change Quiet _ _ _
  unfold evalNumber
  split
  · split
    · exact quiet_err
    · exact quiet_emit hs
  · exact quiet_err

variable {ev : Ev} (hev : EvSound E ev) (hlf : EvLeft E ev)
include hev hlf

/-- A part that succeeds. -/
theorem part_ok {r i toks s p range s' err st'} (hs : s ≤ toks.length)
    (heq : ev r ⟨toks, E.ind i⟩ s p = .ret (.ok range s' err) st') :
    ∃ n ts j tr a, Run E (.rule r) p i (some (n, ts)) j tr ∧ Recs E (.rule r) p i a ∧ range.length = n ∧
      s' ≤ st'.toks.length ∧ st'.toks.take s' = toks.take s ++ ts ∧ st' = ⟨st'.toks, E.ind j⟩ ∧
      st'.toks = lastVec toks s a := by
  have hg := hev r i toks s p hs
  have hl := hlf r i toks s p hs
  rw [heq] at hg hl
  obtain ⟨n, ts, j, tr, h1, h2, h3, h4, h5, h6⟩ := hg
  obtain ⟨a, ha, hv⟩ := hl
  exact ⟨n, ts, j, tr, a, h1, ha, by rw [h2]; simp, h3, h4, good_ret_eta rfl h5, hv⟩

/-- A part that fails. -/
theorem part_err {r i toks s p e st'} (hs : s ≤ toks.length)
    (heq : ev r ⟨toks, E.ind i⟩ s p = .ret (.err e) st') :
    ∃ j tr a, Run E (.rule r) p i none j tr ∧ Recs E (.rule r) p i a ∧
      s ≤ st'.toks.length ∧ st'.toks.take s = toks.take s ∧ st' = ⟨st'.toks, E.ind j⟩ ∧
      st'.toks = lastVec toks s a := by
  have hg := hev r i toks s p hs
  have hl := hlf r i toks s p hs
  rw [heq] at hg hl
  obtain ⟨j, tr, h1, h2, h3, h4, h5⟩ := hg
  obtain ⟨a, ha, hv⟩ := hl
  exact ⟨j, tr, a, h1, ha, h2, h3, good_ret_eta rfl h4, hv⟩

theorem select_left (id p) : ∀ rs i toks s oe, s ≤ toks.length →
    Left E (.sel rs) p i toks s (evalSelect ev id s p rs oe ⟨toks, E.ind i⟩)
  | [], i, toks, s, none, _ => ⟨_, .sel_nil, rfl⟩
  | [], i, toks, s, some e, hs => ⟨_, .sel_nil, rfl⟩
  | r :: rs, i, toks, s, oe, hs => by
    simp only [evalSelect]
    split
    · rename_i range s' err st' heq
      obtain ⟨n, ts, j, tr, a, h1, ha, _, _, _, _, hv⟩ := part_ok hev hlf hs heq
      exact ⟨a, .sel_here h1 ha, hv⟩
    · rename_i e st' heq
      obtain ⟨j, tr, a, h1, ha, h2, h3, h4, hv⟩ := part_err hev hlf hs heq
      rw [h4]
      exact .next hv h3 (select_left id p rs j st'.toks s _ h2) (fun b hb => .sel_next h1 ha hb)
    · trivial
    · trivial

theorem fastSelect_left (tb args tail id i toks s p) (hs : s ≤ toks.length) :
    Left E (.rule (.fastSelect tb args tail id)) p i toks s
      (evalFastSelect ev tb args tail id ⟨toks, E.ind i⟩ s p) := by
  unfold evalFastSelect
  split
  · rename_i hsrc
    exact ⟨_, .fast_end hsrc, rfl⟩
  · rename_i c cs hsrc
    obtain ⟨b, bs, hb⟩ := utf8_ne_nil c
    simp only [firstByte_eq hb]
    cases tail with
    | false =>
      simp only [Bool.false_eq_true, if_false]
      split
      · rename_i ht
        split
        · trivial
        · rename_i r hr
          split
          · rename_i range s' err st' heq
            obtain ⟨n, ts, j, tr, a, h1, ha, _, _, _, _, hv⟩ := part_ok hev hlf hs heq
            exact ⟨a, .fast_hit hsrc hb ht hr ha, hv⟩
          · rename_i e st' heq
            obtain ⟨j, tr, a, h1, ha, h2, h3, h4, hv⟩ := part_err hev hlf hs heq
            exact ⟨a, .fast_hit hsrc hb ht hr ha, hv⟩
          · trivial
          · trivial
      · rename_i ht
        exact ⟨_, .fast_miss hsrc hb (by simpa using ht), rfl⟩
    | true =>
      simp only [if_true]
      split
      · rename_i ht
        split
        · trivial
        · rename_i r hr
          split
          · rename_i range s' err st' heq
            obtain ⟨n, ts, j, tr, a, h1, ha, _, _, _, _, hv⟩ := part_ok hev hlf hs heq
            exact ⟨a, .fastTail_hit hsrc hb ht hr h1 ha, hv⟩
          · rename_i e st' heq
            obtain ⟨j, tr, a, h1, ha, h2, h3, h4, hv⟩ := part_err hev hlf hs heq
            rw [h4]
            split
            · trivial
            · rename_i r' hr'
              split
              · rename_i range s' err st'' heq
                obtain ⟨_, _, _, _, a', _, ha', _, _, _, _, hv'⟩ := part_ok hev hlf h2 heq
                exact ⟨_, .fastTail_next hsrc hb ht hr h1 ha hr' ha', hv'.trans (lastVec_append hv h3)⟩
              · rename_i e' st'' heq
                obtain ⟨_, _, a', _, ha', _, _, _, hv'⟩ := part_err hev hlf h2 heq
                exact ⟨_, .fastTail_next hsrc hb ht hr h1 ha hr' ha', hv'.trans (lastVec_append hv h3)⟩
              · trivial
              · trivial
          · trivial
          · trivial
      · rename_i ht
        have ht' : tb b = 255 := by simpa using ht
        split
        · trivial
        · rename_i r hr
          split
          · rename_i range s' err st' heq
            obtain ⟨n, ts, j, tr, a, h1, ha, _, _, _, _, hv⟩ := part_ok hev hlf hs heq
            exact ⟨a, .fastTail_miss hsrc hb ht' hr ha, hv⟩
          · rename_i e st' heq
            obtain ⟨j, tr, a, h1, ha, h2, h3, h4, hv⟩ := part_err hev hlf hs heq
            exact ⟨a, .fastTail_miss hsrc hb ht' hr ha, hv⟩
          · trivial
          · trivial

theorem sequence_left (start : Pos) : ∀ rs p i toks s oe, s ≤ toks.length →
    Left E (.seq rs) p i toks s (evalSequence ev start rs p s oe ⟨toks, E.ind i⟩)
  | [], p, i, toks, s, oe, hs => ⟨_, .seq_nil, rfl⟩
  | r :: rs, p, i, toks, s, oe, hs => by
    simp only [evalSequence]
    split
    · rename_i range s' err st' heq
      obtain ⟨n, ts, j, tr, a, h1, ha, hlen, h3, h4, h5, hv⟩ := part_ok hev hlf hs heq
      rw [h5, hlen]
      exact .cons hv h4 (sequence_left start rs (adv p n) j st'.toks s' _ h3)
        (fun b hb => .seq_cons h1 ha hb)
    · rename_i e st' heq
      obtain ⟨j, tr, a, h1, ha, h2, h3, h4, hv⟩ := part_err hev hlf hs heq
      exact ⟨a, .seq_fail h1 ha, hv⟩
    · trivial
    · trivial

theorem rep_left (r opt) (start : Pos) : ∀ fuel first p i toks s oe, s ≤ toks.length →
    Left E (.rep r) p i toks s (evalRepeat ev r opt start fuel first p s oe ⟨toks, E.ind i⟩)
  | 0, _, _, _, _, _, _, _ => trivial
  | fuel + 1, first, p, i, toks, s, oe, hs => by
    simp only [evalRepeat]
    split
    · rename_i range s' err st' heq
      obtain ⟨n, ts, j, tr, a, h1, ha, hlen, h3, h4, h5, hv⟩ := part_ok hev hlf hs heq
      rw [h5, hlen]
      exact .cons hv h4 (rep_left r opt start fuel false (adv p n) j st'.toks s' _ h3)
        (fun b hb => .rep_more h1 ha hb)
    · rename_i e st' heq
      obtain ⟨j, tr, a, h1, ha, h2, h3, h4, hv⟩ := part_err hev hlf hs heq
      split <;> exact ⟨a, .rep_stop h1 ha, hv⟩
    · trivial
    · trivial

theorem sepTail_left (r b opt trail) (start : Pos) : ∀ fuel p i toks s oe, s ≤ toks.length →
    Left E (.sepTail r b trail) p i toks s
      (match ev b ⟨toks, E.ind i⟩ s p with
      | .ret (.err e) st2 => .ret (.ok (p.subtract start) s (errUpdate (some e) oe)) st2
      | .ret (.ok range2 s2 err2) st2 =>
        evalSeparateBy ev r b opt trail start fuel false
          (p.consume range2.length) s2 (errUpdate err2 oe) st2
      | .timeout => .timeout
      | .panic => .panic)
  | fuel, p, i, toks, s, oe, hs => by
    split
    · rename_i e st' heq
      obtain ⟨j, tr, a, h1, ha, h2, h3, h4, hv⟩ := part_err hev hlf hs heq
      exact ⟨a, .sep_stop h1 ha, hv⟩
    · rename_i range s' err st' heq
      obtain ⟨m, us, j, tr, a, h1, ha, hlen, h3, h4, h5, hv⟩ := part_ok hev hlf hs heq
      rw [h5, hlen, consume_eq]
      cases fuel with
      | zero => trivial
      | succ fuel =>
        simp only [evalSeparateBy]
        split
        · rename_i e st2 heq
          obtain ⟨k, tr', c, g1, hc, _, _, _, hv'⟩ := part_err hev hlf h3 heq
          have : st2.toks = lastVec toks s (a ++ behind us c) := hv'.trans (lastVec_behind hv h4)
          split <;> exact ⟨_, .sep_last h1 ha g1 hc, this⟩
        · rename_i range2 s2 err2 st2 heq
          obtain ⟨n, ts, k, tr', c, g1, hc, hlen2, g3, g4, g5, hv'⟩ := part_ok hev hlf h3 heq
          have ih := sepTail_left r b opt trail start fuel (adv p (m + n)) k st2.toks s2
            (errUpdate err2 (errUpdate err oe)) g3
          rw [← g5] at ih
          rw [hlen2, consume_eq, adv_adv]
          refine .cons (ts := us ++ ts) (a := a ++ behind us c) (hv'.trans (lastVec_behind hv h4)) ?_ ih
            (fun d hd => ?_)
          · rw [g4, h4, List.append_assoc]
          · have := Recs.sep_more h1 ha g1 hc hd
            simpa [behind, Function.comp_def] using this
        · trivial
        · trivial
    · trivial
    · trivial

theorem separateBy_left (r b opt trail id fuel i toks s p) (hs : s ≤ toks.length) :
    Left E (.rule (.separateBy r b opt trail id)) p i toks s
      (evalSeparateBy ev r b opt trail p fuel true p s none ⟨toks, E.ind i⟩) := by
  cases fuel with
  | zero => trivial
  | succ fuel =>
    simp only [evalSeparateBy]
    split
    · rename_i e st' heq
      obtain ⟨j, tr, a, h1, ha, h2, h3, h4, hv⟩ := part_err hev hlf hs heq
      split <;> exact ⟨a, .sep_none h1 ha, hv⟩
    · rename_i range s' err st' heq
      obtain ⟨n, ts, j, tr, a, h1, ha, hlen, h3, h4, h5, hv⟩ := part_ok hev hlf hs heq
      have ih := sepTail_left hev hlf r b opt trail p fuel (adv p n) j st'.toks s' (errUpdate err none) h3
      rw [← h5] at ih
      rw [hlen, consume_eq]
      exact .cons hv h4 ih (fun c hc => .sep_first h1 ha hc)
    · trivial
    · trivial

theorem node_left (name prop index id i toks s p) (hs : s ≤ toks.length) :
    Left E (.rule (.node name prop index id)) p i toks s
      (evalNode ev E.refs prop index id ⟨toks, E.ind i⟩ s p) := by
  unfold evalNode
  cases index with
  | none => exact ⟨_, .node_unresolved, rfl⟩
  | some ix =>
    simp only
    cases hr : E.refs[ix]? with
    | none => trivial
    | some r =>
      simp only
      cases prop with
      | none =>
        simp only [pushOpt]
        split
        · rename_i e st' heq
          obtain ⟨j, tr, a, h1, ha, h2, h3, h4, hv⟩ := part_err hev hlf hs heq
          exact ⟨a, .node_plain hr ha, hv⟩
        · rename_i range s' err st' heq
          obtain ⟨n, ts, j, tr, a, h1, ha, hlen, h3, h4, h5, hv⟩ := part_ok hev hlf hs heq
          exact ⟨a, .node_plain hr ha, hv⟩
        · trivial
        · trivial
      | some x =>
        rw [pushOpt_some _ _ _ _ _ hs]
        simp only
        have hs1 : s + 1 ≤ (toks.take s ++ [(⟨p.start, .startNode x⟩ : Tok)]).length := by
          simp; omega
        have ht1 : (toks.take s ++ [(⟨p.start, .startNode x⟩ : Tok)]).take (s + 1) =
            toks.take s ++ [⟨⟨p.off, 0⟩, .startNode x⟩] := List.take_of_length_le (by simp; omega)
        have hv1 : (toks.take s ++ [(⟨p.start, .startNode x⟩ : Tok)]) =
            lastVec toks s [[⟨⟨p.off, 0⟩, .startNode x⟩]] := rfl
        split
        · rename_i e st' heq
          obtain ⟨j, tr, a, h1, ha, h2, h3, h4, hv⟩ := part_err hev hlf hs1 heq
          refine ⟨_, .node_fail hr h1 ha, ?_⟩
          rw [hv, lastVec_behind hv1 ht1]
          rfl
        · rename_i range s' err st' heq
          obtain ⟨n, ts, j, tr, a, h1, ha, hlen, h3, h4, h5, hv⟩ := part_ok hev hlf hs1 heq
          refine ⟨_, .node_ok hr h1 ha, ?_⟩
          rw [pushOpt_some _ _ _ _ _ h3]
          have hrange : (p.consume range.length).subtract p = ⟨p.off, n⟩ := by
            rw [hlen]; simp [Pos.subtract]
          simp only [hrange, h4]
          rw [show (toks.take s ++ [(⟨p.start, .startNode x⟩ : Tok)]).take (s + 1) = _ from ht1]
          rw [show behind [(⟨⟨p.off, 0⟩, .startNode x⟩ : Tok)] ([] :: a ++ behind ts [[⟨⟨p.off, n⟩, .endNode x⟩]]) =
              behind [⟨⟨p.off, 0⟩, .startNode x⟩] ([] :: a) ++
                [⟨⟨p.off, 0⟩, .startNode x⟩ :: ts ++ [⟨⟨p.off, n⟩, .endNode x⟩]] by simp [behind],
            lastVec_concat]
          simp
        · trivial
        · trivial

theorem optional_left (r id i toks s p) (hs : s ≤ toks.length) :
    Left E (.rule (.optional r id)) p i toks s (evalOptional ev r ⟨toks, E.ind i⟩ s p) := by
  unfold evalOptional
  split
  · rename_i range s' err st' heq
    obtain ⟨n, ts, j, tr, a, h1, ha, hlen, h3, h4, h5, hv⟩ := part_ok hev hlf hs heq
    exact ⟨a, .optional ha, hv⟩
  · rename_i e st' heq
    obtain ⟨j, tr, a, h1, ha, h2, h3, h4, hv⟩ := part_err hev hlf hs heq
    exact ⟨a, .optional ha, hv⟩
  · trivial
  · trivial

theorem not_left (r id i toks s p) (hs : s ≤ toks.length) :
    Left E (.rule (.not r id)) p i toks s (evalNot ev r id ⟨toks, E.ind i⟩ s p) := by
  unfold evalNot
  split
  · rename_i range s' err st' heq
    obtain ⟨n, ts, j, tr, a, h1, ha, hlen, h3, h4, h5, hv⟩ := part_ok hev hlf hs heq
    exact ⟨a, .not ha, hv⟩
  · rename_i e st' heq
    obtain ⟨j, tr, a, h1, ha, h2, h3, h4, hv⟩ := part_err hev hlf hs heq
    exact ⟨a, .not ha, hv⟩
  · trivial
  · trivial

omit hev hlf in
/-- The vector after one call of the closure of `lines`. -/
def LeftLine (E : Env) (r : Rule) (indent first : Bool) (p : Pos) (i : Nat) (toks : List Tok)
    (s : Nat) : LineOut → Prop
  | .ret _ x' => ∃ a, Recs E (.line r indent first) p i a ∧ x'.st.toks = lastVec toks s a
  | _ => True

theorem lineClosure_left (r first fl p i toks s oe) (hs : s ≤ toks.length) :
    LeftLine E r false first p i toks s (lineClosure ev r ⟨s, oe, fl, ⟨toks, E.ind i⟩⟩ p) := by
  unfold lineClosure
  split
  · rename_i e st' heq
    obtain ⟨j, tr, a, h1, ha, h2, h3, h4, hv⟩ := part_err hev hlf hs heq
    exact ⟨a, .line_plain ha, hv⟩
  · rename_i range s' err st' heq
    obtain ⟨n, ts, j, tr, a, h1, ha, hlen, h3, h4, h5, hv⟩ := part_ok hev hlf hs heq
    exact ⟨a, .line_plain ha, hv⟩
  · trivial
  · trivial

theorem lineItem_left (r first) (p0 : Pos) (k i0 i toks s oe fl) (hs : s ≤ toks.length)
    (hrun : ∀ a, Recs E (.rule r) (adv p0 k) (i + 1) a → Recs E (.line r true first) p0 i0 a) :
    LeftLine E r true first p0 i0 toks s
      (lineItem ev r ⟨s, oe, fl, ⟨toks, E.ind i⟩⟩ p0 (adv p0 k)) := by
  unfold lineItem
  simp only
  split
  · trivial
  · have hind : ({ E.ind i with indent := (E.ind i).indent + 1 } : Indent) = E.ind (i + 1) := rfl
    rw [hind]
    split
    · rename_i e st' heq
      obtain ⟨j, tr, a, h1, ha, h2, h3, h4, hv⟩ := part_err hev hlf hs heq
      exact ⟨a, hrun a ha, hv⟩
    · rename_i range s' err st' heq
      obtain ⟨n, ts, j, tr, a, h1, ha, hlen, h3, h4, h5, hv⟩ := part_ok hev hlf hs heq
      exact ⟨a, hrun a ha, hv⟩
    · trivial
    · trivial

theorem lineClosureIndent_left (r first fl p i toks s oe) (hs : s ≤ toks.length)
    (hfl : E.align = true → fl = first) :
    LeftLine E r true first p i toks s
      (lineClosureIndent ev r ⟨s, oe, fl, ⟨toks, E.ind i⟩⟩ p) := by
  unfold lineClosureIndent
  split
  · rename_i he
    exact ⟨_, .line_shallow (eatIndent_none _ _ _ he), rfl⟩
  · rename_i k he
    have hc : Carries E.tab i p.src k := eatIndent_some _ _ _ _ he
    simp only
    split
    · rename_i hcond
      have ha : E.align = true := hcond.2
      have hf : first = true := by rw [← hfl ha]; exact hcond.1
      subst hf
      obtain ⟨hm, hw⟩ := eatAlign_spec E.tab (p.src.drop k)
      have e1 : (E.ind i).tabSpaces = E.tab := rfl
      simp only [e1, consume_eq, adv_adv]
      split
      · trivial
      · have hw' : i + (eatAlign E.tab (p.src.drop k)).2 =
            i + width E.tab ((p.src.drop k).take (eatAlign E.tab (p.src.drop k)).1) := by rw [hw]
        refine lineItem_left hev hlf r true p (k + (eatAlign E.tab (p.src.drop k)).1) i
          (i + (eatAlign E.tab (p.src.drop k)).2) toks s oe false hs ?_
        intro a hr
        rw [hw'] at hr
        exact .line_align ha hc hm hr
    · rename_i hcond
      have ha : ¬ (first = true ∧ E.align = true) := by
        rintro ⟨h1, h2⟩
        exact hcond ⟨by rw [hfl h2]; exact h1, h2⟩
      split
      · rename_i range ht
        have := (tag_some ht).1
        have hd : (p.src.drop k).head? = some ' ' := by
          obtain ⟨x, hx⟩ := this
          have : (p.consume k).src = p.src.drop k := rfl
          rw [← this, ← hx]; rfl
        exact ⟨_, .line_deep ha hc hd, rfl⟩
      · rename_i ht
        have hd : (p.src.drop k).head? ≠ some ' ' := by
          intro h
          apply tag_none ht
          have : (p.consume k).src = p.src.drop k := rfl
          rw [this]
          cases hq : p.src.drop k with
          | nil => rw [hq] at h; simp at h
          | cons c cs => rw [hq] at h; simp at h; subst h; exact ⟨cs, rfl⟩
        exact lineItem_left hev hlf r first p k i i toks s oe fl hs
          (fun a hr => .line_body ha hc hd hr)

theorem lines_left (r indent id) (start : Pos) : ∀ fuel first item p i toks s oe fl,
    s ≤ toks.length → (indent = true → E.align = true → fl = first) →
    Left E (.lines r indent id first item) p i toks s
      (evalLines E.L (if indent then lineClosureIndent ev r else lineClosure ev r) id start
        fuel first item p ⟨s, oe, fl, ⟨toks, E.ind i⟩⟩)
  | 0, _, _, _, _, _, _, _, _, _, _ => trivial
  | fuel + 1, first, item, p, i, toks, s, oe, fl, hs, hfl => by
    simp only [evalLines]
    split
    · rename_i k h
      exact ⟨_, .lines_done h, rfl⟩
    · rename_i k h
      exact ⟨_, .lines_fail h, rfl⟩
    · rename_i k h
      rw [consume_eq]
      have hg : GoodLine E r indent first (adv p k) i toks s oe
          ((if indent then lineClosureIndent ev r else lineClosure ev r)
            ⟨s, oe, fl, ⟨toks, E.ind i⟩⟩ (adv p k)) := by
        cases indent with
        | true => exact lineClosureIndent_good hev r first fl _ i toks s oe hs (hfl rfl)
        | false => exact lineClosure_good hev r first fl _ i toks s oe hs
      have hl : LeftLine E r indent first (adv p k) i toks s
          ((if indent then lineClosureIndent ev r else lineClosure ev r)
            ⟨s, oe, fl, ⟨toks, E.ind i⟩⟩ (adv p k)) := by
        cases indent with
        | true => exact lineClosureIndent_left hev hlf r first fl _ i toks s oe hs (hfl rfl)
        | false => exact lineClosure_left hev hlf r first fl _ i toks s oe hs
      split
      · rename_i x' heq
        rw [heq] at hg hl
        obtain ⟨j, tr, h1, h2, h3, h4, h5, h6⟩ := hg
        obtain ⟨a, ha, hv⟩ := hl
        exact ⟨a, .lines_stop h h1 ha, hv⟩
      · rename_i range x' heq
        rw [heq] at hg hl
        obtain ⟨n, ts, j, tr, h1, h2, h3, h4, h5, h6, h7⟩ := hg
        obtain ⟨a, ha, hv⟩ := hl
        rw [h2, consume_eq, adv_adv]
        have hx : x' = ⟨x'.s, errUpdate (best tr) oe, x'.first, ⟨x'.st.toks, E.ind j⟩⟩ := by
          cases x'; simp at *; simp [← h6, ← h5]
        rw [hx]
        exact .cons hv h4 (lines_left r indent id start fuel false _ (adv p (k + n)) j x'.st.toks x'.s _
          x'.first h3 h7) (fun b hb => .lines_more h h1 ha hb)
      · trivial
      · trivial

theorem step_left (fuel : Nat) : EvLeft E (step E.L E.refs ev fuel) := by
  intro r i toks s p hs
  cases r with
  | whitespace => exact whitespace_left _ _ _ _ _ _ hs
  | tag => exact tag_left _ _ _ _ _ _ _ _ _ hs
  | untilAny => exact untilAny_left _ _ _ _ _ _ _ _ hs
  | untilAnyOrWs => exact untilAnyOrWs_left _ _ _ _ _ _ _ _ hs
  | text => exact text_left _ _ _ _ _ _ _ hs
  | number => exact number_left _ _ _ _ _ _ _ hs
  | select args id => exact (select_left hev hlf id p args i toks s none hs).imp fun _ => .select
  | fastSelect => exact fastSelect_left hev hlf _ _ _ _ _ _ _ _ hs
  | sequence args id => exact (sequence_left hev hlf p args p i toks s none hs).imp fun _ => .sequence
  | separateBy => exact separateBy_left hev hlf _ _ _ _ _ _ _ _ _ _ hs
  | repeat_ r opt id => exact (rep_left hev hlf r opt p fuel true p i toks s none hs).imp fun _ => .rep
  | lines r indent id =>
    exact (lines_left hev hlf r indent id p fuel true [] p i toks s none true hs (fun _ _ => rfl)).imp
      fun _ => .lines
  | node => exact node_left hev hlf _ _ _ _ _ _ _ _ hs
  | optional => exact optional_left hev hlf _ _ _ _ _ _ hs
  | not => exact not_left hev hlf _ _ _ _ _ _ hs

end

theorem eval_left (E : Env) : ∀ n, EvLeft E (eval E.L E.refs n)
  | 0 => fun _ _ _ _ _ _ => trivial
  | n + 1 => step_left (eval_sound E n) (eval_left E n) n

end Verif
