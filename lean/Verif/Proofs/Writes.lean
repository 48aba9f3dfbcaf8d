import Verif.Proofs.Recorded
import Verif.Proofs.Calls
import Verif.Model.Writes
/-
The vector after each item that is pushed is what stands recorded according to `Recs`.
-/
namespace Verif
open Spec

/-- What is written while `out` is run, from the vector `toks` in state `s`: the recordings of the goal. -/
def DidPush (E : Env) (g : Goal) (p : Pos) (i : Nat) (toks : List Tok) (s : Nat) (w : List (List Tok)) : Out → Prop
  | .ret _ _ => ∃ a, Recs E g p i a ∧ w = behind (toks.take s) a
  | _ => True

def EvDidPush (E : Env) (ev : Ev) (wr : Call → List (List Tok)) : Prop :=
  ∀ r i toks s p, s ≤ toks.length →
    DidPush E (.rule r) p i toks s (wr ⟨r, ⟨toks, E.ind i⟩, s, p⟩) (ev r ⟨toks, E.ind i⟩ s p)

theorem behind_nil (ts : List Tok) : behind ts [] = [] := rfl

theorem behind_append (ts : List Tok) (a b : List (List Tok)) : behind ts (a ++ b) = behind ts a ++ behind ts b := by
  simp [behind]

theorem behind_behind (ts us : List Tok) (a : List (List Tok)) : behind ts (behind us a) = behind (ts ++ us) a := by
  simp [behind, Function.comp_def]

section
variable {E : Env}

theorem DidPush.imp {g g' : Goal} {p p' : Pos} {i i' : Nat} {toks : List Tok} {s : Nat} {w} {out : Out}
    (h : DidPush E g p i toks s w out) (hr : ∀ a, Recs E g p i a → Recs E g' p' i' a) :
    DidPush E g' p' i' toks s w out := by
  cases out with
  | ret res st => obtain ⟨a, ha, h⟩ := h; exact ⟨a, hr a ha, h⟩
  | _ => trivial

theorem DidPush.cons {g g' : Goal} {p p' : Pos} {i i' : Nat} {toks t1 : List Tok} {s s1 : Nat} {w w' : List (List Tok)}
    {out : Out} {ts : List Tok} {a : List (List Tok)} (h1 : w = behind (toks.take s) a)
    (ht : t1.take s1 = toks.take s ++ ts) (h : DidPush E g p i t1 s1 w' out)
    (hr : ∀ b, Recs E g p i b → Recs E g' p' i' (a ++ behind ts b)) : DidPush E g' p' i' toks s (w ++ w') out := by
  cases out with
  | ret res st =>
    obtain ⟨b, hb, h⟩ := h
    exact ⟨_, hr b hb, by rw [h1, h, ht, behind_append, behind_behind]⟩
  | _ => trivial

theorem DidPush.next {g g' : Goal} {p p' : Pos} {i i' : Nat} {toks t1 : List Tok} {s : Nat} {w w' : List (List Tok)}
    {out : Out} {a : List (List Tok)} (h1 : w = behind (toks.take s) a) (ht : t1.take s = toks.take s)
    (h : DidPush E g p i t1 s w' out) (hr : ∀ b, Recs E g p i b → Recs E g' p' i' (a ++ b)) :
    DidPush E g' p' i' toks s (w ++ w') out := by
  cases out with
  | ret res st =>
    obtain ⟨b, hb, h⟩ := h
    exact ⟨_, hr b hb, by rw [h1, h, ht, behind_append]⟩
  | _ => trivial

variable {ev : Ev} {wr : Call → List (List Tok)} (hev : EvSound E ev) (hwr : EvDidPush E ev wr)
include hev hwr

/-- A part that succeeds. -/
theorem wrote_ok {r i toks s p range s' err st'} (hs : s ≤ toks.length)
    (heq : ev r ⟨toks, E.ind i⟩ s p = .ret (.ok range s' err) st') :
    ∃ n ts j tr a, Run E (.rule r) p i (some (n, ts)) j tr ∧ Recs E (.rule r) p i a ∧ range.length = n ∧
      s' ≤ st'.toks.length ∧ st'.toks.take s' = toks.take s ++ ts ∧ st' = ⟨st'.toks, E.ind j⟩ ∧
      wr ⟨r, ⟨toks, E.ind i⟩, s, p⟩ = behind (toks.take s) a := by
  have hg := hev r i toks s p hs
  have hl := hwr r i toks s p hs
  rw [heq] at hg hl
  obtain ⟨n, ts, j, tr, h1, h2, h3, h4, h5, h6⟩ := hg
  obtain ⟨a, ha, hv⟩ := hl
  exact ⟨n, ts, j, tr, a, h1, ha, by rw [h2]; simp, h3, h4, good_ret_eta rfl h5, hv⟩

/-- A part that fails. -/
theorem wrote_err {r i toks s p e st'} (hs : s ≤ toks.length)
    (heq : ev r ⟨toks, E.ind i⟩ s p = .ret (.err e) st') :
    ∃ j tr a, Run E (.rule r) p i none j tr ∧ Recs E (.rule r) p i a ∧
      s ≤ st'.toks.length ∧ st'.toks.take s = toks.take s ∧ st' = ⟨st'.toks, E.ind j⟩ ∧
      wr ⟨r, ⟨toks, E.ind i⟩, s, p⟩ = behind (toks.take s) a := by
  have hg := hev r i toks s p hs
  have hl := hwr r i toks s p hs
  rw [heq] at hg hl
  obtain ⟨j, tr, h1, h2, h3, h4, h5⟩ := hg
  obtain ⟨a, ha, hv⟩ := hl
  exact ⟨j, tr, a, h1, ha, h2, h3, good_ret_eta rfl h4, hv⟩

theorem select_wrote (id p) : ∀ rs i toks s oe, s ≤ toks.length →
    DidPush E (.sel rs) p i toks s ((selectCalls ev s p rs ⟨toks, E.ind i⟩).flatMap wr)
      (evalSelect ev id s p rs oe ⟨toks, E.ind i⟩)
  | [], i, toks, s, none, _ => ⟨_, .sel_nil, rfl⟩
  | [], i, toks, s, some e, hs => ⟨_, .sel_nil, rfl⟩
  | r :: rs, i, toks, s, oe, hs => by
    simp only [evalSelect, selectCalls, List.flatMap_cons]
    cases heq : ev r ⟨toks, E.ind i⟩ s p with
    | ret res st' =>
      cases res with
      | ok range s' err =>
        obtain ⟨n, ts, j, tr, a, h1, ha, _, _, _, _, hv⟩ := wrote_ok hev hwr hs heq
        exact ⟨a, .sel_here h1 ha, by simpa using hv⟩
      | err e =>
        obtain ⟨j, tr, a, h1, ha, h2, h3, h4, hv⟩ := wrote_err hev hwr hs heq
        simp only
        rw [h4]
        exact .next hv h3 (select_wrote id p rs j st'.toks s _ h2) (fun b hb => .sel_next h1 ha hb)
    | _ => trivial

theorem fastSelect_wrote (tb args tail id i toks s p) (hs : s ≤ toks.length) :
    DidPush E (.rule (.fastSelect tb args tail id)) p i toks s
      ((fastSelectCalls ev tb args tail ⟨toks, E.ind i⟩ s p).flatMap wr)
      (evalFastSelect ev tb args tail id ⟨toks, E.ind i⟩ s p) := by
  unfold evalFastSelect fastSelectCalls
  cases hsrc : p.src with
  | nil => exact ⟨_, .fast_end hsrc, rfl⟩
  | cons c cs =>
    obtain ⟨b, bs, hb⟩ := utf8_ne_nil c
    simp only [firstByte_eq hb]
    cases tail with
    | false =>
      simp only [Bool.false_eq_true, if_false]
      by_cases ht : tb b = 255
      · simp only [ht, ne_eq, not_true_eq_false, if_false]
        exact ⟨_, .fast_miss hsrc hb ht, rfl⟩
      · simp only [ne_eq, ht, not_false_eq_true, if_true]
        cases hr : args[(tb b).toNat]? with
        | none => trivial
        | some r =>
          simp only [List.flatMap_cons]
          cases heq : ev r ⟨toks, E.ind i⟩ s p with
          | ret res st' =>
            cases res with
            | ok range s' err =>
              obtain ⟨n, ts, j, tr, a, h1, ha, _, _, _, _, hv⟩ := wrote_ok hev hwr hs heq
              exact ⟨a, .fast_hit hsrc hb ht hr ha, by simpa using hv⟩
            | err e =>
              obtain ⟨j, tr, a, h1, ha, h2, h3, h4, hv⟩ := wrote_err hev hwr hs heq
              exact ⟨a, .fast_hit hsrc hb ht hr ha, by simpa using hv⟩
          | _ => trivial
    | true =>
      simp only [if_true]
      by_cases ht : tb b = 255
      · simp only [ht, ne_eq, not_true_eq_false, if_false]
        cases hr : args.getLast? with
        | none => trivial
        | some r =>
          simp only [List.flatMap_cons, List.flatMap_nil, List.append_nil]
          cases heq : ev r ⟨toks, E.ind i⟩ s p with
          | ret res st' =>
            cases res with
            | ok range s' err =>
              obtain ⟨n, ts, j, tr, a, h1, ha, _, _, _, _, hv⟩ := wrote_ok hev hwr hs heq
              exact ⟨a, .fastTail_miss hsrc hb ht hr ha, hv⟩
            | err e =>
              obtain ⟨j, tr, a, h1, ha, h2, h3, h4, hv⟩ := wrote_err hev hwr hs heq
              exact ⟨a, .fastTail_miss hsrc hb ht hr ha, hv⟩
          | _ => trivial
      · simp only [ne_eq, ht, not_false_eq_true, if_true]
        cases hr : args[(tb b).toNat]? with
        | none => trivial
        | some r =>
          simp only [List.flatMap_cons]
          cases heq : ev r ⟨toks, E.ind i⟩ s p with
          | ret res st' =>
            cases res with
            | ok range s' err =>
              obtain ⟨n, ts, j, tr, a, h1, ha, _, _, _, _, hv⟩ := wrote_ok hev hwr hs heq
              exact ⟨a, .fastTail_hit hsrc hb ht hr h1 ha, by simpa using hv⟩
            | err e =>
              obtain ⟨j, tr, a, h1, ha, h2, h3, h4, hv⟩ := wrote_err hev hwr hs heq
              simp only
              rw [h4]
              cases hr' : args.getLast? with
              | none => trivial
              | some r' =>
                simp only [List.flatMap_cons, List.flatMap_nil, List.append_nil]
                cases heq' : ev r' ⟨st'.toks, E.ind j⟩ s p with
                | ret res st'' =>
                  cases res with
                  | ok range s' err =>
                    obtain ⟨_, _, _, _, a', _, ha', _, _, _, _, hv'⟩ := wrote_ok hev hwr h2 heq'
                    exact ⟨_, .fastTail_next hsrc hb ht hr h1 ha hr' ha', by rw [hv, hv', h3, behind_append]⟩
                  | err e =>
                    obtain ⟨_, _, a', _, ha', _, _, _, hv'⟩ := wrote_err hev hwr h2 heq'
                    exact ⟨_, .fastTail_next hsrc hb ht hr h1 ha hr' ha', by rw [hv, hv', h3, behind_append]⟩
                | _ => trivial
          | _ => trivial

theorem sequence_wrote (start : Pos) : ∀ rs p i toks s oe, s ≤ toks.length →
    DidPush E (.seq rs) p i toks s ((sequenceCalls ev rs p s ⟨toks, E.ind i⟩).flatMap wr)
      (evalSequence ev start rs p s oe ⟨toks, E.ind i⟩)
  | [], p, i, toks, s, oe, hs => ⟨_, .seq_nil, rfl⟩
  | r :: rs, p, i, toks, s, oe, hs => by
    simp only [evalSequence, sequenceCalls, List.flatMap_cons]
    cases heq : ev r ⟨toks, E.ind i⟩ s p with
    | ret res st' =>
      cases res with
      | ok range s' err =>
        obtain ⟨n, ts, j, tr, a, h1, ha, hlen, h3, h4, h5, hv⟩ := wrote_ok hev hwr hs heq
        simp only
        rw [h5, hlen]
        exact .cons hv h4 (sequence_wrote start rs (adv p n) j st'.toks s' _ h3)
          (fun b hb => .seq_cons h1 ha hb)
      | err e =>
        obtain ⟨j, tr, a, h1, ha, h2, h3, h4, hv⟩ := wrote_err hev hwr hs heq
        exact ⟨a, .seq_fail h1 ha, by simpa using hv⟩
    | _ => trivial

theorem rep_wrote (r opt) (start : Pos) : ∀ fuel first p i toks s oe, s ≤ toks.length →
    DidPush E (.rep r) p i toks s ((repeatCalls ev r fuel p s ⟨toks, E.ind i⟩).flatMap wr)
      (evalRepeat ev r opt start fuel first p s oe ⟨toks, E.ind i⟩)
  | 0, _, _, _, _, _, _, _ => trivial
  | fuel + 1, first, p, i, toks, s, oe, hs => by
    simp only [evalRepeat, repeatCalls, List.flatMap_cons]
    cases heq : ev r ⟨toks, E.ind i⟩ s p with
    | ret res st' =>
      cases res with
      | ok range s' err =>
        obtain ⟨n, ts, j, tr, a, h1, ha, hlen, h3, h4, h5, hv⟩ := wrote_ok hev hwr hs heq
        simp only
        rw [h5, hlen]
        exact .cons hv h4 (rep_wrote r opt start fuel false (adv p n) j st'.toks s' _ h3)
          (fun b hb => .rep_more h1 ha hb)
      | err e =>
        obtain ⟨j, tr, a, h1, ha, h2, h3, h4, hv⟩ := wrote_err hev hwr hs heq
        simp only
        split <;> exact ⟨a, .rep_stop h1 ha, by simpa using hv⟩
    | _ => trivial

theorem sepTail_wrote (r b opt trail) (start : Pos) : ∀ fuel p i toks s oe, s ≤ toks.length →
    DidPush E (.sepTail r b trail) p i toks s
      (wr ⟨b, ⟨toks, E.ind i⟩, s, p⟩ ++
        (match ev b ⟨toks, E.ind i⟩ s p with
          | .ret (.ok range2 s2 _) st2 => separateByCalls ev r b fuel (p.consume range2.length) s2 st2
          | _ => []).flatMap wr)
      (match ev b ⟨toks, E.ind i⟩ s p with
      | .ret (.err e) st2 => .ret (.ok (p.subtract start) s (errUpdate (some e) oe)) st2
      | .ret (.ok range2 s2 err2) st2 =>
        evalSeparateBy ev r b opt trail start fuel false
          (p.consume range2.length) s2 (errUpdate err2 oe) st2
      | .timeout => .timeout
      | .panic => .panic)
  | fuel, p, i, toks, s, oe, hs => by
    cases heq : ev b ⟨toks, E.ind i⟩ s p with
    | ret res st' =>
      cases res with
      | err e =>
        obtain ⟨j, tr, a, h1, ha, h2, h3, h4, hv⟩ := wrote_err hev hwr hs heq
        exact ⟨a, .sep_stop h1 ha, by simpa using hv⟩
      | ok range s' err =>
        obtain ⟨m, us, j, tr, a, h1, ha, hlen, h3, h4, h5, hv⟩ := wrote_ok hev hwr hs heq
        simp only
        rw [h5, hlen, consume_eq]
        cases fuel with
        | zero => trivial
        | succ fuel =>
          simp only [evalSeparateBy, separateByCalls, List.flatMap_cons]
          cases heq' : ev r ⟨st'.toks, E.ind j⟩ s' (adv p m) with
          | ret res st2 =>
            cases res with
            | err e =>
              obtain ⟨k, tr', c, g1, hc, _, _, _, hv'⟩ := wrote_err hev hwr h3 heq'
              have : wr ⟨b, ⟨toks, E.ind i⟩, s, p⟩ ++ wr ⟨r, ⟨st'.toks, E.ind j⟩, s', adv p m⟩ =
                  behind (toks.take s) (a ++ behind us c) := by
                rw [hv, hv', h4, behind_append, behind_behind]
              simp only
              split <;> exact ⟨_, .sep_last h1 ha g1 hc, by simpa using this⟩
            | ok range2 s2 err2 =>
              obtain ⟨n, ts, k, tr', c, g1, hc, hlen2, g3, g4, g5, hv'⟩ := wrote_ok hev hwr h3 heq'
              have ih := sepTail_wrote r b opt trail start fuel (adv p (m + n)) k st2.toks s2
                (errUpdate err2 (errUpdate err oe)) g3
              rw [← g5] at ih
              simp only [hlen2, consume_eq, adv_adv, List.flatMap_cons] at ih ⊢
              rw [← List.append_assoc]
              refine .cons (ts := us ++ ts) (a := a ++ behind us c) ?_ ?_ ih (fun d hd => ?_)
              · rw [hv, hv', h4, behind_append, behind_behind]
              · rw [g4, h4, List.append_assoc]
              · have := Recs.sep_more h1 ha g1 hc hd
                rw [behind_append, behind_behind, ← List.append_assoc] at this
                exact this
          | _ => trivial
    | _ => trivial

theorem separateBy_wrote (r b opt trail id fuel i toks s p) (hs : s ≤ toks.length) :
    DidPush E (.rule (.separateBy r b opt trail id)) p i toks s
      ((separateByCalls ev r b fuel p s ⟨toks, E.ind i⟩).flatMap wr)
      (evalSeparateBy ev r b opt trail p fuel true p s none ⟨toks, E.ind i⟩) := by
  cases fuel with
  | zero => trivial
  | succ fuel =>
    simp only [evalSeparateBy, separateByCalls, List.flatMap_cons]
    cases heq : ev r ⟨toks, E.ind i⟩ s p with
    | ret res st' =>
      cases res with
      | err e =>
        obtain ⟨j, tr, a, h1, ha, h2, h3, h4, hv⟩ := wrote_err hev hwr hs heq
        simp only
        split <;> exact ⟨a, .sep_none h1 ha, by simpa using hv⟩
      | ok range s' err =>
        obtain ⟨n, ts, j, tr, a, h1, ha, hlen, h3, h4, h5, hv⟩ := wrote_ok hev hwr hs heq
        have ih := sepTail_wrote hev hwr r b opt trail p fuel (adv p n) j st'.toks s' (errUpdate err none) h3
        rw [← h5] at ih
        simp only [hlen, consume_eq, List.flatMap_cons] at ih ⊢
        exact .cons hv h4 ih (fun c hc => .sep_first h1 ha hc)
    | _ => trivial

omit hev in
theorem optional_wrote (r id i toks s p) (hs : s ≤ toks.length) :
    DidPush E (.rule (.optional r id)) p i toks s (wr ⟨r, ⟨toks, E.ind i⟩, s, p⟩)
      (evalOptional ev r ⟨toks, E.ind i⟩ s p) := by
  have h := hwr r i toks s p hs
  unfold evalOptional
  revert h
  cases ev r ⟨toks, E.ind i⟩ s p with
  | ret res st' =>
    intro h
    cases res <;> exact h.imp fun _ => .optional
  | _ => intro; trivial

omit hev in
theorem not_wrote (r id i toks s p) (hs : s ≤ toks.length) :
    DidPush E (.rule (.not r id)) p i toks s (wr ⟨r, ⟨toks, E.ind i⟩, s, p⟩)
      (evalNot ev r id ⟨toks, E.ind i⟩ s p) := by
  have h := hwr r i toks s p hs
  unfold evalNot
  revert h
  cases ev r ⟨toks, E.ind i⟩ s p with
  | ret res st' =>
    intro h
    cases res <;> exact h.imp fun _ => .not
  | _ => intro; trivial

omit hev hwr in
/-- What is written by one call of the closure of `lines`. -/
def LineDidPush (E : Env) (r : Rule) (indent first : Bool) (p : Pos) (i : Nat) (toks : List Tok)
    (s : Nat) (w : List (List Tok)) : LineOut → Prop
  | .ret _ _ => ∃ a, Recs E (.line r indent first) p i a ∧ w = behind (toks.take s) a
  | _ => True

theorem lineClosure_wrote (r first fl p i toks s oe) (hs : s ≤ toks.length) :
    LineDidPush E r false first p i toks s ((lineClosureCalls r ⟨s, oe, fl, ⟨toks, E.ind i⟩⟩ p).flatMap wr)
      (lineClosure ev r ⟨s, oe, fl, ⟨toks, E.ind i⟩⟩ p) := by
  simp only [lineClosure, lineClosureCalls, List.flatMap_cons, List.flatMap_nil, List.append_nil]
  cases heq : ev r ⟨toks, E.ind i⟩ s p with
  | ret res st' =>
    cases res with
    | err e =>
      obtain ⟨j, tr, a, h1, ha, h2, h3, h4, hv⟩ := wrote_err hev hwr hs heq
      exact ⟨a, .line_plain ha, hv⟩
    | ok range s' err =>
      obtain ⟨n, ts, j, tr, a, h1, ha, hlen, h3, h4, h5, hv⟩ := wrote_ok hev hwr hs heq
      exact ⟨a, .line_plain ha, hv⟩
  | _ => trivial

theorem lineItem_wrote (r first) (p0 : Pos) (k i0 i toks s oe fl) (hs : s ≤ toks.length)
    (hrun : ∀ a, Recs E (.rule r) (adv p0 k) (i + 1) a → Recs E (.line r true first) p0 i0 a) :
    LineDidPush E r true first p0 i0 toks s
      ((lineItemCalls r ⟨s, oe, fl, ⟨toks, E.ind i⟩⟩ (adv p0 k)).flatMap wr)
      (lineItem ev r ⟨s, oe, fl, ⟨toks, E.ind i⟩⟩ p0 (adv p0 k)) := by
  unfold lineItem lineItemCalls
  simp only
  split
  · trivial
  · have hind : ({ E.ind i with indent := (E.ind i).indent + 1 } : Indent) = E.ind (i + 1) := rfl
    simp only [hind, List.flatMap_cons, List.flatMap_nil, List.append_nil]
    cases heq : ev r ⟨toks, E.ind (i + 1)⟩ s (adv p0 k) with
    | ret res st' =>
      cases res with
      | err e =>
        obtain ⟨j, tr, a, h1, ha, h2, h3, h4, hv⟩ := wrote_err hev hwr hs heq
        exact ⟨a, hrun a ha, hv⟩
      | ok range s' err =>
        obtain ⟨n, ts, j, tr, a, h1, ha, hlen, h3, h4, h5, hv⟩ := wrote_ok hev hwr hs heq
        exact ⟨a, hrun a ha, hv⟩
    | _ => trivial

theorem lineClosureIndent_wrote (r first fl p i toks s oe) (hs : s ≤ toks.length)
    (hfl : E.align = true → fl = first) :
    LineDidPush E r true first p i toks s
      ((lineClosureIndentCalls r ⟨s, oe, fl, ⟨toks, E.ind i⟩⟩ p).flatMap wr)
      (lineClosureIndent ev r ⟨s, oe, fl, ⟨toks, E.ind i⟩⟩ p) := by
  unfold lineClosureIndent lineClosureIndentCalls
  simp only
  cases he : eatIndent (E.ind i).tabSpaces p.src (E.ind i).indent with
  | none => exact ⟨_, .line_shallow (eatIndent_none _ _ _ he), rfl⟩
  | some k =>
    have hc : Carries E.tab i p.src k := eatIndent_some _ _ _ _ he
    simp only
    by_cases hcond : fl = true ∧ (E.ind i).alignFirst = true
    · rw [if_pos hcond, if_pos hcond]
      have ha : E.align = true := hcond.2
      have hf : first = true := by rw [← hfl ha]; exact hcond.1
      subst hf
      obtain ⟨hm, hw⟩ := eatAlign_spec E.tab (p.src.drop k)
      have e1 : (E.ind i).tabSpaces = E.tab := rfl
      simp only [e1, consume_eq, adv_adv, adv_src]
      split
      · trivial
      · have hw' : i + (eatAlign E.tab (p.src.drop k)).2 =
            i + width E.tab ((p.src.drop k).take (eatAlign E.tab (p.src.drop k)).1) := by rw [hw]
        refine lineItem_wrote hev hwr r true p (k + (eatAlign E.tab (p.src.drop k)).1) i
          (i + (eatAlign E.tab (p.src.drop k)).2) toks s oe false hs ?_
        intro a hr
        rw [hw'] at hr
        exact .line_align ha hc hm hr
    · simp only [hcond, if_false]
      have ha : ¬ (first = true ∧ E.align = true) := by
        rintro ⟨h1, h2⟩
        exact hcond ⟨by rw [hfl h2]; exact h1, h2⟩
      cases ht : (p.consume k).tag [' '] with
      | some range =>
        have := (tag_some ht).1
        have hd : (p.src.drop k).head? = some ' ' := by
          obtain ⟨x, hx⟩ := this
          have : (p.consume k).src = p.src.drop k := rfl
          rw [← this, ← hx]; rfl
        exact ⟨_, .line_deep ha hc hd, rfl⟩
      | none =>
        have hd : (p.src.drop k).head? ≠ some ' ' := by
          intro h
          apply tag_none ht
          have : (p.consume k).src = p.src.drop k := rfl
          rw [this]
          cases hq : p.src.drop k with
          | nil => rw [hq] at h; simp at h
          | cons c cs => rw [hq] at h; simp at h; subst h; exact ⟨cs, rfl⟩
        exact lineItem_wrote hev hwr r first p k i i toks s oe fl hs
          (fun a hr => .line_body ha hc hd hr)

theorem lines_wrote (r indent id) (start : Pos) : ∀ fuel first item p i toks s oe fl,
    s ≤ toks.length → (indent = true → E.align = true → fl = first) →
    DidPush E (.lines r indent id first item) p i toks s
      ((linesCalls E.L (if indent then lineClosureIndent ev r else lineClosure ev r)
        (if indent then lineClosureIndentCalls r else lineClosureCalls r) fuel first item p
        ⟨s, oe, fl, ⟨toks, E.ind i⟩⟩).flatMap wr)
      (evalLines E.L (if indent then lineClosureIndent ev r else lineClosure ev r) id start
        fuel first item p ⟨s, oe, fl, ⟨toks, E.ind i⟩⟩)
  | 0, _, _, _, _, _, _, _, _, _, _ => trivial
  | fuel + 1, first, item, p, i, toks, s, oe, fl, hs, hfl => by
    simp only [evalLines, linesCalls]
    cases h : E.L.lineNext first item p.src with
    | done k => exact ⟨_, .lines_done h, rfl⟩
    | fail k => exact ⟨_, .lines_fail h, rfl⟩
    | call k =>
      simp only [consume_eq, List.flatMap_append]
      have hg : GoodLine E r indent first (adv p k) i toks s oe
          ((if indent then lineClosureIndent ev r else lineClosure ev r)
            ⟨s, oe, fl, ⟨toks, E.ind i⟩⟩ (adv p k)) := by
        cases indent with
        | true => exact lineClosureIndent_good hev r first fl _ i toks s oe hs (hfl rfl)
        | false => exact lineClosure_good hev r first fl _ i toks s oe hs
      have hl : LineDidPush E r indent first (adv p k) i toks s
          (((if indent then lineClosureIndentCalls r else lineClosureCalls r)
            ⟨s, oe, fl, ⟨toks, E.ind i⟩⟩ (adv p k)).flatMap wr)
          ((if indent then lineClosureIndent ev r else lineClosure ev r)
            ⟨s, oe, fl, ⟨toks, E.ind i⟩⟩ (adv p k)) := by
        cases indent with
        | true => exact lineClosureIndent_wrote hev hwr r first fl _ i toks s oe hs (hfl rfl)
        | false => exact lineClosure_wrote hev hwr r first fl _ i toks s oe hs
      cases heq : (if indent then lineClosureIndent ev r else lineClosure ev r)
            ⟨s, oe, fl, ⟨toks, E.ind i⟩⟩ (adv p k) with
      | ret res x' =>
        rw [heq] at hg hl
        cases res with
        | none =>
          obtain ⟨j, tr, h1, h2, h3, h4, h5, h6⟩ := hg
          obtain ⟨a, ha, hv⟩ := hl
          exact ⟨a, .lines_stop h h1 ha, by simpa using hv⟩
        | some range =>
          obtain ⟨n, ts, j, tr, h1, h2, h3, h4, h5, h6, h7⟩ := hg
          obtain ⟨a, ha, hv⟩ := hl
          simp only [h2, adv_adv]
          have hx : x' = ⟨x'.s, errUpdate (best tr) oe, x'.first, ⟨x'.st.toks, E.ind j⟩⟩ := by
            cases x'; simp at *; simp [← h6, ← h5]
          rw [hx]
          exact .cons hv h4 (lines_wrote r indent id start fuel false _ (adv p (k + n)) j x'.st.toks x'.s _
            x'.first h3 h7) (fun b hb => .lines_more h h1 ha hb)
      | _ => trivial

theorem node_wrote (name prop index id fuel i toks s p) (hs : s ≤ toks.length) :
    DidPush E (.rule (.node name prop index id)) p i toks s
      (startWrite ⟨.node name prop index id, ⟨toks, E.ind i⟩, s, p⟩ ++
        (subcalls E.L E.refs ev fuel ⟨.node name prop index id, ⟨toks, E.ind i⟩, s, p⟩).flatMap wr ++
        endWrite ⟨.node name prop index id, ⟨toks, E.ind i⟩, s, p⟩
          (evalNode ev E.refs prop index id ⟨toks, E.ind i⟩ s p))
      (evalNode ev E.refs prop index id ⟨toks, E.ind i⟩ s p) := by
  cases index with
  | none =>
    refine ⟨_, .node_unresolved, ?_⟩
    cases prop <;> rfl
  | some ix =>
    simp only [subcalls, nodeCalls, evalNode]
    cases hr : E.refs[ix]? with
    | none => trivial
    | some r =>
      simp only [List.flatMap_cons, List.flatMap_nil, List.append_nil]
      cases prop with
      | none =>
        simp only [pushOpt, startWrite, List.nil_append]
        cases heq : ev r ⟨toks, E.ind i⟩ s p with
        | ret res st' =>
          cases res with
          | err e =>
            obtain ⟨j, tr, a, h1, ha, h2, h3, h4, hv⟩ := wrote_err hev hwr hs heq
            exact ⟨a, .node_plain hr ha, by simpa [endWrite, Rule.records] using hv⟩
          | ok range s' err =>
            obtain ⟨n, ts, j, tr, a, h1, ha, hlen, h3, h4, h5, hv⟩ := wrote_ok hev hwr hs heq
            exact ⟨a, .node_plain hr ha, by simpa [endWrite, Rule.records] using hv⟩
        | _ => trivial
      | some x =>
        simp only [startWrite]
        rw [pushOpt_some _ _ _ _ _ hs]
        simp only
        have hs1 : s + 1 ≤ (toks.take s ++ [(⟨p.start, .startNode x⟩ : Tok)]).length := by
          simp; omega
        have ht1 : (toks.take s ++ [(⟨p.start, .startNode x⟩ : Tok)]).take (s + 1) =
            toks.take s ++ [⟨⟨p.off, 0⟩, .startNode x⟩] := List.take_of_length_le (by simp; omega)
        have hv1 : [toks.take s ++ [(⟨p.start, .startNode x⟩ : Tok)]] =
            behind (toks.take s) [[⟨⟨p.off, 0⟩, .startNode x⟩]] := rfl
        cases heq : ev r ⟨toks.take s ++ [(⟨p.start, .startNode x⟩ : Tok)], E.ind i⟩ (s + 1) p with
        | ret res st' =>
          cases res with
          | err e =>
            obtain ⟨j, tr, a, h1, ha, h2, h3, h4, hv⟩ := wrote_err hev hwr hs1 heq
            refine ⟨_, .node_fail hr h1 ha, ?_⟩
            rw [hv, hv1, ht1, ← behind_behind]
            simp [endWrite, Rule.records, behind]
          | ok range s' err =>
            obtain ⟨n, ts, j, tr, a, h1, ha, hlen, h3, h4, h5, hv⟩ := wrote_ok hev hwr hs1 heq
            refine ⟨_, .node_ok hr h1 ha, ?_⟩
            simp only [endWrite, Rule.records]
            rw [pushOpt_some _ _ _ _ _ h3]
            have hrange : (p.consume range.length).subtract p = ⟨p.off, n⟩ := by
              rw [hlen]; simp [Pos.subtract]
            simp only [hrange]
            rw [h4, hv, hv1, ht1, ← behind_behind]
            simp [behind]
        | _ => trivial

end

section
variable {E : Env}

/-- What a rule without parts does to the vector. -/
def Pushes (prop : Option Str) (toks : List Tok) (s : Nat) (out : Out) : Prop :=
  ∀ rg s' oe st, out = .ret (.ok rg s' oe) st → (prop = none ∧ s' = s ∧ st.toks = toks) ∨
    ((∃ x, prop = some x) ∧ s' = s + 1 ∧ ∃ t, st.toks = toks.take s ++ [t])

theorem pushes_err {prop : Option Str} {toks : List Tok} {s : Nat} {e : RErr} {st : St} :
    Pushes prop toks s (.ret (.err e) st) := by rintro _ _ _ _ ⟨⟩

theorem pushes_emit {toks : List Tok} {s : Nat} {rg : Range} {prop : Option Str} {mk} {ind : Indent}
    (hs : s ≤ toks.length) : Pushes prop toks s (emitOpt prop mk rg ⟨toks, ind⟩ s) := by
  unfold emitOpt
  cases prop with
  | none => rintro _ _ _ _ ⟨⟩; exact .inl ⟨rfl, rfl, rfl⟩
  | some x =>
    rw [pushOpt_some _ _ _ _ _ hs]
    rintro _ _ _ _ ⟨⟩
    exact .inr ⟨⟨x, rfl⟩, rfl, _, rfl⟩

theorem leaf_pushes {r : Rule} (hl : Leaf r) {ev : Ev} (fuel i : Nat) {toks s p} (hs : s ≤ toks.length) :
    Pushes r.records toks s (step E.L E.refs ev fuel r ⟨toks, E.ind i⟩ s p) := by
  cases r with
  | whitespace opt id =>
    simp only [step, evalWhitespace]
    split
    · exact pushes_err
    · rintro _ _ _ _ ⟨⟩; exact .inl ⟨rfl, rfl, rfl⟩
  | tag t nt inv prop id =>
    simp only [step, evalTag]
    split <;> split <;> first | exact pushes_err | exact pushes_emit hs
  | untilAny any opt prop id =>
    simp only [step, evalUntilAny]
    split <;> first | exact pushes_err | exact pushes_emit hs
  | untilAnyOrWs any opt prop id =>
    simp only [step, evalUntilAnyOrWs]
    split <;> first | exact pushes_err | exact pushes_emit hs
  | text empty prop id =>
    simp only [step, evalText]
    split
    · split
      · exact pushes_err
      · split
        · exact pushes_err
        · exact pushes_emit hs
    · exact pushes_err
  | number prop us id =>
    simp only [step, evalNumber]
    split
    · split
      · exact pushes_err
      · exact pushes_emit hs
    · exact pushes_err
  | _ => exact hl.elim

variable {ev : Ev} {wr : Call → List (List Tok)} (hev : EvSound E ev) (hwr : EvDidPush E ev wr)

include hev in
theorem leaf_wrote {r : Rule} (hl : Leaf r) (fuel i : Nat) {toks s p} (hs : s ≤ toks.length) :
    DidPush E (.rule r) p i toks s
      (endWrite ⟨r, ⟨toks, E.ind i⟩, s, p⟩ (step E.L E.refs ev fuel r ⟨toks, E.ind i⟩ s p))
      (step E.L E.refs ev fuel r ⟨toks, E.ind i⟩ s p) := by
  have hp := leaf_pushes (E := E) hl (ev := ev) fuel i (p := p) hs
  have hg := step_sound hev fuel r i toks s p hs
  revert hp hg
  cases step E.L E.refs ev fuel r ⟨toks, E.ind i⟩ s p with
  | ret res st =>
    intro hp hg
    cases res with
    | err e =>
      obtain ⟨j, tr, h1, -⟩ := hg
      refine ⟨_, .leaf_fail hl h1, ?_⟩
      cases r.records <;> simp [endWrite, behind]
    | ok rg s' oe =>
      obtain ⟨n, ts, j, tr, h1, h2, h3, h4, -⟩ := hg
      refine ⟨_, .leaf_ok hl h1, ?_⟩
      rcases hp _ _ _ _ rfl with ⟨hr, rfl, hv⟩ | ⟨⟨x, hr⟩, rfl, t, hv⟩
      · rw [hv] at h4
        have : ts = [] := by
          have := congrArg List.length h4
          simp only [List.length_append] at this
          exact List.eq_nil_of_length_eq_zero (by omega)
        simp [endWrite, hr, this, behind]
      · rw [hv, List.take_of_length_le (by simp; omega)] at h4
        have : ts = [t] := (List.append_cancel_left h4).symm
        simp [endWrite, hr, hv, this, behind]
  | _ => intros; trivial

include hev hwr in
theorem step_wrote (fuel : Nat) : EvDidPush E (step E.L E.refs ev fuel) fun c =>
    startWrite c ++ (subcalls E.L E.refs ev fuel c).flatMap wr ++ endWrite c (c.run (step E.L E.refs ev fuel)) := by
  intro r i toks s p hs
  have leaf : Leaf r → (subcalls E.L E.refs ev fuel ⟨r, ⟨toks, E.ind i⟩, s, p⟩ = [] ∧
      startWrite ⟨r, ⟨toks, E.ind i⟩, s, p⟩ = []) →
      DidPush E (.rule r) p i toks s (startWrite ⟨r, ⟨toks, E.ind i⟩, s, p⟩ ++
        (subcalls E.L E.refs ev fuel ⟨r, ⟨toks, E.ind i⟩, s, p⟩).flatMap wr ++
        endWrite ⟨r, ⟨toks, E.ind i⟩, s, p⟩ (step E.L E.refs ev fuel r ⟨toks, E.ind i⟩ s p))
        (step E.L E.refs ev fuel r ⟨toks, E.ind i⟩ s p) := fun hl h => by
    have := leaf_wrote hev hl fuel i (p := p) hs
    rw [h.1, h.2]
    exact this
  have inner : ∀ w, (subcalls E.L E.refs ev fuel ⟨r, ⟨toks, E.ind i⟩, s, p⟩).flatMap wr = w →
      startWrite ⟨r, ⟨toks, E.ind i⟩, s, p⟩ = [] → r.records = none →
      DidPush E (.rule r) p i toks s w (step E.L E.refs ev fuel r ⟨toks, E.ind i⟩ s p) →
      DidPush E (.rule r) p i toks s (startWrite ⟨r, ⟨toks, E.ind i⟩, s, p⟩ ++
        (subcalls E.L E.refs ev fuel ⟨r, ⟨toks, E.ind i⟩, s, p⟩).flatMap wr ++
        endWrite ⟨r, ⟨toks, E.ind i⟩, s, p⟩ (step E.L E.refs ev fuel r ⟨toks, E.ind i⟩ s p))
        (step E.L E.refs ev fuel r ⟨toks, E.ind i⟩ s p) := by
    intro w h1 h2 h3 h
    rw [h1, h2]
    simpa [endWrite, h3] using h
  cases r with
  | whitespace => exact leaf trivial ⟨rfl, rfl⟩
  | tag => exact leaf trivial ⟨rfl, rfl⟩
  | untilAny => exact leaf trivial ⟨rfl, rfl⟩
  | untilAnyOrWs => exact leaf trivial ⟨rfl, rfl⟩
  | text => exact leaf trivial ⟨rfl, rfl⟩
  | number => exact leaf trivial ⟨rfl, rfl⟩
  | select args id =>
    exact inner _ rfl rfl rfl ((select_wrote hev hwr id p args i toks s none hs).imp fun _ => .select)
  | fastSelect => exact inner _ rfl rfl rfl (fastSelect_wrote hev hwr _ _ _ _ _ _ _ _ hs)
  | sequence args id =>
    exact inner _ rfl rfl rfl ((sequence_wrote hev hwr p args p i toks s none hs).imp fun _ => .sequence)
  | separateBy => exact inner _ rfl rfl rfl (separateBy_wrote hev hwr _ _ _ _ _ _ _ _ _ _ hs)
  | repeat_ r opt id =>
    exact inner _ rfl rfl rfl ((rep_wrote hev hwr r opt p fuel true p i toks s none hs).imp fun _ => .rep)
  | lines r indent id =>
    exact inner _ rfl rfl rfl
      ((lines_wrote hev hwr r indent id p fuel true [] p i toks s none true hs (fun _ _ => rfl)).imp
        fun _ => .lines)
  | node name prop ix id => exact node_wrote hev hwr name prop ix id fuel i toks s p hs
  | optional r id =>
    refine inner _ ?_ rfl rfl (optional_wrote hwr r id _ _ _ _ hs)
    simp [subcalls]
  | not r id =>
    refine inner _ ?_ rfl rfl (not_wrote hwr r id _ _ _ _ hs)
    simp [subcalls]

end

theorem eval_wrote (E : Env) : ∀ n, EvDidPush E (eval E.L E.refs n) (writes E.L E.refs n)
  | 0 => fun _ _ _ _ _ _ => trivial
  | n + 1 => step_wrote (eval_sound E n) (eval_wrote E n) n

end Verif
