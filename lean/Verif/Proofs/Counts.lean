import Verif.Model.Calls
import Verif.Proofs.Det
import Verif.Proofs.Sound
import Verif.Spec.Counts
/-
The calls that the parser makes are the ones that the meaning of the rules comes to.
Induction on the fuel.
-/
namespace Verif
open Spec

/-- The counts of a goal are determined. -/
theorem Spec.Counts.det {E : Env} {g p i c d} (h : Counts E g p i c d) :
    ∀ {c' d'}, Counts E g p i c' d' → c = c' ∧ d = d' := by
  induction h with
  | leaf hl =>
    intro _ _ h'
    cases h' with
    | leaf _ => exact ⟨rfl, rfl⟩
    | _ => exact hl.elim
  | _ =>
    intro _ _ h'
    cases h' <;> first
      | exact ⟨rfl, rfl⟩
      | (rename_i hl; exact hl.elim)
      | grind [Leaf, → Spec.Run.det, → longest_unique, → carries_unique]

/-- `P` holds if the parser returns. -/
def Tells (P : Prop) : Out → Prop
  | .ret _ _ => P
  | _ => True

theorem Tells.mono {P Q : Prop} {out : Out} (h : P → Q) (h' : Tells P out) : Tells Q out := by
  cases out <;> first | exact h h' | trivial

/-- The number of calls that the calls `cs` come to. -/
def total (cnt : Call → Nat) (cs : List Call) : Nat := (cs.map cnt).sum

/-- How deep the calls `cs` nest. -/
def deepOf (dep : Call → Nat) (cs : List Call) : Nat := (cs.map dep).foldr max 0

@[simp] theorem total_nil (cnt : Call → Nat) : total cnt [] = 0 := rfl
@[simp] theorem total_cons (cnt : Call → Nat) (c cs) : total cnt (c :: cs) = cnt c + total cnt cs := by
  simp [total]
@[simp] theorem total_append (cnt : Call → Nat) (cs ds) :
    total cnt (cs ++ ds) = total cnt cs + total cnt ds := by simp [total]
@[simp] theorem deepOf_nil (dep : Call → Nat) : deepOf dep [] = 0 := rfl
@[simp] theorem deepOf_cons (dep : Call → Nat) (c cs) :
    deepOf dep (c :: cs) = max (dep c) (deepOf dep cs) := by simp [deepOf]
@[simp] theorem deepOf_append (dep : Call → Nat) (cs ds) :
    deepOf dep (cs ++ ds) = max (deepOf dep cs) (deepOf dep ds) := by
  induction cs with
  | nil => simp
  | cons c cs ih => simp [ih, Nat.max_assoc]

section
variable {E : Env} {ev : Ev} {cnt dep : Call → Nat}

/-- The counts of the calls of rules are the ones of the meaning. -/
def EvCounts (E : Env) (ev : Ev) (cnt dep : Call → Nat) : Prop :=
  ∀ r i toks s p, s ≤ toks.length →
    Tells (Counts E (.rule r) p i (cnt ⟨r, ⟨toks, E.ind i⟩, s, p⟩) (dep ⟨r, ⟨toks, E.ind i⟩, s, p⟩))
      (ev r ⟨toks, E.ind i⟩ s p)

variable (hev : EvSound E ev) (hct : EvCounts E ev cnt dep)
include hev hct

theorem select_counts (id p) : ∀ rs i toks s oe, s ≤ toks.length →
    Tells (Counts E (.sel rs) p i (total cnt (selectCalls ev s p rs ⟨toks, E.ind i⟩))
        (deepOf dep (selectCalls ev s p rs ⟨toks, E.ind i⟩)))
      (evalSelect ev id s p rs oe ⟨toks, E.ind i⟩)
  | [], i, toks, s, oe, hs => by cases oe <;> exact .sel_nil
  | r :: rs, i, toks, s, oe, hs => by
    simp only [evalSelect, selectCalls]
    have hg := hev r i toks s p hs
    have hc := hct r i toks s p hs
    cases heq : ev r ⟨toks, E.ind i⟩ s p with
    | timeout => trivial
    | panic => trivial
    | ret res st' =>
      rw [heq] at hg hc
      cases res with
      | ok range s' err =>
        obtain ⟨n, ts, j, tr, h1, h2, h3, h4, h5, h6⟩ := hg
        simp only [total_cons, deepOf_cons, total_nil, deepOf_nil, Nat.add_zero, Nat.max_zero]
        exact .sel_here h1 hc
      | err e =>
        obtain ⟨j, tr, h1, h2, h3, h4, h5⟩ := hg
        have ih := select_counts id p rs j st'.toks s (errUpdate (some e) oe) h2
        rw [← good_ret_eta (E := E) rfl h4] at ih
        simp only [total_cons, deepOf_cons]
        exact ih.mono fun h => .sel_next h1 hc h

theorem fastSelect_counts (tb args tail id i toks s p) (hs : s ≤ toks.length) :
    Tells (Counts E (.rule (.fastSelect tb args tail id)) p i
        (1 + total cnt (fastSelectCalls ev tb args tail ⟨toks, E.ind i⟩ s p))
        (1 + deepOf dep (fastSelectCalls ev tb args tail ⟨toks, E.ind i⟩ s p)))
      (evalFastSelect ev tb args tail id ⟨toks, E.ind i⟩ s p) := by
  unfold evalFastSelect fastSelectCalls
  cases hsrc : p.src with
  | nil => exact .fast_end hsrc
  | cons c cs =>
    obtain ⟨b, bs, hb⟩ := utf8_ne_nil c
    simp only [firstByte_eq hb]
    cases tail with
    | false =>
      simp only [Bool.false_eq_true, if_false]
      by_cases ht : tb b ≠ 255
      · simp only [ht, if_true, ne_eq, not_false_eq_true]
        cases hr : args[(tb b).toNat]? with
        | none => trivial
        | some r =>
          have hg := hev r i toks s p hs
          have hc := hct r i toks s p hs
          simp only
          cases heq : ev r ⟨toks, E.ind i⟩ s p with
          | timeout => trivial
          | panic => trivial
          | ret res st' =>
            rw [heq] at hc
            cases res <;>
              simp only [total_cons, deepOf_cons, total_nil, deepOf_nil, Nat.add_zero, Nat.max_zero] <;>
              exact .fast_hit hsrc hb ht hr hc
      · have ht' : tb b = 255 := by simpa using ht
        simp only [ht', ne_eq, not_true_eq_false, if_false]
        exact .fast_miss hsrc hb ht'
    | true =>
      simp only [if_true]
      by_cases ht : tb b ≠ 255
      · simp only [ht, if_true, ne_eq, not_false_eq_true]
        cases hr : args[(tb b).toNat]? with
        | none => trivial
        | some r =>
          have hg := hev r i toks s p hs
          have hc := hct r i toks s p hs
          simp only
          cases heq : ev r ⟨toks, E.ind i⟩ s p with
          | timeout => trivial
          | panic => trivial
          | ret res st' =>
            rw [heq] at hc hg
            cases res with
            | ok range s' err =>
              obtain ⟨n, ts, j, tr, h1, h2, h3, h4, h5, h6⟩ := hg
              simp only [total_cons, deepOf_cons, total_nil, deepOf_nil, Nat.add_zero, Nat.max_zero]
              exact .fastTail_hit hsrc hb ht hr h1 hc
            | err e =>
              obtain ⟨j, tr, h1, h2, h3, h4, h5⟩ := hg
              simp only
              cases hr' : args.getLast? with
              | none => trivial
              | some r' =>
                have hc' := hct r' j st'.toks s p h2
                rw [← good_ret_eta (E := E) rfl h4] at hc'
                simp only
                cases heq' : ev r' st' s p with
                | timeout => trivial
                | panic => trivial
                | ret res2 st2 =>
                  rw [heq'] at hc'
                  cases res2 <;>
                    simp only [total_cons, deepOf_cons, total_nil, deepOf_nil, Nat.add_zero, Nat.max_zero] <;>
                    exact .fastTail_next hsrc hb ht hr h1 hc hr' hc'
      · have ht' : tb b = 255 := by simpa using ht
        simp only [ht', ne_eq, not_true_eq_false, if_false]
        cases hr : args.getLast? with
        | none => trivial
        | some r =>
          have hc := hct r i toks s p hs
          simp only
          cases heq : ev r ⟨toks, E.ind i⟩ s p with
          | timeout => trivial
          | panic => trivial
          | ret res st' =>
            rw [heq] at hc
            cases res <;>
              simp only [total_cons, deepOf_cons, total_nil, deepOf_nil, Nat.add_zero, Nat.max_zero] <;>
              exact .fastTail_miss hsrc hb ht' hr hc

theorem sequence_counts (start : Pos) : ∀ rs p i toks s oe, s ≤ toks.length →
    Tells (Counts E (.seq rs) p i (total cnt (sequenceCalls ev rs p s ⟨toks, E.ind i⟩))
        (deepOf dep (sequenceCalls ev rs p s ⟨toks, E.ind i⟩)))
      (evalSequence ev start rs p s oe ⟨toks, E.ind i⟩)
  | [], p, i, toks, s, oe, hs => .seq_nil
  | r :: rs, p, i, toks, s, oe, hs => by
    simp only [evalSequence, sequenceCalls]
    have hg := hev r i toks s p hs
    have hc := hct r i toks s p hs
    cases heq : ev r ⟨toks, E.ind i⟩ s p with
    | timeout => trivial
    | panic => trivial
    | ret res st' =>
      rw [heq] at hg hc
      cases res with
      | ok range s' err =>
        obtain ⟨n, ts, j, tr, h1, h2, h3, h4, h5, h6⟩ := hg
        have hlen : range.length = n := by rw [h2]; simp
        have ih := sequence_counts start rs (adv p n) j st'.toks s' (errUpdate err oe) h3
        rw [← good_ret_eta (E := E) rfl h5] at ih
        simp only [hlen, consume_eq, total_cons, deepOf_cons]
        exact ih.mono fun h => .seq_cons h1 hc h
      | err e =>
        obtain ⟨j, tr, h1, h2, h3, h4, h5⟩ := hg
        simp only [total_cons, deepOf_cons, total_nil, deepOf_nil, Nat.add_zero, Nat.max_zero]
        exact .seq_fail h1 hc

theorem rep_counts (r opt) (start : Pos) : ∀ fuel first p i toks s oe, s ≤ toks.length →
    Tells (Counts E (.rep r) p i (total cnt (repeatCalls ev r fuel p s ⟨toks, E.ind i⟩))
        (deepOf dep (repeatCalls ev r fuel p s ⟨toks, E.ind i⟩)))
      (evalRepeat ev r opt start fuel first p s oe ⟨toks, E.ind i⟩)
  | 0, _, _, _, _, _, _, _ => trivial
  | fuel + 1, first, p, i, toks, s, oe, hs => by
    simp only [evalRepeat, repeatCalls]
    have hg := hev r i toks s p hs
    have hc := hct r i toks s p hs
    cases heq : ev r ⟨toks, E.ind i⟩ s p with
    | timeout => trivial
    | panic => trivial
    | ret res st' =>
      rw [heq] at hg hc
      cases res with
      | ok range s' err =>
        obtain ⟨n, ts, j, tr, h1, h2, h3, h4, h5, h6⟩ := hg
        have hlen : range.length = n := by rw [h2]; simp
        have ih := rep_counts r opt start fuel false (adv p n) j st'.toks s' (errUpdate err oe) h3
        rw [← good_ret_eta (E := E) rfl h5] at ih
        simp only [hlen, consume_eq, total_cons, deepOf_cons]
        exact ih.mono fun h => .rep_more h1 hc h
      | err e =>
        obtain ⟨j, tr, h1, h2, h3, h4, h5⟩ := hg
        simp only [total_cons, deepOf_cons, total_nil, deepOf_nil, Nat.add_zero, Nat.max_zero]
        have := Counts.rep_stop h1 hc
        split <;> exact this

omit hev hct in
/-- The calls of `SeparateBy` once an item has been read. -/
def sepTailCalls (ev : Ev) (r b : Rule) (fuel : Nat) (p : Pos) (s : Nat) (st : St) : List Call :=
  ⟨b, st, s, p⟩ ::
    match ev b st s p with
    | .ret (.ok range2 s2 _) st2 => separateByCalls ev r b fuel (p.consume range2.length) s2 st2
    | _ => []

theorem sepTail_counts (r b opt trail) (start : Pos) : ∀ fuel p i toks s oe, s ≤ toks.length →
    Tells (Counts E (.sepTail r b trail) p i
        (total cnt (sepTailCalls ev r b fuel p s ⟨toks, E.ind i⟩))
        (deepOf dep (sepTailCalls ev r b fuel p s ⟨toks, E.ind i⟩)))
      (match ev b ⟨toks, E.ind i⟩ s p with
      | .ret (.err e) st2 => .ret (.ok (p.subtract start) s (errUpdate (some e) oe)) st2
      | .ret (.ok range2 s2 err2) st2 =>
        evalSeparateBy ev r b opt trail start fuel false
          (p.consume range2.length) s2 (errUpdate err2 oe) st2
      | .timeout => .timeout
      | .panic => .panic)
  | fuel, p, i, toks, s, oe, hs => by
    have hg := hev b i toks s p hs
    have hc := hct b i toks s p hs
    unfold sepTailCalls
    cases heq : ev b ⟨toks, E.ind i⟩ s p with
    | timeout => trivial
    | panic => trivial
    | ret res st' =>
      rw [heq] at hg hc
      cases res with
      | err e =>
        obtain ⟨j, tr, h1, h2, h3, h4, h5⟩ := hg
        simp only [total_cons, deepOf_cons, total_nil, deepOf_nil, Nat.add_zero, Nat.max_zero]
        exact .sep_stop h1 hc
      | ok range s' err =>
        obtain ⟨m, us, j, tr, h1, h2, h3, h4, h5, h6⟩ := hg
        have hlen : range.length = m := by rw [h2]; simp
        simp only [hlen, consume_eq, total_cons, deepOf_cons]
        cases fuel with
        | zero => trivial
        | succ fuel =>
          simp only [evalSeparateBy, separateByCalls]
          have hg := hev r j st'.toks s' (adv p m) h3
          have hc' := hct r j st'.toks s' (adv p m) h3
          rw [← good_ret_eta (E := E) rfl h5] at hg hc'
          cases heq' : ev r st' s' (adv p m) with
          | timeout => trivial
          | panic => trivial
          | ret res2 st2 =>
            rw [heq'] at hg hc'
            cases res2 with
            | err e =>
              obtain ⟨k, tr', g1, g2, g3, g4, g5⟩ := hg
              simp only [total_cons, deepOf_cons, total_nil, deepOf_nil, Nat.add_zero, Nat.max_zero]
              have := Counts.sep_end (trail := trail) h1 hc g1 hc'
              split <;> exact this
            | ok range2 s2 err2 =>
              obtain ⟨n, ts, k, tr', g1, g2, g3, g4, g5, g6⟩ := hg
              have hlen2 : range2.length = n := by rw [g2]; simp
              have ih := sepTail_counts r b opt trail start fuel (adv p (m + n)) k st2.toks s2
                (errUpdate err2 (errUpdate err oe)) g3
              rw [← good_ret_eta (E := E) rfl g5] at ih
              unfold sepTailCalls at ih
              simp only [hlen2, consume_eq, adv_adv, total_cons, deepOf_cons] at ih ⊢
              exact ih.mono fun h => .sep_more h1 hc g1 hc' h

theorem separateBy_counts (r b opt trail id fuel i toks s p) (hs : s ≤ toks.length) :
    Tells (Counts E (.rule (.separateBy r b opt trail id)) p i
        (1 + total cnt (separateByCalls ev r b fuel p s ⟨toks, E.ind i⟩))
        (1 + deepOf dep (separateByCalls ev r b fuel p s ⟨toks, E.ind i⟩)))
      (evalSeparateBy ev r b opt trail p fuel true p s none ⟨toks, E.ind i⟩) := by
  cases fuel with
  | zero => trivial
  | succ fuel =>
    simp only [evalSeparateBy, separateByCalls]
    have hg := hev r i toks s p hs
    have hc := hct r i toks s p hs
    cases heq : ev r ⟨toks, E.ind i⟩ s p with
    | timeout => trivial
    | panic => trivial
    | ret res st' =>
      rw [heq] at hg hc
      cases res with
      | err e =>
        obtain ⟨j, tr, h1, h2, h3, h4, h5⟩ := hg
        simp only [total_cons, deepOf_cons, total_nil, deepOf_nil, Nat.add_zero, Nat.max_zero]
        have : Counts E (.rule (.separateBy r b opt trail id)) p i _ _ := .sep_none h1 hc
        split <;> exact this
      | ok range s' err =>
        obtain ⟨n, ts, j, tr, h1, h2, h3, h4, h5, h6⟩ := hg
        have hlen : range.length = n := by rw [h2]; simp
        have ih := sepTail_counts hev hct r b opt trail p fuel (adv p n) j st'.toks s'
          (errUpdate err none) h3
        rw [← good_ret_eta (E := E) rfl h5] at ih
        unfold sepTailCalls at ih
        simp only [hlen, consume_eq, adv_adv, total_cons, deepOf_cons] at ih ⊢
        exact ih.mono fun h => .sep_first h1 hc h

omit hev hct in
/-- `P` holds if the closure of `lines` returns. -/
def TellsLine (P : Prop) : LineOut → Prop
  | .ret _ _ => P
  | _ => True

omit hev in
theorem lineClosure_counts (r first fl p i toks s oe) (hs : s ≤ toks.length) :
    TellsLine (Counts E (.line r false first) p i
        (total cnt (lineClosureCalls r ⟨s, oe, fl, ⟨toks, E.ind i⟩⟩ p))
        (deepOf dep (lineClosureCalls r ⟨s, oe, fl, ⟨toks, E.ind i⟩⟩ p)))
      (lineClosure ev r ⟨s, oe, fl, ⟨toks, E.ind i⟩⟩ p) := by
  unfold lineClosure lineClosureCalls
  have hc := hct r i toks s p hs
  simp only [total_cons, deepOf_cons, total_nil, deepOf_nil, Nat.add_zero, Nat.max_zero]
  cases heq : ev r ⟨toks, E.ind i⟩ s p with
  | timeout => trivial
  | panic => trivial
  | ret res st' =>
    rw [heq] at hc
    cases res <;> exact .line_plain hc

omit hev in
theorem lineItem_counts (r first) (p0 : Pos) (k i0 i toks s oe fl) (hs : s ≤ toks.length)
    (hrun : ∀ c d, Counts E (.rule r) (adv p0 k) (i + 1) c d → Counts E (.line r true first) p0 i0 c d) :
    TellsLine (Counts E (.line r true first) p0 i0
        (total cnt (lineItemCalls r ⟨s, oe, fl, ⟨toks, E.ind i⟩⟩ (adv p0 k)))
        (deepOf dep (lineItemCalls r ⟨s, oe, fl, ⟨toks, E.ind i⟩⟩ (adv p0 k))))
      (lineItem ev r ⟨s, oe, fl, ⟨toks, E.ind i⟩⟩ p0 (adv p0 k)) := by
  unfold lineItem lineItemCalls
  simp only
  split
  · trivial
  · have hc := hct r (i + 1) toks s (adv p0 k) hs
    have hind : ({ E.ind i with indent := (E.ind i).indent + 1 } : Indent) = E.ind (i + 1) := rfl
    rw [hind]
    simp only [total_cons, deepOf_cons, total_nil, deepOf_nil, Nat.add_zero, Nat.max_zero]
    cases heq : ev r ⟨toks, E.ind (i + 1)⟩ s (adv p0 k) with
    | timeout => trivial
    | panic => trivial
    | ret res st' =>
      rw [heq] at hc
      cases res <;> exact hrun _ _ hc

omit hev in
theorem lineClosureIndent_counts (r first fl p i toks s oe) (hs : s ≤ toks.length)
    (hfl : E.align = true → fl = first) :
    TellsLine (Counts E (.line r true first) p i
        (total cnt (lineClosureIndentCalls r ⟨s, oe, fl, ⟨toks, E.ind i⟩⟩ p))
        (deepOf dep (lineClosureIndentCalls r ⟨s, oe, fl, ⟨toks, E.ind i⟩⟩ p)))
      (lineClosureIndent ev r ⟨s, oe, fl, ⟨toks, E.ind i⟩⟩ p) := by
  unfold lineClosureIndent lineClosureIndentCalls
  simp only
  have e1 : (E.ind i).tabSpaces = E.tab := rfl
  have e2 : (E.ind i).indent = i := rfl
  have e3 : (E.ind i).alignFirst = E.align := rfl
  rw [e1, e2, e3]
  cases he : eatIndent E.tab p.src i with
  | none => exact .line_shallow (eatIndent_none _ _ _ he)
  | some k =>
    have hc : Carries E.tab i p.src k := eatIndent_some _ _ _ _ he
    simp only
    by_cases hcond : fl = true ∧ E.align = true
    · rw [if_pos hcond, if_pos hcond]
      have hf : first = true := by rw [← hfl hcond.2]; exact hcond.1
      subst hf
      obtain ⟨hm, hw⟩ := eatAlign_spec E.tab (p.src.drop k)
      simp only [consume_eq, adv_adv]
      split
      · trivial
      · refine lineItem_counts hct r true p (k + (eatAlign E.tab (p.src.drop k)).1) i
          (i + (eatAlign E.tab (p.src.drop k)).2) toks s oe false hs ?_
        intro c d hr
        rw [hw] at hr
        exact .line_align hcond.2 hc hm hr
    · rw [if_neg hcond, if_neg hcond]
      have ha : ¬ (first = true ∧ E.align = true) := by
        rintro ⟨h1, h2⟩
        exact hcond ⟨by rw [hfl h2]; exact h1, h2⟩
      cases ht : (p.consume k).tag [' '] with
      | some range =>
        have := (tag_some ht).1
        have hd : (p.src.drop k).head? = some ' ' := by
          obtain ⟨x, hx⟩ := this
          have : (p.consume k).src = p.src.drop k := rfl
          rw [← this, ← hx]; rfl
        exact .line_deep ha hc hd
      | none =>
        have hd : (p.src.drop k).head? ≠ some ' ' := by
          intro h
          apply tag_none ht
          have : (p.consume k).src = p.src.drop k := rfl
          rw [this]
          cases hq : p.src.drop k with
          | nil => rw [hq] at h; simp at h
          | cons c cs => rw [hq] at h; simp at h; subst h; exact ⟨cs, rfl⟩
        exact lineItem_counts hct r first p k i i toks s oe fl hs
          fun c d hr => .line_body ha hc hd hr

theorem lines_counts (r indent id) (start : Pos) : ∀ fuel first item p i toks s oe fl,
    s ≤ toks.length → (indent = true → E.align = true → fl = first) →
    Tells (Counts E (.lines r indent id first item) p i
        (total cnt (linesCalls E.L (if indent then lineClosureIndent ev r else lineClosure ev r)
          (if indent then lineClosureIndentCalls r else lineClosureCalls r)
          fuel first item p ⟨s, oe, fl, ⟨toks, E.ind i⟩⟩))
        (deepOf dep (linesCalls E.L (if indent then lineClosureIndent ev r else lineClosure ev r)
          (if indent then lineClosureIndentCalls r else lineClosureCalls r)
          fuel first item p ⟨s, oe, fl, ⟨toks, E.ind i⟩⟩)))
      (evalLines E.L (if indent then lineClosureIndent ev r else lineClosure ev r) id start
        fuel first item p ⟨s, oe, fl, ⟨toks, E.ind i⟩⟩)
  | 0, _, _, _, _, _, _, _, _, _, _ => trivial
  | fuel + 1, first, item, p, i, toks, s, oe, fl, hs, hfl => by
    simp only [evalLines, linesCalls]
    cases h : E.L.lineNext first item p.src with
    | done k => exact .lines_done h
    | fail k => exact .lines_fail h
    | call k =>
      simp only [consume_eq]
      have hg : GoodLine E r indent first (adv p k) i toks s oe
          ((if indent then lineClosureIndent ev r else lineClosure ev r)
            ⟨s, oe, fl, ⟨toks, E.ind i⟩⟩ (adv p k)) := by
        cases indent with
        | true => exact lineClosureIndent_good hev r first fl _ i toks s oe hs (hfl rfl)
        | false => exact lineClosure_good hev r first fl _ i toks s oe hs
      have hc : TellsLine (Counts E (.line r indent first) (adv p k) i
          (total cnt ((if indent then lineClosureIndentCalls r else lineClosureCalls r)
            ⟨s, oe, fl, ⟨toks, E.ind i⟩⟩ (adv p k)))
          (deepOf dep ((if indent then lineClosureIndentCalls r else lineClosureCalls r)
            ⟨s, oe, fl, ⟨toks, E.ind i⟩⟩ (adv p k))))
          ((if indent then lineClosureIndent ev r else lineClosure ev r)
            ⟨s, oe, fl, ⟨toks, E.ind i⟩⟩ (adv p k)) := by
        cases indent with
        | true => exact lineClosureIndent_counts hct r first fl _ i toks s oe hs (hfl rfl)
        | false => exact lineClosure_counts hct r first fl _ i toks s oe hs
      cases heq : (if indent then lineClosureIndent ev r else lineClosure ev r)
          ⟨s, oe, fl, ⟨toks, E.ind i⟩⟩ (adv p k) with
      | timeout => trivial
      | panic => trivial
      | ret res x' =>
        rw [heq] at hg hc
        cases res with
        | none =>
          obtain ⟨j, tr, h1, h2, h3, h4, h5, h6⟩ := hg
          simp only [total_append, deepOf_append, total_nil, deepOf_nil, Nat.add_zero, Nat.max_zero]
          exact .lines_stop h h1 hc
        | some range =>
          obtain ⟨n, ts, j, tr, h1, h2, h3, h4, h5, h6, h7⟩ := hg
          have hx : x' = ⟨x'.s, x'.oe, x'.first, ⟨x'.st.toks, E.ind j⟩⟩ := by
            cases x'; simp at *; simp [← h5]
          have ih := lines_counts r indent id start fuel false ((p.src.drop k).take n) (adv p (k + n)) j
            x'.st.toks x'.s x'.oe x'.first h3 h7
          rw [← hx] at ih
          have hps : (adv p k).src = p.src.drop k := rfl
          simp only [h2, adv_adv, hps, total_append, deepOf_append]
          exact ih.mono fun h' => .lines_more h h1 hc h'

omit hev in
theorem node_counts (name prop index id i toks s p) (hs : s ≤ toks.length) :
    Tells (Counts E (.rule (.node name prop index id)) p i
        (1 + total cnt (nodeCalls E.refs prop index ⟨toks, E.ind i⟩ s p))
        (1 + deepOf dep (nodeCalls E.refs prop index ⟨toks, E.ind i⟩ s p)))
      (evalNode ev E.refs prop index id ⟨toks, E.ind i⟩ s p) := by
  unfold evalNode nodeCalls
  cases index with
  | none => exact .node_unresolved
  | some ix =>
    simp only
    cases hr : E.refs[ix]? with
    | none => trivial
    | some r =>
      simp only
      generalize hd : pushOpt prop .startNode p.start ⟨toks, E.ind i⟩ s = d
      have hd1 : d.1 = ⟨d.1.toks, E.ind i⟩ ∧ d.2 ≤ d.1.toks.length := by
        cases prop with
        | none => subst hd; simp [pushOpt, hs]
        | some x =>
          rw [pushOpt_some _ _ _ _ _ hs] at hd
          subst hd
          exact ⟨rfl, by simp; omega⟩
      have hc := hct r i d.1.toks d.2 p hd1.2
      rw [← hd1.1] at hc
      simp only [total_cons, deepOf_cons, total_nil, deepOf_nil, Nat.add_zero, Nat.max_zero]
      cases heq : ev r d.1 d.2 p with
      | timeout => trivial
      | panic => trivial
      | ret res st' =>
        rw [heq] at hc
        cases res <;> exact .node hr hc

theorem step_counts (fuel : Nat) : EvCounts E (step E.L E.refs ev fuel)
    (fun c => 1 + total cnt (subcalls E.L E.refs ev fuel c))
    (fun c => 1 + deepOf dep (subcalls E.L E.refs ev fuel c)) := by
  intro r i toks s p hs
  have leaf : ∀ {r : Rule}, Leaf r → ∀ out, Tells (Counts E (.rule r) p i 1 1) out := by
    intro r h out
    cases out <;> first | exact .leaf h | trivial
  cases r with
  | whitespace => exact leaf (by simp [Leaf]) _
  | tag => exact leaf (by simp [Leaf]) _
  | untilAny => exact leaf (by simp [Leaf]) _
  | untilAnyOrWs => exact leaf (by simp [Leaf]) _
  | text => exact leaf (by simp [Leaf]) _
  | number => exact leaf (by simp [Leaf]) _
  | select args id => exact Tells.mono .select (select_counts hev hct id p args i toks s none hs)
  | fastSelect => exact fastSelect_counts hev hct _ _ _ _ _ _ _ _ hs
  | sequence args id => exact Tells.mono .sequence (sequence_counts hev hct p args p i toks s none hs)
  | separateBy => exact separateBy_counts hev hct _ _ _ _ _ _ _ _ _ _ hs
  | repeat_ r opt id => exact Tells.mono .repeat_ (rep_counts hev hct r opt p fuel true p i toks s none hs)
  | lines r ind id =>
    exact Tells.mono .lines (lines_counts hev hct r ind id p fuel true [] p i toks s none true hs fun _ _ => rfl)
  | node => exact node_counts hct _ _ _ _ _ _ _ _ hs
  | optional r id =>
    have hc := hct r i toks s p hs
    simp only [step, evalOptional, subcalls, total_cons, deepOf_cons, total_nil, deepOf_nil, Nat.add_zero,
      Nat.max_zero]
    cases heq : ev r ⟨toks, E.ind i⟩ s p with
    | timeout => trivial
    | panic => trivial
    | ret res st' =>
      rw [heq] at hc
      cases res <;> exact .optional hc
  | not r id =>
    have hc := hct r i toks s p hs
    simp only [step, evalNot, subcalls, total_cons, deepOf_cons, total_nil, deepOf_nil, Nat.add_zero,
      Nat.max_zero]
    cases heq : ev r ⟨toks, E.ind i⟩ s p with
    | timeout => trivial
    | panic => trivial
    | ret res st' =>
      rw [heq] at hc
      cases res <;> exact .not hc

end

theorem eval_counts (E : Env) : ∀ n,
    EvCounts E (eval E.L E.refs n) (callCount E.L E.refs n) (callDepth E.L E.refs n)
  | 0 => fun _ _ _ _ _ _ => trivial
  | n + 1 => step_counts (eval_sound E n) (eval_counts E n) n

end Verif
