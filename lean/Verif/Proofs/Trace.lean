import Verif.Model.Writes
import Verif.Spec.Writes
/-
The vector is handed from call to call, and only changed by the items in `writes`.
-/
namespace Verif
open Spec

/-- The calls start with the vector `t`, each takes the vector that the one before has left, and the last leaves `t'`. -/
inductive Threaded (ev : Ev) : List Tok → List Call → List Tok → Prop
  | nil {t} : Threaded ev t [] t
  | cons {c l res st t'} (h : c.run ev = .ret res st) (hl : Threaded ev st.toks l t') : Threaded ev c.st.toks (c :: l) t'

section
variable {ev : Ev}

theorem Threaded.one {c : Call} {res st} (h : c.run ev = .ret res st) : Threaded ev c.st.toks [c] st.toks := .cons h .nil

theorem Threaded.append {t t' t'' : List Tok} {l l' : List Call} (h : Threaded ev t l t') (h' : Threaded ev t' l' t'') :
    Threaded ev t (l ++ l') t'' := by
  induction h with
  | nil => exact h'
  | cons h _ ih => exact .cons h (ih h')

theorem select_threaded {id s p} : ∀ {rs oe st res st'}, evalSelect ev id s p rs oe st = .ret res st' →
    Threaded ev st.toks (selectCalls ev s p rs st) st'.toks
  | [], none, st, res, st', h => by cases h; exact .nil
  | [], some e, st, res, st', h => by cases h; exact .nil
  | r :: rs, oe, st, res, st', h => by
    simp only [evalSelect, selectCalls] at h ⊢
    cases heq : ev r st s p with
    | ret o st1 =>
      rw [heq] at h
      cases o with
      | ok range s1 err => cases h; exact .one (c := ⟨r, st, s, p⟩) heq
      | err e => exact .cons (c := ⟨r, st, s, p⟩) heq (select_threaded h)
    | _ => rw [heq] at h; cases h

theorem fast_threaded {tb args tail id st s p res st'} (h : evalFastSelect ev tb args tail id st s p = .ret res st') :
    Threaded ev st.toks (fastSelectCalls ev tb args tail st s p) st'.toks := by
  unfold evalFastSelect at h
  unfold fastSelectCalls
  cases hp : p.src with
  | nil => rw [hp] at h; cases h; exact .nil
  | cons c cs =>
    rw [hp] at h
    simp only at h ⊢
    cases tail with
    | false =>
      simp only [Bool.false_eq_true, if_false] at h ⊢
      split at h
      · rename_i ht
        rw [if_pos ht]
        cases hr : args[(tb (firstByte c)).toNat]? with
        | none => rw [hr] at h; cases h
        | some r =>
          rw [hr] at h
          simp only at h ⊢
          cases heq : ev r st s p with
          | ret o st1 =>
            rw [heq] at h
            cases o <;> (cases h; exact .one (c := ⟨r, st, s, p⟩) heq)
          | _ => rw [heq] at h; cases h
      · rename_i ht
        rw [if_neg ht]
        cases h
        exact .nil
    | true =>
      simp only [if_true] at h ⊢
      split at h
      · rename_i ht
        rw [if_pos ht]
        cases hr : args[(tb (firstByte c)).toNat]? with
        | none => rw [hr] at h; cases h
        | some r =>
          rw [hr] at h
          simp only at h ⊢
          cases heq : ev r st s p with
          | ret o st1 =>
            rw [heq] at h
            cases o with
            | ok => cases h; exact .one (c := ⟨r, st, s, p⟩) heq
            | err e =>
              simp only at h ⊢
              refine .cons (c := ⟨r, st, s, p⟩) heq ?_
              cases hr' : args.getLast? with
              | none => rw [hr'] at h; cases h
              | some r' =>
                rw [hr'] at h
                simp only at h ⊢
                cases heq' : ev r' st1 s p with
                | ret o st2 =>
                  rw [heq'] at h
                  cases o <;> (cases h; exact .one (c := ⟨r', st1, s, p⟩) heq')
                | _ => rw [heq'] at h; cases h
          | _ => rw [heq] at h; cases h
      · rename_i ht
        rw [if_neg ht]
        cases hr' : args.getLast? with
        | none => rw [hr'] at h; cases h
        | some r' =>
          rw [hr'] at h
          simp only at h ⊢
          cases heq' : ev r' st s p with
          | ret o st2 =>
            rw [heq'] at h
            cases o <;> (cases h; exact .one (c := ⟨r', st, s, p⟩) heq')
          | _ => rw [heq'] at h; cases h

theorem sequence_threaded {start : Pos} : ∀ {rs p s oe st res st'}, evalSequence ev start rs p s oe st = .ret res st' →
    Threaded ev st.toks (sequenceCalls ev rs p s st) st'.toks
  | [], p, s, oe, st, res, st', h => by cases h; exact .nil
  | r :: rs, p, s, oe, st, res, st', h => by
    simp only [evalSequence, sequenceCalls] at h ⊢
    cases heq : ev r st s p with
    | ret o st1 =>
      rw [heq] at h
      cases o with
      | ok range s1 err => exact .cons (c := ⟨r, st, s, p⟩) heq (sequence_threaded h)
      | err e => cases h; exact .one (c := ⟨r, st, s, p⟩) heq
    | _ => rw [heq] at h; cases h

theorem repeat_threaded {r : Rule} {opt : Bool} {start : Pos} : ∀ {fuel first p s oe st res st'},
    evalRepeat ev r opt start fuel first p s oe st = .ret res st' →
    Threaded ev st.toks (repeatCalls ev r fuel p s st) st'.toks
  | 0, _, _, _, _, _, _, _, h => by cases h
  | fuel + 1, first, p, s, oe, st, res, st', h => by
    simp only [evalRepeat, repeatCalls] at h ⊢
    cases heq : ev r st s p with
    | ret o st1 =>
      rw [heq] at h
      cases o with
      | ok range s1 err => exact .cons (c := ⟨r, st, s, p⟩) heq (repeat_threaded h)
      | err e => simp only at h; split at h <;> (cases h; exact .one (c := ⟨r, st, s, p⟩) heq)
    | _ => rw [heq] at h; cases h

theorem separateBy_threaded {r b : Rule} {opt trail : Bool} {start : Pos} : ∀ {fuel first p s oe st res st'},
    evalSeparateBy ev r b opt trail start fuel first p s oe st = .ret res st' →
    Threaded ev st.toks (separateByCalls ev r b fuel p s st) st'.toks
  | 0, _, _, _, _, _, _, _, h => by cases h
  | fuel + 1, first, p, s, oe, st, res, st', h => by
    simp only [evalSeparateBy, separateByCalls] at h ⊢
    cases heq : ev r st s p with
    | ret o st1 =>
      rw [heq] at h
      cases o with
      | err e => simp only at h; split at h <;> (cases h; exact .one (c := ⟨r, st, s, p⟩) heq)
      | ok range s1 err =>
        simp only at h ⊢
        refine .cons (c := ⟨r, st, s, p⟩) heq ?_
        cases heq' : ev b st1 s1 (p.consume range.length) with
        | ret o st2 =>
          rw [heq'] at h
          cases o with
          | err e => cases h; exact .one (c := ⟨b, st1, s1, p.consume range.length⟩) heq'
          | ok range2 s2 err2 => exact .cons (c := ⟨b, st1, s1, p.consume range.length⟩) heq' (separateBy_threaded h)
        | _ => rw [heq'] at h; cases h
    | _ => rw [heq] at h; cases h

theorem lineClosure_threaded {r : Rule} {x : LineSt} {p o x'} (h : lineClosure ev r x p = .ret o x') :
    Threaded ev x.st.toks (lineClosureCalls r x p) x'.st.toks := by
  simp only [lineClosure, lineClosureCalls] at h ⊢
  cases heq : ev r x.st x.s p with
  | ret q st1 =>
    rw [heq] at h
    cases q <;> (cases h; exact .one (c := ⟨r, x.st, x.s, p⟩) heq)
  | _ => rw [heq] at h; cases h

theorem lineItem_threaded {r : Rule} {x : LineSt} {p0 p o x'} (h : lineItem ev r x p0 p = .ret o x') :
    Threaded ev x.st.toks (lineItemCalls r x p) x'.st.toks := by
  simp only [lineItem, lineItemCalls] at h ⊢
  split at h
  · cases h
  · rename_i hi
    rw [if_neg hi]
    cases heq : ev r { x.st with ind := { x.st.ind with indent := x.st.ind.indent + 1 } } x.s p with
    | ret q st1 =>
      rw [heq] at h
      have := Threaded.one (c := ⟨r, { x.st with ind := { x.st.ind with indent := x.st.ind.indent + 1 } }, x.s, p⟩) heq
      cases q <;> (cases h; exact this)
    | _ => rw [heq] at h; cases h

theorem lineClosureIndent_threaded {r : Rule} {x : LineSt} {p o x'} (h : lineClosureIndent ev r x p = .ret o x') :
    Threaded ev x.st.toks (lineClosureIndentCalls r x p) x'.st.toks := by
  simp only [lineClosureIndent, lineClosureIndentCalls] at h ⊢
  cases he : eatIndent x.st.ind.tabSpaces p.src x.st.ind.indent with
  | none => rw [he] at h; cases h; exact .nil
  | some k =>
    rw [he] at h
    simp only at h ⊢
    split at h
    · rename_i hc
      rw [if_pos hc]
      split at h
      · cases h
      · rename_i hi
        rw [if_neg hi]
        exact lineItem_threaded h
    · rename_i hc
      rw [if_neg hc]
      cases ht : (p.consume k).tag [' '] with
      | some range => rw [ht] at h; cases h; exact .nil
      | none => rw [ht] at h; exact lineItem_threaded h

theorem lines_threaded {L : Lexer} {closure : LineSt → Pos → LineOut} {calls : LineSt → Pos → List Call} {id : DebugId} {start : Pos}
    (hc : ∀ {x p o x'}, closure x p = .ret o x' → Threaded ev x.st.toks (calls x p) x'.st.toks) :
    ∀ {fuel first item p x res st'}, evalLines L closure id start fuel first item p x = .ret res st' →
      Threaded ev x.st.toks (linesCalls L closure calls fuel first item p x) st'.toks
  | 0, _, _, _, _, _, _, h => by cases h
  | fuel + 1, first, item, p, x, res, st', h => by
    simp only [evalLines, linesCalls] at h ⊢
    cases hn : L.lineNext first item p.src with
    | done k => rw [hn] at h; cases h; exact .nil
    | fail k => rw [hn] at h; cases h; exact .nil
    | call k =>
      rw [hn] at h
      simp only at h ⊢
      cases heq : closure x (p.consume k) with
      | ret o x' =>
        rw [heq] at h
        cases o with
        | none => cases h; exact (hc heq).append .nil
        | some range => exact (hc heq).append (lines_threaded hc h)
      | _ => rw [heq] at h; cases h

end

/-- What `read_data` does. -/
theorem pushOpt_cut (x : Str) (mk : Str → MetaData) (r : Range) (st : St) (s : Nat) :
    ∃ k y, k ≤ st.toks.length ∧ (pushOpt (some x) mk r st s).1.toks = st.toks.take k ++ [y] := by
  refine ⟨min s st.toks.length, ⟨r, mk x⟩, by omega, ?_⟩
  simp only [pushOpt, readData]
  split
  · rw [Nat.min_eq_left (by omega)]
  · rw [Nat.min_eq_right (by omega), List.take_length]

theorem emitOpt_cut {prop : Option Str} {mk : Str → MetaData} {r : Range} {st st' : St} {s : Nat} {res : Res}
    (h : emitOpt prop mk r st s = .ret res st') : (prop = none ∧ st'.toks = st.toks) ∨
      ∃ x k y rg s' oe, prop = some x ∧ k ≤ st.toks.length ∧ st'.toks = st.toks.take k ++ [y] ∧ res = .ok rg s' oe := by
  unfold emitOpt at h
  cases prop with
  | none => cases h; exact .inl ⟨rfl, rfl⟩
  | some x =>
    obtain ⟨k, y, hk, hy⟩ := pushOpt_cut x mk r st s
    cases h
    exact .inr ⟨x, k, y, _, _, _, rfl, hk, hy, rfl⟩

/-- The vector before the items at the end of a call, and what is written there. -/
def EndStep (c : Call) (t : List Tok) (res : Res) (st : St) : Prop :=
  (endWrite c (.ret res st) = [] ∧ st.toks = t) ∨
    (endWrite c (.ret res st) = [st.toks] ∧ ∃ k x, k ≤ t.length ∧ st.toks = t.take k ++ [x])

theorem endStep_err {c : Call} {e : RErr} {st : St} : EndStep c st.toks (.err e) st := by
  refine .inl ⟨?_, rfl⟩
  unfold endWrite
  split
  · rename_i h; cases h
  · rfl

theorem endStep_none {c : Call} {res : Res} {st : St} (h : c.rule.records = none) : EndStep c st.toks res st := by
  refine .inl ⟨?_, rfl⟩
  simp [endWrite, h]

theorem endStep_emit {c : Call} {mk : Str → MetaData} {r : Range} {st st' : St} {s : Nat} {res : Res}
    (h : emitOpt c.rule.records mk r st s = .ret res st') : EndStep c st.toks res st' := by
  rcases emitOpt_cut h with ⟨h1, h2⟩ | ⟨x, k, y, rg, s', oe, h1, hk, hy, rfl⟩
  · rw [← h2]; exact endStep_none h1
  · refine .inr ⟨?_, k, y, hk, hy⟩
    simp [endWrite, h1]

/-- One call: its item at the start, the calls that it makes, its item at the end. -/
theorem step_threaded {L : Lexer} {refs : List Rule} {ev : Ev} {fuel : Nat} {c : Call} {res : Res} {st : St}
    (h : c.run (step L refs ev fuel) = .ret res st) :
    ∃ t, OneByOne c.st.toks (startWrite c) ∧
      Threaded ev ((startWrite c).getLast?.getD c.st.toks) (subcalls L refs ev fuel c) t ∧ EndStep c t res st := by
  obtain ⟨r, st0, s, p⟩ := c
  have inner : ∀ {l : List Call} {t : List Tok}, startWrite ⟨r, st0, s, p⟩ = [] → subcalls L refs ev fuel ⟨r, st0, s, p⟩ = l →
      Threaded ev st0.toks l t → EndStep ⟨r, st0, s, p⟩ t res st → ∃ t, OneByOne st0.toks (startWrite ⟨r, st0, s, p⟩) ∧
      Threaded ev ((startWrite ⟨r, st0, s, p⟩).getLast?.getD st0.toks) (subcalls L refs ev fuel ⟨r, st0, s, p⟩) t ∧
        EndStep ⟨r, st0, s, p⟩ t res st := by
    intro l t h1 h2 h3 h4
    rw [h1, h2]
    exact ⟨t, trivial, h3, h4⟩
  simp only [Call.run, step] at h
  cases r with
  | whitespace opt id =>
    refine inner rfl rfl .nil ?_
    simp only [evalWhitespace] at h
    split at h <;> (cases h; first | exact endStep_err | exact endStep_none rfl)
  | tag t nt inv prop id =>
    refine inner rfl rfl .nil ?_
    simp only [evalTag] at h
    split at h <;> split at h <;> first | (cases h; exact endStep_err) | exact endStep_emit (c := ⟨.tag t nt inv prop id, st0, s, p⟩) h
  | untilAny any opt prop id =>
    refine inner rfl rfl .nil ?_
    simp only [evalUntilAny] at h
    split at h <;> first | (cases h; exact endStep_err) | exact endStep_emit (c := ⟨.untilAny any opt prop id, st0, s, p⟩) h
  | untilAnyOrWs any opt prop id =>
    refine inner rfl rfl .nil ?_
    simp only [evalUntilAnyOrWs] at h
    split at h <;> first | (cases h; exact endStep_err) | exact endStep_emit (c := ⟨.untilAnyOrWs any opt prop id, st0, s, p⟩) h
  | text empty prop id =>
    refine inner rfl rfl .nil ?_
    simp only [evalText] at h
    split at h
    · split at h
      · cases h; exact endStep_err
      · split at h
        · cases h; exact endStep_err
        · exact endStep_emit (c := ⟨.text empty prop id, st0, s, p⟩) h
    · cases h; exact endStep_err
  | number prop us id =>
    refine inner rfl rfl .nil ?_
    simp only [evalNumber] at h
    split at h
    · split at h
      · cases h; exact endStep_err
      · exact endStep_emit (c := ⟨.number prop us id, st0, s, p⟩) h
    · cases h; exact endStep_err
  | select args id => exact inner rfl rfl (select_threaded h) (endStep_none rfl)
  | fastSelect tb args tail id => exact inner rfl rfl (fast_threaded h) (endStep_none rfl)
  | sequence args id => exact inner rfl rfl (sequence_threaded h) (endStep_none rfl)
  | separateBy r b opt trail id => exact inner rfl rfl (separateBy_threaded h) (endStep_none rfl)
  | repeat_ r opt id => exact inner rfl rfl (repeat_threaded h) (endStep_none rfl)
  | lines r indent id =>
    refine inner rfl rfl (lines_threaded (x := ⟨s, none, true, st0⟩) ?_ h) (endStep_none rfl)
    intro x p o x' hx
    cases indent with
    | false => exact lineClosure_threaded hx
    | true => exact lineClosureIndent_threaded hx
  | node name prop ix id =>
    cases ix with
    | none =>
      cases h
      refine inner ?_ rfl .nil endStep_err
      cases prop <;> rfl
    | some ix =>
      simp only [evalNode] at h
      simp only [subcalls, nodeCalls]
      cases hr : refs[ix]? with
      | none => rw [hr] at h; cases h
      | some r =>
        rw [hr] at h
        simp only at h ⊢
        have hstart : OneByOne st0.toks (startWrite ⟨.node name prop (some ix) id, st0, s, p⟩) ∧
            (startWrite ⟨.node name prop (some ix) id, st0, s, p⟩).getLast?.getD st0.toks =
              (pushOpt prop .startNode p.start st0 s).1.toks := by
          cases prop with
          | none => exact ⟨trivial, rfl⟩
          | some x => exact ⟨⟨pushOpt_cut _ _ _ _ _, trivial⟩, rfl⟩
        rw [hstart.2]
        cases heq : ev r (pushOpt prop .startNode p.start st0 s).1 (pushOpt prop .startNode p.start st0 s).2 p with
        | ret q st1 =>
          rw [heq] at h
          refine ⟨st1.toks, hstart.1, .one (c := ⟨r, _, _, p⟩) heq, ?_⟩
          cases q with
          | err e => cases h; exact endStep_err
          | ok range s2 err =>
            cases h
            cases prop with
            | none => exact endStep_none rfl
            | some x => exact .inr ⟨rfl, pushOpt_cut _ _ _ _ _⟩
        | _ => rw [heq] at h; cases h
  | optional r id =>
    simp only [evalOptional] at h
    cases heq : ev r st0 s p with
    | ret q st1 =>
      rw [heq] at h
      refine inner rfl rfl (.one (c := ⟨r, st0, s, p⟩) heq) ?_
      cases q <;> (cases h; exact endStep_none rfl)
    | _ => rw [heq] at h; cases h
  | not r id =>
    simp only [evalNot] at h
    cases heq : ev r st0 s p with
    | ret q st1 =>
      rw [heq] at h
      refine inner rfl rfl (.one (c := ⟨r, st0, s, p⟩) heq) ?_
      cases q <;> (cases h; exact endStep_none rfl)
    | _ => rw [heq] at h; cases h

theorem oneByOne_append {t : List Tok} : ∀ {a b : List (List Tok)}, OneByOne t a → OneByOne (a.getLast?.getD t) b → OneByOne t (a ++ b) := by
  intro a
  induction a generalizing t with
  | nil => intro b _ h; exact h
  | cons v a ih =>
    intro b h h'
    refine ⟨h.1, ih h.2 ?_⟩
    cases a with
    | nil => exact h'
    | cons w a => simpa [List.getLast?_cons_cons, List.getLast?_cons] using h'

theorem lastOf_append (t : List Tok) (a b : List (List Tok)) : (a ++ b).getLast?.getD t = b.getLast?.getD (a.getLast?.getD t) := by
  rcases List.eq_nil_or_concat b with rfl | ⟨b, v, rfl⟩
  · simp
  · simp [List.concat_eq_append, ← List.append_assoc]

/-- From the vector before a call to the vector after it, in the steps that `writes` lists. -/
theorem writes_oneByOne {L : Lexer} {refs : List Rule} : ∀ (n : Nat) (c : Call) {res st}, c.run (eval L refs n) = .ret res st →
    OneByOne c.st.toks (writes L refs n c) ∧ (writes L refs n c).getLast?.getD c.st.toks = st.toks
  | 0, c, res, st, h => by cases h
  | n + 1, c, res, st, h => by
    have key : ∀ {t l t'}, Threaded (eval L refs n) t l t' →
        OneByOne t (l.flatMap (writes L refs n)) ∧ (l.flatMap (writes L refs n)).getLast?.getD t = t' := by
      intro t l t' hl
      induction hl with
      | nil => exact ⟨trivial, rfl⟩
      | cons h _ ih =>
        obtain ⟨h1, h2⟩ := writes_oneByOne n _ h
        rw [List.flatMap_cons, lastOf_append, h2]
        exact ⟨oneByOne_append h1 (by rw [h2]; exact ih.1), ih.2⟩
    obtain ⟨t, h1, h2, h3⟩ := step_threaded h
    obtain ⟨h4, h5⟩ := key h2
    have hmid : OneByOne c.st.toks (startWrite c ++ (subcalls L refs (eval L refs n) n c).flatMap (writes L refs n)) ∧
        (startWrite c ++ (subcalls L refs (eval L refs n) n c).flatMap (writes L refs n)).getLast?.getD c.st.toks = t :=
      ⟨oneByOne_append h1 h4, by rw [lastOf_append, h5]⟩
    simp only [writes]
    rw [h]
    rcases h3 with ⟨h3, h6⟩ | ⟨h3, h6⟩
    · rw [h3, List.append_nil]
      exact ⟨hmid.1, hmid.2.trans h6.symm⟩
    · rw [h3]
      refine ⟨oneByOne_append hmid.1 ?_, by rw [lastOf_append]; rfl⟩
      rw [hmid.2]
      exact ⟨h6, trivial⟩

end Verif
