import Verif.Model.Eval
/-
Items that are in the vector before the current state began are never looked at: with more of them
in front, the parser does the same.
-/
namespace Verif

/-- The items `a` in front. -/
def St.prepend (a : List Tok) (st : St) : St := { st with toks := a ++ st.toks }

/-- The items `a` in front; the state counts them. -/
def Out.prepend (a : List Tok) : Out → Out
  | .ret (.ok range s err) st => .ret (.ok range (a.length + s) err) (st.prepend a)
  | .ret (.err e) st => .ret (.err e) (st.prepend a)
  | .timeout => .timeout
  | .panic => .panic

def LineSt.prepend (a : List Tok) (x : LineSt) : LineSt :=
  { x with s := a.length + x.s, st := x.st.prepend a }

def LineOut.prepend (a : List Tok) : LineOut → LineOut
  | .ret r x => .ret r (x.prepend a)
  | .timeout => .timeout
  | .panic => .panic

/-- The parser does not look at the items in front. -/
def EvPrepend (a : List Tok) (ev : Ev) : Prop :=
  ∀ r st s p, ev r (st.prepend a) (a.length + s) p = (ev r st s p).prepend a

section
variable {a : List Tok} {ev : Ev}

theorem readData_prepend (toks t s) : readData (a ++ toks) t (a.length + s) =
    (a ++ (readData toks t s).1, a.length + (readData toks t s).2) := by
  unfold readData
  simp only [List.length_append, Nat.add_lt_add_iff_left]
  split
  · rw [List.take_length_add_append]; simp [Nat.add_assoc]
  · simp [Nat.add_assoc]

theorem pushOpt_prepend (prop mk r st s) : pushOpt prop mk r (St.prepend a st) (a.length + s) =
    ((pushOpt prop mk r st s).1.prepend a, a.length + (pushOpt prop mk r st s).2) := by
  cases prop with
  | none => rfl
  | some n => simp only [pushOpt, St.prepend, readData_prepend]

theorem emitOpt_prepend (prop mk r st s) : emitOpt prop mk r (St.prepend a st) (a.length + s) =
    (emitOpt prop mk r st s).prepend a := by
  simp only [emitOpt, pushOpt_prepend, Out.prepend]

theorem evalSelect_prepend (h : EvPrepend a ev) (id s p) : ∀ rs oe st,
    evalSelect ev id (a.length + s) p rs oe (St.prepend a st) = (evalSelect ev id s p rs oe st).prepend a
  | [], none, _ => rfl
  | [], some _, _ => rfl
  | r :: rs, oe, st => by
    simp only [evalSelect, h r st s p]
    rcases ev r st s p with _ | _ | ⟨_ | _, st'⟩
    · rfl
    · rfl
    · rfl
    · exact evalSelect_prepend h id s p rs _ _

theorem evalFastSelect_prepend (h : EvPrepend a ev) (tb args tail id st s p) :
    evalFastSelect ev tb args tail id (St.prepend a st) (a.length + s) p =
      (evalFastSelect ev tb args tail id st s p).prepend a := by
  unfold evalFastSelect
  cases p.src with
  | nil => rfl
  | cons c cs =>
    simp only
    split
    · split
      · cases args[(tb (firstByte c)).toNat]? with
        | none => rfl
        | some sub =>
          simp only [h sub st s p]
          rcases ev sub st s p with _ | _ | ⟨_ | _, st'⟩
          · rfl
          · rfl
          · rfl
          · simp only [Out.prepend]
            cases args.getLast? with
            | none => rfl
            | some sub' =>
              simp only [h sub' st' s p]
              rcases ev sub' st' s p with _ | _ | ⟨_ | _, st''⟩ <;> rfl
      · cases args.getLast? with
        | none => rfl
        | some sub' =>
          simp only [h sub' st s p]
          rcases ev sub' st s p with _ | _ | ⟨_ | _, st''⟩ <;> rfl
    · split
      · cases args[(tb (firstByte c)).toNat]? with
        | none => rfl
        | some sub =>
          simp only [h sub st s p]
          rcases ev sub st s p with _ | _ | ⟨_ | _, st'⟩ <;> rfl
      · rfl

theorem evalSequence_prepend (h : EvPrepend a ev) (start) : ∀ rs p s oe st,
    evalSequence ev start rs p (a.length + s) oe (St.prepend a st) =
      (evalSequence ev start rs p s oe st).prepend a
  | [], _, _, _, _ => rfl
  | r :: rs, p, s, oe, st => by
    simp only [evalSequence, h r st s p]
    rcases ev r st s p with _ | _ | ⟨_ | _, st'⟩
    · rfl
    · rfl
    · exact evalSequence_prepend h start rs _ _ _ _
    · rfl

theorem evalRepeat_prepend (h : EvPrepend a ev) (r opt start) : ∀ n first p s oe st,
    evalRepeat ev r opt start n first p (a.length + s) oe (St.prepend a st) =
      (evalRepeat ev r opt start n first p s oe st).prepend a
  | 0, _, _, _, _, _ => rfl
  | n + 1, first, p, s, oe, st => by
    simp only [evalRepeat, h r st s p]
    rcases ev r st s p with _ | _ | ⟨_ | _, st'⟩
    · rfl
    · rfl
    · exact evalRepeat_prepend h r opt start n _ _ _ _ _
    · simp only [Out.prepend]; split <;> rfl

theorem evalSeparateBy_prepend (h : EvPrepend a ev) (r b opt trail start) : ∀ n first p s oe st,
    evalSeparateBy ev r b opt trail start n first p (a.length + s) oe (St.prepend a st) =
      (evalSeparateBy ev r b opt trail start n first p s oe st).prepend a
  | 0, _, _, _, _, _ => rfl
  | n + 1, first, p, s, oe, st => by
    simp only [evalSeparateBy, h r st s p]
    rcases ev r st s p with _ | _ | ⟨⟨range, s1, err⟩ | _, st1⟩
    · rfl
    · rfl
    · simp only [Out.prepend, h b st1 s1]
      rcases ev b st1 s1 (p.consume range.length) with _ | _ | ⟨_ | _, st2⟩
      · rfl
      · rfl
      · exact evalSeparateBy_prepend h r b opt trail start n _ _ _ _ _
      · rfl
    · simp only [Out.prepend]; split <;> rfl

theorem evalNode_prepend (h : EvPrepend a ev) (refs prop index id st s p) :
    evalNode ev refs prop index id (St.prepend a st) (a.length + s) p =
      (evalNode ev refs prop index id st s p).prepend a := by
  unfold evalNode
  cases index with
  | none => rfl
  | some i =>
    simp only [pushOpt_prepend]
    cases refs[i]? with
    | none => rfl
    | some r =>
      simp only [h r]
      rcases ev r (pushOpt prop .startNode p.start st s).1 (pushOpt prop .startNode p.start st s).2 p with
        _ | _ | ⟨_ | _, st2⟩
      · rfl
      · rfl
      · simp only [Out.prepend, pushOpt_prepend]
      · rfl

theorem evalOptional_prepend (h : EvPrepend a ev) (r st s p) :
    evalOptional ev r (St.prepend a st) (a.length + s) p = (evalOptional ev r st s p).prepend a := by
  simp only [evalOptional, h r st s p]
  rcases ev r st s p with _ | _ | ⟨_ | _, st'⟩ <;> rfl

theorem evalNot_prepend (h : EvPrepend a ev) (r id st s p) :
    evalNot ev r id (St.prepend a st) (a.length + s) p = (evalNot ev r id st s p).prepend a := by
  simp only [evalNot, h r st s p]
  rcases ev r st s p with _ | _ | ⟨_ | _, st'⟩ <;> rfl

theorem lineClosure_prepend (h : EvPrepend a ev) (r x p) :
    lineClosure ev r (LineSt.prepend a x) p = (lineClosure ev r x p).prepend a := by
  simp only [lineClosure, LineSt.prepend, h r x.st x.s p]
  rcases ev r x.st x.s p with _ | _ | ⟨_ | _, st'⟩ <;> rfl

theorem lineItem_prepend (h : EvPrepend a ev) (r x p0 p) :
    lineItem ev r (LineSt.prepend a x) p0 p = (lineItem ev r x p0 p).prepend a := by
  unfold lineItem
  have := h r { x.st with ind := { x.st.ind with indent := x.st.ind.indent + 1 } } x.s p
  simp only [St.prepend] at this
  simp only [LineSt.prepend, St.prepend, this]
  split
  · rfl
  · rcases ev r { x.st with ind := { x.st.ind with indent := x.st.ind.indent + 1 } } x.s p with
      _ | _ | ⟨_ | _, st'⟩ <;> rfl

theorem lineClosureIndent_prepend (h : EvPrepend a ev) (r x p) :
    lineClosureIndent ev r (LineSt.prepend a x) p = (lineClosureIndent ev r x p).prepend a := by
  obtain ⟨s, oe, first, toks, ind⟩ := x
  have hl := fun y p0 q => lineItem_prepend h r y p0 q
  unfold lineClosureIndent
  simp only [LineSt.prepend, St.prepend] at hl ⊢
  cases eatIndent ind.tabSpaces p.src ind.indent with
  | none => rfl
  | some k =>
    simp only
    by_cases hc : first = true ∧ ind.alignFirst = true
    · rw [if_pos hc]
      refine (if_pos hc).trans ?_
      by_cases hw : ind.indent + (eatAlign ind.tabSpaces (p.consume k).src).2 ≥ 2 ^ 32
      · rw [if_pos hw]; exact if_pos hw
      · rw [if_neg hw]
        refine (if_neg hw).trans ?_
        exact hl ⟨s, oe, false, toks, { ind with indent := _ }⟩ _ _
    · rw [if_neg hc]
      refine (if_neg hc).trans ?_
      cases (p.consume k).tag [' '] with
      | some _ => rfl
      | none => exact hl ⟨s, oe, first, toks, ind⟩ _ _

theorem evalLines_prepend (L : Lexer) {cl : LineSt → Pos → LineOut}
    (h : ∀ x p, cl (LineSt.prepend a x) p = (cl x p).prepend a) (id start) : ∀ n first item p x,
    evalLines L cl id start n first item p (LineSt.prepend a x) =
      (evalLines L cl id start n first item p x).prepend a
  | 0, _, _, _, _ => rfl
  | n + 1, first, item, p, x => by
    simp only [evalLines]
    cases L.lineNext first item p.src with
    | done k => rfl
    | fail k => rfl
    | call k =>
      simp only [h]
      rcases cl x (p.consume k) with _ | _ | ⟨_ | range, x'⟩
      · rfl
      · rfl
      · rfl
      · exact evalLines_prepend L h id start n _ _ _ _

theorem step_prepend {L : Lexer} {refs : List Rule} (h : EvPrepend a ev) (fuel : Nat) :
    EvPrepend a (step L refs ev fuel) := by
  intro r st s p
  cases r with
  | whitespace opt id => simp only [step, evalWhitespace]; split <;> rfl
  | tag t nt inv prop id =>
    simp only [step, evalTag]
    split <;> split <;> first | rfl | exact emitOpt_prepend ..
  | untilAny any opt prop id =>
    simp only [step, evalUntilAny]
    split
    · rfl
    · exact emitOpt_prepend ..
  | untilAnyOrWs any opt prop id =>
    simp only [step, evalUntilAnyOrWs]
    split
    · rfl
    · exact emitOpt_prepend ..
  | text empty prop id =>
    simp only [step, evalText]
    split
    · split
      · rfl
      · split
        · rfl
        · exact emitOpt_prepend ..
    · rfl
  | number prop us id =>
    simp only [step, evalNumber]
    split
    · split
      · rfl
      · exact emitOpt_prepend ..
    · rfl
  | select args id => exact evalSelect_prepend h id s p args none st
  | fastSelect tb args tail id => exact evalFastSelect_prepend h ..
  | sequence args id => exact evalSequence_prepend h ..
  | separateBy r b opt trail id => exact evalSeparateBy_prepend h ..
  | repeat_ r opt id => exact evalRepeat_prepend h ..
  | lines r indent id =>
    simp only [step]
    refine evalLines_prepend L ?_ id p fuel true [] p ⟨s, none, true, st⟩
    intro x q
    split
    · exact lineClosureIndent_prepend h r x q
    · exact lineClosure_prepend h r x q
  | node name prop index id => exact evalNode_prepend h ..
  | optional r id => exact evalOptional_prepend h ..
  | not r id => exact evalNot_prepend h ..

end

theorem eval_prepend (L : Lexer) (refs : List Rule) (a : List Tok) : ∀ n, EvPrepend a (eval L refs n)
  | 0 => fun _ _ _ _ => rfl
  | n + 1 => step_prepend (eval_prepend L refs a n) n

/-- The items `a` in front. -/
def POut.prepend (a : List Tok) : POut → POut
  | .ok toks => .ok (a ++ toks)
  | .err e toks => .err e (a ++ toks)
  | .timeout => .timeout
  | .panic => .panic

theorem parseWithIndent_prepend (L : Lexer) (n : Nat) (syn : Syntax) (text : Str) (toks : List Tok)
    (ind : Indent) :
    parseWithIndent L n syn text toks ind = (parseWithIndent L n syn text [] ind).prepend toks := by
  unfold parseWithIndent
  cases syn.rules.getLast? with
  | none => simp [POut.prepend]
  | some r =>
    have := eval_prepend L syn.rules toks n r ⟨[], ind⟩ 0 (Pos.new text 0)
    simp only [St.prepend, List.append_nil, Nat.add_zero] at this
    simp only [List.length_nil, this]
    rcases eval L syn.rules n r ⟨[], ind⟩ 0 (Pos.new text 0) with _ | _ | ⟨_ | _, st⟩
    · rfl
    · rfl
    · simp only [Out.prepend]
      split
      · rfl
      · simp [POut.prepend, St.prepend, List.take_length_add_append]
    · rfl

end Verif
