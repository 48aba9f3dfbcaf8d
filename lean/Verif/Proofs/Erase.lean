import Verif.Model.Eval
/-
The token vector influences nothing but itself: two runs that differ only in the vector and the
state have the same outcome, the same range, the same error and the same indentation.
-/
namespace Verif

/-- The same outcome up to the token vector. -/
inductive Out.Sim : Out → Out → Prop
  | timeout : Out.Sim .timeout .timeout
  | panic : Out.Sim .panic .panic
  | ok {range s s' err toks toks' ind} :
      Out.Sim (.ret (.ok range s err) ⟨toks, ind⟩) (.ret (.ok range s' err) ⟨toks', ind⟩)
  | err {e toks toks' ind} : Out.Sim (.ret (.err e) ⟨toks, ind⟩) (.ret (.err e) ⟨toks', ind⟩)

/-- The same outcome of a line closure up to the token vector. -/
inductive LineOut.Sim : LineOut → LineOut → Prop
  | timeout : LineOut.Sim .timeout .timeout
  | panic : LineOut.Sim .panic .panic
  | ret {r s s' oe first toks toks' ind} :
      LineOut.Sim (.ret r ⟨s, oe, first, ⟨toks, ind⟩⟩) (.ret r ⟨s', oe, first, ⟨toks', ind⟩⟩)

/-- A parser that does not look at the vector. -/
def EvSim (f : Ev) : Prop :=
  ∀ r toks s toks' s' ind p, Out.Sim (f r ⟨toks, ind⟩ s p) (f r ⟨toks', ind⟩ s' p)

theorem emitOpt_sim (prop mk r toks s toks' s' ind) :
    Out.Sim (emitOpt prop mk r ⟨toks, ind⟩ s) (emitOpt prop mk r ⟨toks', ind⟩ s') := by
  cases prop <;> exact .ok

theorem pushOpt_ind (prop mk r toks ind) (s : Nat) :
    (pushOpt prop mk r ⟨toks, ind⟩ s).1 = ⟨(pushOpt prop mk r ⟨toks, ind⟩ s).1.toks, ind⟩ := by
  cases prop <;> rfl

section
variable {f : Ev} (h : EvSim f)
include h

theorem evalSelect_sim (id s s' p) : ∀ rs oe toks toks' ind,
    Out.Sim (evalSelect f id s p rs oe ⟨toks, ind⟩) (evalSelect f id s' p rs oe ⟨toks', ind⟩)
  | [], none, _, _, _ => .err
  | [], some _, _, _, _ => .err
  | r :: rs, oe, toks, toks', ind => by
    have h' := h r toks s toks' s' ind p
    simp only [evalSelect]
    revert h'
    generalize f r ⟨toks, ind⟩ s p = a
    generalize f r ⟨toks', ind⟩ s' p = b
    intro h'
    cases h' with
    | timeout => exact .timeout
    | panic => exact .panic
    | ok => exact .ok
    | err => exact evalSelect_sim id s s' p rs _ _ _ _

theorem evalSequence_sim (start) : ∀ rs p s s' oe toks toks' ind,
    Out.Sim (evalSequence f start rs p s oe ⟨toks, ind⟩)
      (evalSequence f start rs p s' oe ⟨toks', ind⟩)
  | [], _, _, _, _, _, _, _ => .ok
  | r :: rs, p, s, s', oe, toks, toks', ind => by
    have h' := h r toks s toks' s' ind p
    simp only [evalSequence]
    revert h'
    generalize f r ⟨toks, ind⟩ s p = a
    generalize f r ⟨toks', ind⟩ s' p = b
    intro h'
    cases h' with
    | timeout => exact .timeout
    | panic => exact .panic
    | ok => exact evalSequence_sim start rs _ _ _ _ _ _ _
    | err => exact .err

theorem evalRepeat_sim (r opt start) : ∀ n first p s s' oe toks toks' ind,
    Out.Sim (evalRepeat f r opt start n first p s oe ⟨toks, ind⟩)
      (evalRepeat f r opt start n first p s' oe ⟨toks', ind⟩)
  | 0, _, _, _, _, _, _, _, _ => .timeout
  | n + 1, first, p, s, s', oe, toks, toks', ind => by
    have h' := h r toks s toks' s' ind p
    simp only [evalRepeat]
    revert h'
    generalize f r ⟨toks, ind⟩ s p = a
    generalize f r ⟨toks', ind⟩ s' p = b
    intro h'
    cases h' with
    | timeout => exact .timeout
    | panic => exact .panic
    | ok => exact evalRepeat_sim r opt start n _ _ _ _ _ _ _ _
    | err => simp only; split <;> constructor

theorem evalSeparateBy_sim (r b opt trail start) : ∀ n first p s s' oe toks toks' ind,
    Out.Sim (evalSeparateBy f r b opt trail start n first p s oe ⟨toks, ind⟩)
      (evalSeparateBy f r b opt trail start n first p s' oe ⟨toks', ind⟩)
  | 0, _, _, _, _, _, _, _, _ => .timeout
  | n + 1, first, p, s, s', oe, toks, toks', ind => by
    have h' := h r toks s toks' s' ind p
    simp only [evalSeparateBy]
    revert h'
    generalize f r ⟨toks, ind⟩ s p = x
    generalize f r ⟨toks', ind⟩ s' p = y
    intro h'
    cases h' with
    | timeout => exact .timeout
    | panic => exact .panic
    | err => simp only; split <;> constructor
    | @ok range s1 s1' err toks1 toks1' ind1 =>
      simp only
      have h2 := h b toks1 s1 toks1' s1' ind1 (p.consume range.length)
      revert h2
      generalize f b ⟨toks1, ind1⟩ s1 (p.consume range.length) = x
      generalize f b ⟨toks1', ind1⟩ s1' (p.consume range.length) = y
      intro h2
      cases h2 with
      | timeout => exact .timeout
      | panic => exact .panic
      | err => exact .ok
      | ok => exact evalSeparateBy_sim r b opt trail start n _ _ _ _ _ _ _ _

theorem evalFastSelect_sim (tb args tail id toks s toks' s' ind p) :
    Out.Sim (evalFastSelect f tb args tail id ⟨toks, ind⟩ s p)
      (evalFastSelect f tb args tail id ⟨toks', ind⟩ s' p) := by
  unfold evalFastSelect
  split
  · exact .err
  · simp only
    split
    · have htail : ∀ oe toks toks' ind, Out.Sim
          (match args.getLast? with
            | none => .panic
            | some sub =>
              match f sub ⟨toks, ind⟩ s p with
              | .ret (.ok range s' err) st' =>
                .ret (.ok (p.peek range.length) s' (errUpdate err oe)) st'
              | .ret (.err e) st' => .ret (.err (retErr e oe)) st'
              | .timeout => .timeout
              | .panic => .panic)
          (match args.getLast? with
            | none => .panic
            | some sub =>
              match f sub ⟨toks', ind⟩ s' p with
              | .ret (.ok range s' err) st' =>
                .ret (.ok (p.peek range.length) s' (errUpdate err oe)) st'
              | .ret (.err e) st' => .ret (.err (retErr e oe)) st'
              | .timeout => .timeout
              | .panic => .panic) := by
        intro oe toks toks' ind
        cases args.getLast? with
        | none => exact .panic
        | some sub =>
          simp only
          have h' := h sub toks s toks' s' ind p
          revert h'
          generalize f sub ⟨toks, ind⟩ s p = a
          generalize f sub ⟨toks', ind⟩ s' p = b
          intro h'
          cases h' <;> constructor
      split
      · split
        · exact .panic
        · rename_i sub _
          have h' := h sub toks s toks' s' ind p
          revert h'
          generalize f sub ⟨toks, ind⟩ s p = a
          generalize f sub ⟨toks', ind⟩ s' p = b
          intro h'
          cases h' with
          | timeout => exact .timeout
          | panic => exact .panic
          | ok => exact .ok
          | err => exact htail _ _ _ _
      · exact htail _ _ _ _
    · split
      · split
        · exact .panic
        · rename_i sub _
          have h' := h sub toks s toks' s' ind p
          revert h'
          generalize f sub ⟨toks, ind⟩ s p = a
          generalize f sub ⟨toks', ind⟩ s' p = b
          intro h'
          cases h' <;> constructor
      · exact .err

theorem evalNode_sim (refs prop index id toks s toks' s' ind p) :
    Out.Sim (evalNode f refs prop index id ⟨toks, ind⟩ s p)
      (evalNode f refs prop index id ⟨toks', ind⟩ s' p) := by
  unfold evalNode
  cases index with
  | none => exact .err
  | some i =>
    simp only
    cases refs[i]? with
    | none => exact .panic
    | some r =>
      simp only
      have h' := h r (pushOpt prop .startNode p.start ⟨toks, ind⟩ s).1.toks
        (pushOpt prop .startNode p.start ⟨toks, ind⟩ s).2
        (pushOpt prop .startNode p.start ⟨toks', ind⟩ s').1.toks
        (pushOpt prop .startNode p.start ⟨toks', ind⟩ s').2 ind p
      rw [← pushOpt_ind, ← pushOpt_ind] at h'
      revert h'
      generalize f r (pushOpt prop .startNode p.start ⟨toks, ind⟩ s).1 _ p = a
      generalize f r (pushOpt prop .startNode p.start ⟨toks', ind⟩ s').1 _ p = b
      intro h'
      cases h' with
      | timeout => exact .timeout
      | panic => exact .panic
      | err => exact .err
      | ok => cases prop <;> exact .ok

theorem evalOptional_sim (r toks s toks' s' ind p) :
    Out.Sim (evalOptional f r ⟨toks, ind⟩ s p) (evalOptional f r ⟨toks', ind⟩ s' p) := by
  unfold evalOptional
  have h' := h r toks s toks' s' ind p
  revert h'
  generalize f r ⟨toks, ind⟩ s p = a
  generalize f r ⟨toks', ind⟩ s' p = b
  intro h'
  cases h' <;> constructor

theorem evalNot_sim (r id toks s toks' s' ind p) :
    Out.Sim (evalNot f r id ⟨toks, ind⟩ s p) (evalNot f r id ⟨toks', ind⟩ s' p) := by
  unfold evalNot
  have h' := h r toks s toks' s' ind p
  revert h'
  generalize f r ⟨toks, ind⟩ s p = a
  generalize f r ⟨toks', ind⟩ s' p = b
  intro h'
  cases h' <;> constructor

theorem lineClosure_sim (r s oe first toks s' toks' ind p) :
    LineOut.Sim (lineClosure f r ⟨s, oe, first, ⟨toks, ind⟩⟩ p)
      (lineClosure f r ⟨s', oe, first, ⟨toks', ind⟩⟩ p) := by
  unfold lineClosure
  have h' := h r toks s toks' s' ind p
  simp only
  revert h'
  generalize f r ⟨toks, ind⟩ s p = a
  generalize f r ⟨toks', ind⟩ s' p = b
  intro h'
  cases h' <;> constructor

theorem lineItem_sim (r s oe first toks s' toks' ind p0 p) :
    LineOut.Sim (lineItem f r ⟨s, oe, first, ⟨toks, ind⟩⟩ p0 p)
      (lineItem f r ⟨s', oe, first, ⟨toks', ind⟩⟩ p0 p) := by
  unfold lineItem
  simp only
  split
  · exact .panic
  · have h' := h r toks s toks' s' { ind with indent := ind.indent + 1 } p
    revert h'
    generalize f r ⟨toks, { ind with indent := ind.indent + 1 }⟩ s p = a
    generalize f r ⟨toks', { ind with indent := ind.indent + 1 }⟩ s' p = b
    intro h'
    cases h' <;> constructor

theorem lineClosureIndent_sim (r s oe first toks s' toks' ind p) :
    LineOut.Sim (lineClosureIndent f r ⟨s, oe, first, ⟨toks, ind⟩⟩ p)
      (lineClosureIndent f r ⟨s', oe, first, ⟨toks', ind⟩⟩ p) := by
  unfold lineClosureIndent
  simp only
  split
  · exact .ret
  · split
    · split
      · exact .panic
      · exact lineItem_sim h r _ _ _ _ _ _ _ _ _
    · split
      · exact .ret
      · exact lineItem_sim h r _ _ _ _ _ _ _ _ _

end

theorem evalLines_sim (L : Lexer) {c : LineSt → Pos → LineOut}
    (h : ∀ s oe first toks s' toks' ind p,
      LineOut.Sim (c ⟨s, oe, first, ⟨toks, ind⟩⟩ p) (c ⟨s', oe, first, ⟨toks', ind⟩⟩ p))
    (id start) : ∀ n fl item p s oe first toks s' toks' ind,
    Out.Sim (evalLines L c id start n fl item p ⟨s, oe, first, ⟨toks, ind⟩⟩)
      (evalLines L c id start n fl item p ⟨s', oe, first, ⟨toks', ind⟩⟩)
  | 0, _, _, _, _, _, _, _, _, _, _ => .timeout
  | n + 1, fl, item, p, s, oe, first, toks, s', toks', ind => by
    simp only [evalLines]
    split
    · exact .ok
    · exact .err
    · rename_i k _
      have h' := h s oe first toks s' toks' ind (p.consume k)
      revert h'
      generalize c ⟨s, oe, first, ⟨toks, ind⟩⟩ (p.consume k) = a
      generalize c ⟨s', oe, first, ⟨toks', ind⟩⟩ (p.consume k) = b
      intro h'
      cases h' with
      | timeout => exact .timeout
      | panic => exact .panic
      | ret =>
        rename_i r _ _ _ _ _ _ _
        cases r with
        | none => exact .ok
        | some range => exact evalLines_sim L h id start n _ _ _ _ _ _ _ _ _ _

theorem eval_sim (L : Lexer) (refs : List Rule) : ∀ n, EvSim (eval L refs n)
  | 0 => fun _ _ _ _ _ _ _ => .timeout
  | n + 1 => by
    have ih := eval_sim L refs n
    intro r toks s toks' s' ind p
    cases r with
    | whitespace opt id =>
      simp only [eval, step, evalWhitespace]; split <;> constructor
    | tag =>
      simp only [eval, step, evalTag]
      split <;> split <;> first | exact .err | exact emitOpt_sim _ _ _ _ _ _ _ _
    | untilAny =>
      simp only [eval, step, evalUntilAny]
      split <;> first | exact .err | exact emitOpt_sim _ _ _ _ _ _ _ _
    | untilAnyOrWs =>
      simp only [eval, step, evalUntilAnyOrWs]
      split <;> first | exact .err | exact emitOpt_sim _ _ _ _ _ _ _ _
    | text =>
      simp only [eval, step, evalText]
      split
      · split
        · exact .err
        · split
          · exact .err
          · exact emitOpt_sim _ _ _ _ _ _ _ _
      · exact .err
    | number =>
      simp only [eval, step, evalNumber]
      split
      · split
        · exact .err
        · exact emitOpt_sim _ _ _ _ _ _ _ _
      · exact .err
    | select => exact evalSelect_sim ih _ _ _ _ _ _ _ _ _
    | fastSelect => exact evalFastSelect_sim ih _ _ _ _ _ _ _ _ _ _
    | sequence => exact evalSequence_sim ih _ _ _ _ _ _ _ _ _
    | separateBy => exact evalSeparateBy_sim ih _ _ _ _ _ _ _ _ _ _ _ _ _ _
    | repeat_ => exact evalRepeat_sim ih _ _ _ _ _ _ _ _ _ _ _ _
    | lines r ind id =>
      cases ind with
      | true => exact evalLines_sim L (lineClosureIndent_sim ih r) _ _ _ _ _ _ _ _ _ _ _ _ _
      | false => exact evalLines_sim L (lineClosure_sim ih r) _ _ _ _ _ _ _ _ _ _ _ _ _
    | node => exact evalNode_sim ih _ _ _ _ _ _ _ _ _ _
    | optional => exact evalOptional_sim ih _ _ _ _ _ _ _
    | not => exact evalNot_sim ih _ _ _ _ _ _ _ _

end Verif
