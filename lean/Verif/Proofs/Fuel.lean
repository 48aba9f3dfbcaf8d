import Verif.Model.Eval
/-
Fuel monotonicity: once a run has an outcome, more fuel gives the same outcome.
-/
namespace Verif

/-- `a` is cut off or equal to `b`. -/
def Out.le (a b : Out) : Prop := a = .timeout ∨ a = b
def LineOut.le (a b : LineOut) : Prop := a = .timeout ∨ a = b

theorem Out.le_refl (a : Out) : a.le a := .inr rfl
theorem LineOut.le_refl (a : LineOut) : a.le a := .inr rfl
theorem Out.le_trans {a b c : Out} (h : a.le b) (h' : b.le c) : a.le c := by
  rcases h with rfl | rfl
  · exact .inl rfl
  · exact h'
theorem Out.timeout_le (a : Out) : Out.timeout.le a := .inl rfl
theorem LineOut.timeout_le (a : LineOut) : LineOut.timeout.le a := .inl rfl

/-- Pointwise order on parsers. -/
def Ev.le (f g : Ev) : Prop := ∀ r st s p, (f r st s p).le (g r st s p)

section
variable {f g : Ev}

theorem evalSelect_mono (h : Ev.le f g) (id s p) : ∀ rs oe st,
    (evalSelect f id s p rs oe st).le (evalSelect g id s p rs oe st)
  | [], none, _ => Out.le_refl _
  | [], some _, _ => Out.le_refl _
  | r :: rs, oe, st => by
    simp only [evalSelect]
    rcases h r st s p with h' | h'
    · rw [h']; exact Out.timeout_le _
    · rw [h']
      split
      · exact Out.le_refl _
      · exact evalSelect_mono h id s p rs _ _
      · exact Out.le_refl _
      · exact Out.le_refl _

theorem evalFastSelect_mono (h : Ev.le f g) (tb args tail id st s p) :
    (evalFastSelect f tb args tail id st s p).le (evalFastSelect g tb args tail id st s p) := by
  unfold evalFastSelect
  split
  · exact Out.le_refl _
  · simp only
    split
    · have htail : ∀ oe st, Out.le
          (match args.getLast? with
            | none => .panic
            | some sub =>
              match f sub st s p with
              | .ret (.ok range s' err) st' =>
                .ret (.ok (p.peek range.length) s' (errUpdate err oe)) st'
              | .ret (.err e) st' => .ret (.err (retErr e oe)) st'
              | .timeout => .timeout
              | .panic => .panic)
          (match args.getLast? with
            | none => .panic
            | some sub =>
              match g sub st s p with
              | .ret (.ok range s' err) st' =>
                .ret (.ok (p.peek range.length) s' (errUpdate err oe)) st'
              | .ret (.err e) st' => .ret (.err (retErr e oe)) st'
              | .timeout => .timeout
              | .panic => .panic) := by
        intro oe st
        cases args.getLast? with
        | none => exact Out.le_refl _
        | some sub =>
          simp only
          rcases h sub st s p with h' | h'
          · rw [h']; exact Out.timeout_le _
          · rw [h']; exact Out.le_refl _
      split
      · split
        · exact Out.le_refl _
        · rename_i sub _
          rcases h sub st s p with h' | h'
          · rw [h']; exact Out.timeout_le _
          · rw [h']
            split
            · exact Out.le_refl _
            · exact htail _ _
            · exact Out.le_refl _
            · exact Out.le_refl _
      · exact htail _ _
    · split
      · split
        · exact Out.le_refl _
        · rename_i sub _
          rcases h sub st s p with h' | h'
          · rw [h']; exact Out.timeout_le _
          · rw [h']; exact Out.le_refl _
      · exact Out.le_refl _

theorem evalSequence_mono (h : Ev.le f g) (start) : ∀ rs p s oe st,
    (evalSequence f start rs p s oe st).le (evalSequence g start rs p s oe st)
  | [], _, _, _, _ => Out.le_refl _
  | r :: rs, p, s, oe, st => by
    simp only [evalSequence]
    rcases h r st s p with h' | h'
    · rw [h']; exact Out.timeout_le _
    · rw [h']
      split
      · exact evalSequence_mono h start rs _ _ _ _
      · exact Out.le_refl _
      · exact Out.le_refl _
      · exact Out.le_refl _

theorem evalRepeat_mono (h : Ev.le f g) (r opt start) : ∀ {m n}, m ≤ n → ∀ first p s oe st,
    (evalRepeat f r opt start m first p s oe st).le (evalRepeat g r opt start n first p s oe st)
  | 0, _, _, _, _, _, _, _ => Out.timeout_le _
  | m + 1, 0, hmn, _, _, _, _, _ => absurd hmn (by omega)
  | m + 1, n + 1, hmn, first, p, s, oe, st => by
    simp only [evalRepeat]
    rcases h r st s p with h' | h'
    · rw [h']; exact Out.timeout_le _
    · rw [h']
      split
      · exact evalRepeat_mono h r opt start (by omega) _ _ _ _ _
      · exact Out.le_refl _
      · exact Out.le_refl _
      · exact Out.le_refl _

theorem evalSeparateBy_mono (h : Ev.le f g) (r b opt trail start) :
    ∀ {m n}, m ≤ n → ∀ first p s oe st,
    (evalSeparateBy f r b opt trail start m first p s oe st).le
      (evalSeparateBy g r b opt trail start n first p s oe st)
  | 0, _, _, _, _, _, _, _ => Out.timeout_le _
  | m + 1, 0, hmn, _, _, _, _, _ => absurd hmn (by omega)
  | m + 1, n + 1, hmn, first, p, s, oe, st => by
    simp only [evalSeparateBy]
    rcases h r st s p with h' | h'
    · rw [h']; exact Out.timeout_le _
    · rw [h']
      split
      · exact Out.le_refl _
      · rename_i range s1 err st1 _
        rcases h b st1 s1 (p.consume range.length) with h2 | h2
        · rw [h2]; exact Out.timeout_le _
        · rw [h2]
          split
          · exact Out.le_refl _
          · exact evalSeparateBy_mono h r b opt trail start (by omega) _ _ _ _ _
          · exact Out.le_refl _
          · exact Out.le_refl _
      · exact Out.le_refl _
      · exact Out.le_refl _

theorem evalNode_mono (h : Ev.le f g) (refs prop index id st s p) :
    (evalNode f refs prop index id st s p).le (evalNode g refs prop index id st s p) := by
  unfold evalNode
  cases index with
  | none => exact Out.le_refl _
  | some i =>
    simp only
    cases refs[i]? with
    | none => exact Out.le_refl _
    | some r =>
      simp only
      rcases h r (pushOpt prop .startNode p.start st s).1 (pushOpt prop .startNode p.start st s).2 p
        with h' | h'
      · rw [h']; exact Out.timeout_le _
      · rw [h']; exact Out.le_refl _

theorem evalOptional_mono (h : Ev.le f g) (r st s p) :
    (evalOptional f r st s p).le (evalOptional g r st s p) := by
  unfold evalOptional
  rcases h r st s p with h' | h'
  · rw [h']; exact Out.timeout_le _
  · rw [h']; exact Out.le_refl _

theorem evalNot_mono (h : Ev.le f g) (r id st s p) :
    (evalNot f r id st s p).le (evalNot g r id st s p) := by
  unfold evalNot
  rcases h r st s p with h' | h'
  · rw [h']; exact Out.timeout_le _
  · rw [h']; exact Out.le_refl _

theorem lineClosure_mono (h : Ev.le f g) (r x p) :
    (lineClosure f r x p).le (lineClosure g r x p) := by
  unfold lineClosure
  rcases h r x.st x.s p with h' | h'
  · rw [h']; exact LineOut.timeout_le _
  · rw [h']; exact LineOut.le_refl _

theorem lineItem_mono (h : Ev.le f g) (r x p0 p) :
    (lineItem f r x p0 p).le (lineItem g r x p0 p) := by
  unfold lineItem
  simp only
  split
  · exact LineOut.le_refl _
  · rcases h r { x.st with ind := { x.st.ind with indent := x.st.ind.indent + 1 } } x.s p
      with h' | h'
    · rw [h']; exact LineOut.timeout_le _
    · rw [h']; exact LineOut.le_refl _

theorem lineClosureIndent_mono (h : Ev.le f g) (r x p0) :
    (lineClosureIndent f r x p0).le (lineClosureIndent g r x p0) := by
  unfold lineClosureIndent
  split
  · exact LineOut.le_refl _
  · simp only
    split
    · split
      · exact LineOut.le_refl _
      · exact lineItem_mono h _ _ _ _
    · split
      · exact LineOut.le_refl _
      · exact lineItem_mono h _ _ _ _

theorem evalLines_mono (L : Lexer) {c d : LineSt → Pos → LineOut} (h : ∀ x p, (c x p).le (d x p))
    (id start) : ∀ {m n}, m ≤ n → ∀ first item p x,
    (evalLines L c id start m first item p x).le (evalLines L d id start n first item p x)
  | 0, _, _, _, _, _, _ => Out.timeout_le _
  | m + 1, 0, hmn, _, _, _, _ => absurd hmn (by omega)
  | m + 1, n + 1, hmn, first, item, p, x => by
    simp only [evalLines]
    split
    · exact Out.le_refl _
    · exact Out.le_refl _
    · rename_i k _
      rcases h x (p.consume k) with h' | h'
      · rw [h']; exact Out.timeout_le _
      · rw [h']
        split
        · exact Out.le_refl _
        · exact evalLines_mono L h id start (by omega) _ _ _ _
        · exact Out.le_refl _
        · exact Out.le_refl _

end

theorem step_mono (L : Lexer) (refs : List Rule) {f g : Ev} (h : Ev.le f g) {m n : Nat}
    (hmn : m ≤ n) : Ev.le (step L refs f m) (step L refs g n) := by
  intro r st s p
  cases r with
  | whitespace | tag | untilAny | untilAnyOrWs | text | number => exact Out.le_refl _
  | select => exact evalSelect_mono h _ _ _ _ _ _
  | fastSelect => exact evalFastSelect_mono h _ _ _ _ _ _ _
  | sequence => exact evalSequence_mono h _ _ _ _ _ _
  | separateBy => exact evalSeparateBy_mono h _ _ _ _ _ hmn _ _ _ _ _
  | repeat_ => exact evalRepeat_mono h _ _ _ hmn _ _ _ _ _
  | lines r ind id =>
    cases ind with
    | true => exact evalLines_mono L (lineClosureIndent_mono h r) _ _ hmn _ _ _ _
    | false => exact evalLines_mono L (lineClosure_mono h r) _ _ hmn _ _ _ _
  | node => exact evalNode_mono h _ _ _ _ _ _ _
  | optional => exact evalOptional_mono h _ _ _ _
  | not => exact evalNot_mono h _ _ _ _ _

theorem eval_le_succ (L : Lexer) (refs : List Rule) : ∀ n, Ev.le (eval L refs n) (eval L refs (n + 1))
  | 0 => fun _ _ _ _ => Out.timeout_le _
  | n + 1 => step_mono L refs (eval_le_succ L refs n) (Nat.le_succ n)

theorem eval_le (L : Lexer) (refs : List Rule) {m n : Nat} (h : m ≤ n) :
    Ev.le (eval L refs m) (eval L refs n) := by
  induction h with
  | refl => exact fun _ _ _ _ => Out.le_refl _
  | step _ ih => exact fun r st s p => Out.le_trans (ih r st s p) (eval_le_succ L refs _ r st s p)

/-- Once a run has an outcome, it keeps it with more fuel. -/
theorem eval_mono {L refs m n r st s p o} (h : m ≤ n) (he : eval L refs m r st s p = o)
    (ho : o ≠ .timeout) : eval L refs n r st s p = o := by
  rcases eval_le L refs h r st s p with h' | h'
  · rw [h'] at he; exact absurd he.symm ho
  · rw [← h', he]

/-- Two runs with outcomes agree, whatever the fuel. -/
theorem eval_det {L refs m n r st s p} (hm : eval L refs m r st s p ≠ .timeout)
    (hn : eval L refs n r st s p ≠ .timeout) :
    eval L refs m r st s p = eval L refs n r st s p := by
  rcases Nat.le_total m n with h | h
  · exact (eval_mono h rfl hm).symm
  · exact eval_mono h rfl hn

end Verif
