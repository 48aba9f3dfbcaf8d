import Verif.Model.Calls
import Verif.Proofs.Fuel
/-
`subcalls` lists what it should: the result of a call depends on the listed calls only, and on each of them.
-/
namespace Verif

variable {f g : Ev}

theorem selectCalls_agree {id s p} : ∀ {rs : List Rule} {oe st}, (∀ c ∈ selectCalls f s p rs st, c.run f = c.run g) →
    evalSelect g id s p rs oe st = evalSelect f id s p rs oe st ∧ selectCalls g s p rs st = selectCalls f s p rs st
  | [], none, _, _ => by simp [evalSelect, selectCalls]
  | [], some _, _, _ => by simp [evalSelect, selectCalls]
  | r :: rs, oe, st, h => by
    rw [selectCalls.eq_def] at h
    have h1 : f r st s p = g r st s p := h ⟨r, st, s, p⟩ (by simp)
    simp only [evalSelect, selectCalls, ← h1] at h ⊢
    cases ho : f r st s p with
    | timeout => simp
    | panic => simp
    | ret x st' =>
      cases x with
      | ok => simp
      | err e =>
        simp only [ho] at h ⊢
        have := selectCalls_agree (id := id) (oe := errUpdate (some e) oe) (fun c hc => h c (List.mem_cons_of_mem _ hc))
        simp [this]

theorem fastSelectCalls_agree {tb args tail id st s p} (h : ∀ c ∈ fastSelectCalls f tb args tail st s p, c.run f = c.run g) :
    evalFastSelect g tb args tail id st s p = evalFastSelect f tb args tail id st s p ∧
      fastSelectCalls g tb args tail st s p = fastSelectCalls f tb args tail st s p := by
  unfold fastSelectCalls evalFastSelect at *
  cases hp : p.src with
  | nil => simp
  | cons ch cs =>
    simp only [hp] at h ⊢
    by_cases hi : tb (firstByte ch) = 255
    · cases tail with
      | false => simp [hi]
      | true =>
        cases hl : args.getLast? with
        | none => simp [hi]
        | some sub =>
          have h1 : f sub st s p = g sub st s p := h ⟨sub, st, s, p⟩ (by simp [hi, hl])
          simp [hi, h1]
    · cases hg : args[(tb (firstByte ch)).toNat]? with
      | none => cases tail <;> simp [hi]
      | some sub =>
        have h1 : f sub st s p = g sub st s p := h ⟨sub, st, s, p⟩ (by simp [hi, hg])
        simp only [hg, ← h1] at h ⊢
        cases ho : f sub st s p with
        | timeout => cases tail <;> simp [hi]
        | panic => cases tail <;> simp [hi]
        | ret x st' =>
          cases x with
          | ok => cases tail <;> simp [hi]
          | err e =>
            cases tail with
            | false => simp
            | true =>
              cases hl : args.getLast? with
              | none => simp [hi]
              | some sub' =>
                have h2 : f sub' st' s p = g sub' st' s p := h ⟨sub', st', s, p⟩ (by simp [ho, hl, hi])
                simp [hi, h2]

theorem sequenceCalls_agree {start} : ∀ {rs : List Rule} {p s oe st}, (∀ c ∈ sequenceCalls f rs p s st, c.run f = c.run g) →
    evalSequence g start rs p s oe st = evalSequence f start rs p s oe st ∧
      sequenceCalls g rs p s st = sequenceCalls f rs p s st
  | [], _, _, _, _, _ => by simp [evalSequence, sequenceCalls]
  | r :: rs, p, s, oe, st, h => by
    rw [sequenceCalls.eq_def] at h
    have h1 : f r st s p = g r st s p := h ⟨r, st, s, p⟩ (by simp)
    simp only [evalSequence, sequenceCalls, ← h1] at h ⊢
    cases ho : f r st s p with
    | timeout => simp
    | panic => simp
    | ret x st' =>
      cases x with
      | err => simp
      | ok range s' e =>
        simp only [ho] at h ⊢
        have := sequenceCalls_agree (start := start) (oe := errUpdate e oe) (fun c hc => h c (List.mem_cons_of_mem _ hc))
        simp [this]

theorem repeatCalls_agree {r opt start} : ∀ {n m : Nat} {first p s oe st}, n ≤ m →
    (∀ c ∈ repeatCalls f r n p s st, c.run f = c.run g) → evalRepeat f r opt start n first p s oe st ≠ .timeout →
    evalRepeat g r opt start m first p s oe st = evalRepeat f r opt start n first p s oe st ∧
      repeatCalls g r m p s st = repeatCalls f r n p s st
  | 0, _, _, _, _, _, _, _, _, h => by simp [evalRepeat] at h
  | n + 1, m + 1, first, p, s, oe, st, hm, h, hne => by
    rw [repeatCalls.eq_def] at h
    have h1 : f r st s p = g r st s p := h ⟨r, st, s, p⟩ (by simp)
    simp only [evalRepeat, repeatCalls, ← h1] at h hne ⊢
    cases ho : f r st s p with
    | timeout => simp
    | panic => simp
    | ret x st' =>
      cases x with
      | err => simp
      | ok range s' e =>
        simp only [ho] at h hne ⊢
        have := repeatCalls_agree (Nat.le_of_succ_le_succ hm) (fun c hc => h c (List.mem_cons_of_mem _ hc)) hne
        simp [this]

theorem separateByCalls_agree {r b opt tr start} : ∀ {n m : Nat} {first p s oe st}, n ≤ m →
    (∀ c ∈ separateByCalls f r b n p s st, c.run f = c.run g) → evalSeparateBy f r b opt tr start n first p s oe st ≠ .timeout →
    evalSeparateBy g r b opt tr start m first p s oe st = evalSeparateBy f r b opt tr start n first p s oe st ∧
      separateByCalls g r b m p s st = separateByCalls f r b n p s st
  | 0, _, _, _, _, _, _, _, _, h => by simp [evalSeparateBy] at h
  | n + 1, m + 1, first, p, s, oe, st, hm, h, hne => by
    rw [separateByCalls.eq_def] at h
    have h1 : f r st s p = g r st s p := h ⟨r, st, s, p⟩ (by simp)
    simp only [evalSeparateBy, separateByCalls, ← h1] at h hne ⊢
    cases ho : f r st s p with
    | timeout => simp
    | panic => simp
    | ret x st' =>
      cases x with
      | err => simp
      | ok range s' e =>
        simp only [ho] at h hne ⊢
        have h2 : f b st' s' (p.consume range.length) = g b st' s' (p.consume range.length) := h ⟨b, st', s', _⟩ (List.mem_cons_of_mem _ List.mem_cons_self)
        simp only [← h2]
        cases ho2 : f b st' s' (p.consume range.length) with
        | timeout => simp
        | panic => simp
        | ret x2 st2 =>
          cases x2 with
          | err => simp
          | ok range2 s2 e2 =>
            simp only [ho2] at h hne ⊢
            have := separateByCalls_agree (Nat.le_of_succ_le_succ hm) (fun c hc => h c (List.mem_cons_of_mem _ (List.mem_cons_of_mem _ hc))) hne
            simp [this]

theorem lineClosure_agree {r x p} (h : ∀ c ∈ lineClosureCalls r x p, c.run f = c.run g) :
    lineClosure g r x p = lineClosure f r x p := by
  have h1 : f r x.st x.s p = g r x.st x.s p := h ⟨r, x.st, x.s, p⟩ (by simp [lineClosureCalls])
  simp [lineClosure, h1]

theorem lineItem_agree {r x p0 p} (h : ∀ c ∈ lineItemCalls r x p, c.run f = c.run g) :
    lineItem g r x p0 p = lineItem f r x p0 p := by
  unfold lineItemCalls at h
  unfold lineItem
  by_cases ho : x.st.ind.indent + 1 ≥ 2 ^ 32
  · simp only [ho, if_true]
  · simp only [ho, if_false, List.mem_singleton, forall_eq, Call.run] at h ⊢
    rw [h]

theorem lineClosureIndent_agree {r x p} (h : ∀ c ∈ lineClosureIndentCalls r x p, c.run f = c.run g) :
    lineClosureIndent g r x p = lineClosureIndent f r x p := by
  unfold lineClosureIndentCalls at h
  unfold lineClosureIndent
  split
  · rfl
  · rename_i k hk
    simp only [hk] at h
    split
    · rename_i hf
      rw [if_pos hf] at h
      simp only at h ⊢
      split
      · rfl
      · rename_i hi
        rw [if_neg hi] at h
        exact lineItem_agree h
    · rename_i hf
      rw [if_neg hf] at h
      simp only at h ⊢
      split
      · rfl
      · rename_i ht
        simp only [ht] at h
        exact lineItem_agree h

theorem linesCalls_agree {L : Lexer} {cf cg : LineSt → Pos → LineOut} {cc : LineSt → Pos → List Call} {id start}
    (hc : ∀ x p, (∀ c ∈ cc x p, c.run f = c.run g) → cg x p = cf x p) : ∀ {n m : Nat} {first item p x}, n ≤ m →
    (∀ c ∈ linesCalls L cf cc n first item p x, c.run f = c.run g) → evalLines L cf id start n first item p x ≠ .timeout →
    evalLines L cg id start m first item p x = evalLines L cf id start n first item p x ∧
      linesCalls L cg cc m first item p x = linesCalls L cf cc n first item p x
  | 0, _, _, _, _, _, _, _, h => by simp [evalLines] at h
  | n + 1, m + 1, first, item, p, x, hm, h, hne => by
    simp only [evalLines, linesCalls] at h hne ⊢
    cases hl : L.lineNext first item p.src with
    | done => simp
    | fail => simp
    | call k =>
      simp only [hl] at h hne ⊢
      have h1 := hc x (p.consume k) (fun c hc => h c (List.mem_append_left _ hc))
      rw [h1]
      cases ho : cf x (p.consume k) with
      | timeout => simp
      | panic => simp
      | ret o x' =>
        cases o with
        | none => simp
        | some range =>
          simp only [ho] at h hne ⊢
          have := linesCalls_agree hc (Nat.le_of_succ_le_succ hm) (fun c hc => h c (List.mem_append_right _ hc)) hne
          simp [this]

/-- The result of a call, and which calls it makes, depend on the results of the listed calls only. -/
theorem subcalls_agree {L : Lexer} {refs : List Rule} {n m : Nat} (hm : n ≤ m) {c : Call}
    (h : ∀ c' ∈ subcalls L refs f n c, c'.run f = c'.run g) (hne : c.run (step L refs f n) ≠ .timeout) :
    c.run (step L refs g m) = c.run (step L refs f n) ∧ subcalls L refs g m c = subcalls L refs f n c := by
  obtain ⟨r, st, s, p⟩ := c
  simp only [Call.run, step, subcalls] at h hne ⊢
  cases r with
  | whitespace => simp
  | tag => simp
  | untilAny => simp
  | untilAnyOrWs => simp
  | text => simp
  | number => simp
  | select => exact selectCalls_agree h
  | fastSelect => exact fastSelectCalls_agree h
  | sequence => exact sequenceCalls_agree h
  | separateBy => exact separateByCalls_agree hm h hne
  | repeat_ => exact repeatCalls_agree hm h hne
  | lines r ind id =>
    cases ind with
    | false => exact linesCalls_agree (cc := lineClosureCalls r) (fun x p => lineClosure_agree) hm h hne
    | true => exact linesCalls_agree (cc := lineClosureIndentCalls r) (fun x p => lineClosureIndent_agree) hm h hne
  | node name prop ix id =>
    cases ix with
    | none => simp [evalNode, nodeCalls]
    | some ix =>
      simp only [evalNode, nodeCalls] at h ⊢
      cases hx : refs[ix]? with
      | none => simp
      | some a =>
        simp only [hx, List.mem_singleton, forall_eq] at h ⊢
        simp [h]
  | optional =>
    simp only [List.mem_singleton, forall_eq] at h
    simp [evalOptional, h]
  | not =>
    simp only [List.mem_singleton, forall_eq] at h
    simp [evalNot, h]
theorem selectCalls_strict {id s p c} (hc : c.run f = .timeout) : ∀ {rs : List Rule} {oe st}, c ∈ selectCalls f s p rs st →
    evalSelect f id s p rs oe st = .timeout
  | [], _, _, h => by simp [selectCalls] at h
  | r :: rs, oe, st, h => by
    simp only [evalSelect, selectCalls, List.mem_cons] at h ⊢
    rcases h with rfl | h
    · have : f r st s p = .timeout := hc
      simp [this]
    · cases ho : f r st s p with
      | timeout => simp
      | panic => simp [ho] at h
      | ret x st' =>
        cases x with
        | ok => simp [ho] at h
        | err e =>
          simp only [ho] at h ⊢
          exact selectCalls_strict hc h

theorem fastSelectCalls_strict {tb args tail id st s p c} (hc : c.run f = .timeout)
    (h : c ∈ fastSelectCalls f tb args tail st s p) : evalFastSelect f tb args tail id st s p = .timeout := by
  unfold fastSelectCalls at h
  unfold evalFastSelect
  cases hp : p.src with
  | nil => simp [hp] at h
  | cons ch cs =>
    simp only [hp] at h ⊢
    by_cases hi : tb (firstByte ch) = 255
    · cases tail with
      | false => simp [hi] at h
      | true =>
        cases hl : args.getLast? with
        | none => simp [hi, hl] at h
        | some sub =>
          simp only [hi, hl, ne_eq, not_true_eq_false, if_false, if_true, List.mem_singleton] at h
          subst h
          have h1 : f sub st s p = .timeout := hc
          simp [hi, h1]
    · cases hg : args[(tb (firstByte ch)).toNat]? with
      | none => cases tail <;> simp [hi, hg] at h
      | some sub =>
        simp only [hi, hg, ne_eq, not_false_eq_true, if_true, List.mem_cons] at h
        rcases h with rfl | h
        · have h1 : f sub st s p = .timeout := hc
          cases tail <;> simp [hi, h1]
        · cases ho : f sub st s p with
          | timeout => simp [ho] at h
          | panic => simp [ho] at h
          | ret x st' =>
            cases x with
            | ok => simp [ho] at h
            | err e =>
              cases tail with
              | false => simp [ho] at h
              | true =>
                cases hl : args.getLast? with
                | none => simp [ho, hl] at h
                | some sub' =>
                  simp only [ho, hl, if_true, List.mem_singleton] at h
                  subst h
                  have h1 : f sub' st' s p = .timeout := hc
                  simp [hi, ho, h1]

theorem sequenceCalls_strict {start c} (hc : c.run f = .timeout) : ∀ {rs : List Rule} {p s oe st},
    c ∈ sequenceCalls f rs p s st → evalSequence f start rs p s oe st = .timeout
  | [], _, _, _, _, h => by simp [sequenceCalls] at h
  | r :: rs, p, s, oe, st, h => by
    simp only [evalSequence, sequenceCalls, List.mem_cons] at h ⊢
    rcases h with rfl | h
    · have : f r st s p = .timeout := hc
      simp [this]
    · cases ho : f r st s p with
      | timeout => simp
      | panic => simp [ho] at h
      | ret x st' =>
        cases x with
        | err => simp [ho] at h
        | ok range s' e =>
          simp only [ho] at h ⊢
          exact sequenceCalls_strict hc h

theorem repeatCalls_strict {r opt start c} (hc : c.run f = .timeout) : ∀ {n : Nat} {first p s oe st},
    c ∈ repeatCalls f r n p s st → evalRepeat f r opt start n first p s oe st = .timeout
  | 0, _, _, _, _, _, _ => by simp [evalRepeat]
  | n + 1, first, p, s, oe, st, h => by
    simp only [evalRepeat, repeatCalls, List.mem_cons] at h ⊢
    rcases h with rfl | h
    · have : f r st s p = .timeout := hc
      simp [this]
    · cases ho : f r st s p with
      | timeout => simp
      | panic => simp [ho] at h
      | ret x st' =>
        cases x with
        | err => simp [ho] at h
        | ok range s' e =>
          simp only [ho] at h ⊢
          exact repeatCalls_strict hc h

theorem separateByCalls_strict {r b opt tr start c} (hc : c.run f = .timeout) : ∀ {n : Nat} {first p s oe st},
    c ∈ separateByCalls f r b n p s st → evalSeparateBy f r b opt tr start n first p s oe st = .timeout
  | 0, _, _, _, _, _, _ => by simp [evalSeparateBy]
  | n + 1, first, p, s, oe, st, h => by
    simp only [evalSeparateBy, separateByCalls, List.mem_cons] at h ⊢
    rcases h with rfl | h
    · have : f r st s p = .timeout := hc
      simp [this]
    · cases ho : f r st s p with
      | timeout => simp
      | panic => simp [ho] at h
      | ret x st' =>
        cases x with
        | err => simp [ho] at h
        | ok range s' e =>
          simp only [ho, List.mem_cons] at h ⊢
          rcases h with rfl | h
          · have : f b st' s' (p.consume range.length) = .timeout := hc
            simp only [this]
          · cases ho2 : f b st' s' (p.consume range.length) with
            | timeout => simp
            | panic => simp only [ho2] at h; simp at h
            | ret x2 st2 =>
              cases x2 with
              | err => simp only [ho2] at h; simp at h
              | ok range2 s2 e2 =>
                simp only [ho2] at h ⊢
                exact separateByCalls_strict hc h

theorem lineClosure_strict {r x p c} (hc : c.run f = .timeout) (h : c ∈ lineClosureCalls r x p) :
    lineClosure f r x p = .timeout := by
  simp only [lineClosureCalls, List.mem_singleton] at h
  subst h
  have : f r x.st x.s p = .timeout := hc
  simp [lineClosure, this]

theorem lineItem_strict {r x p0 p c} (hc : c.run f = .timeout) (h : c ∈ lineItemCalls r x p) :
    lineItem f r x p0 p = .timeout := by
  unfold lineItemCalls at h
  unfold lineItem
  by_cases ho : x.st.ind.indent + 1 ≥ 2 ^ 32
  · simp only [ho, if_true] at h
    simp at h
  · simp only [ho, if_false, List.mem_singleton] at h ⊢
    subst h
    simp only [Call.run] at hc
    rw [hc]

theorem lineClosureIndent_strict {r x p c} (hc : c.run f = .timeout) (h : c ∈ lineClosureIndentCalls r x p) :
    lineClosureIndent f r x p = .timeout := by
  unfold lineClosureIndentCalls at h
  unfold lineClosureIndent
  split
  · rename_i hk
    simp [hk] at h
  · rename_i k hk
    simp only [hk] at h
    split
    · rename_i hf
      rw [if_pos hf] at h
      simp only at h ⊢
      split
      · rename_i hi
        rw [if_pos hi] at h
        simp at h
      · rename_i hi
        rw [if_neg hi] at h
        exact lineItem_strict hc h
    · rename_i hf
      rw [if_neg hf] at h
      simp only at h ⊢
      split
      · rename_i ht
        simp only [ht] at h
        simp at h
      · rename_i ht
        simp only [ht] at h
        exact lineItem_strict hc h

theorem linesCalls_strict {L : Lexer} {cf : LineSt → Pos → LineOut} {cc : LineSt → Pos → List Call} {id start c}
    (hcc : ∀ x p, c ∈ cc x p → cf x p = .timeout) : ∀ {n : Nat} {first item p x},
    c ∈ linesCalls L cf cc n first item p x → evalLines L cf id start n first item p x = .timeout
  | 0, _, _, _, _, _ => by simp [evalLines]
  | n + 1, first, item, p, x, h => by
    simp only [evalLines, linesCalls] at h ⊢
    cases hl : L.lineNext first item p.src with
    | done => simp [hl] at h
    | fail => simp [hl] at h
    | call k =>
      simp only [hl, List.mem_append] at h ⊢
      rcases h with h | h
      · rw [hcc _ _ h]
      · cases ho : cf x (p.consume k) with
        | timeout => simp
        | panic => simp only [ho] at h; simp at h
        | ret o x' =>
          cases o with
          | none => simp only [ho] at h; simp at h
          | some range =>
            simp only [ho] at h ⊢
            exact linesCalls_strict hcc h

/-- Every listed call is made: a call does not return before it has. -/
theorem subcalls_strict {L : Lexer} {refs : List Rule} {n : Nat} {c c' : Call}
    (h : c' ∈ subcalls L refs f n c) (hc : c'.run f = .timeout) : c.run (step L refs f n) = .timeout := by
  obtain ⟨r, st, s, p⟩ := c
  simp only [Call.run, step, subcalls] at h ⊢
  cases r with
  | whitespace => simp at h
  | tag => simp at h
  | untilAny => simp at h
  | untilAnyOrWs => simp at h
  | text => simp at h
  | number => simp at h
  | select => exact selectCalls_strict hc h
  | fastSelect => exact fastSelectCalls_strict hc h
  | sequence => exact sequenceCalls_strict hc h
  | separateBy => exact separateByCalls_strict hc h
  | repeat_ => exact repeatCalls_strict hc h
  | lines r ind id =>
    cases ind with
    | false => exact linesCalls_strict (cc := lineClosureCalls r) (fun x p => lineClosure_strict hc) h
    | true => exact linesCalls_strict (cc := lineClosureIndentCalls r) (fun x p => lineClosureIndent_strict hc) h
  | node name prop ix id =>
    cases ix with
    | none => simp [nodeCalls] at h
    | some ix =>
      simp only [evalNode, nodeCalls] at h ⊢
      cases hx : refs[ix]? with
      | none => simp [hx] at h
      | some a =>
        simp only [hx, List.mem_singleton] at h ⊢
        subst h
        simp only [Call.run] at hc
        simp [hc]
  | optional =>
    simp only [List.mem_singleton] at h
    subst h
    simp only [Call.run] at hc
    simp [evalOptional, hc]
  | not =>
    simp only [List.mem_singleton] at h
    subst h
    simp only [Call.run] at hc
    simp [evalNot, hc]

/-- More fuel changes nothing once the call returns. -/
theorem subcalls_stable {L : Lexer} {refs : List Rule} {n m : Nat} (hm : n ≤ m) {c : Call}
    (hne : c.run (eval L refs (n + 1)) ≠ .timeout) :
    subcalls L refs (eval L refs m) m c = subcalls L refs (eval L refs n) n c ∧
      ∀ c' ∈ subcalls L refs (eval L refs n) n c, c'.run (eval L refs n) ≠ .timeout := by
  have h1 : ∀ c' ∈ subcalls L refs (eval L refs n) n c, c'.run (eval L refs n) ≠ .timeout :=
    fun c' hc' ht => hne (subcalls_strict hc' ht)
  refine ⟨(subcalls_agree hm (fun c' hc' => ?_) hne).2, h1⟩
  rcases eval_le L refs hm c'.rule c'.st c'.s c'.p with h | h
  · exact absurd h (h1 c' hc')
  · exact h

theorem callCount_stable {L : Lexer} {refs : List Rule} : ∀ {n m : Nat}, n ≤ m → ∀ {c : Call},
    c.run (eval L refs n) ≠ .timeout → callCount L refs m c = callCount L refs n c
  | 0, _, _, _, h => by simp [Call.run, eval] at h
  | n + 1, m + 1, hm, c, h => by
    have := subcalls_stable (Nat.le_of_succ_le_succ hm) h
    simp only [callCount, this.1]
    congr 2
    exact List.map_congr_left fun c' hc' => callCount_stable (Nat.le_of_succ_le_succ hm) (this.2 c' hc')

theorem callDepth_stable {L : Lexer} {refs : List Rule} : ∀ {n m : Nat}, n ≤ m → ∀ {c : Call},
    c.run (eval L refs n) ≠ .timeout → callDepth L refs m c = callDepth L refs n c
  | 0, _, _, _, h => by simp [Call.run, eval] at h
  | n + 1, m + 1, hm, c, h => by
    have := subcalls_stable (Nat.le_of_succ_le_succ hm) h
    simp only [callDepth, this.1]
    congr 2
    exact List.map_congr_left fun c' hc' => callDepth_stable (Nat.le_of_succ_le_succ hm) (this.2 c' hc')

end Verif
