import Verif.Proofs.Predictive
import Verif.Proofs.BootCost
/-
What a syntax costs that is decided by the next character.
-/
namespace Verif
open Spec

section
variable {φ : Nat → Nat} {C B : Nat}

/-! ### Lines -/

theorem heads_take {s : Str} {k : Nat} {P : Char → Prop} (hk : k ≤ s.length) (h0 : 0 < k) (h : ∀ c ∈ s.take k, P c) :
    Heads s P := by
  cases s with
  | nil => simp at hk; omega
  | cons c t =>
    refine ⟨c, t, rfl, h c ?_⟩
    cases k with
    | zero => omega
    | succ k => simp

theorem pq_lines_end {a : Mark} {s : Str} {k : Nat} {o : Option Nat} (hC : φ a.idle ≤ C) (hk : k ≤ s.length)
    (hw : ∀ c ∈ s.take k, isWs c = true) (ho : ∀ j, o = some j → j = k) : PQ φ C B a.lines s o 0 := by
  refine ⟨k, 0, hk, by simp, ?_, ?_, by omega, ?_, fun _ => ⟨rfl, by simp [Mark.lines], rfl⟩⟩
  · intro h0
    have : C * 1 ≤ C * k := Nat.mul_le_mul_left C (by omega)
    simp only [Mark.lines]
    omega
  · intro h0
    exact heads_take hk (by omega) fun c hc => .inl (hw c hc)
  · intro j hj
    exact ⟨ho j hj, fun _ => rfl⟩

theorem Pq.lines_last {a : Mark} {s c k e i} (hC : φ a.idle ≤ C) (hi : i ≤ s.length) (hw : ∀ c ∈ s.take i, isWs c = true)
    (h : Pq φ C 0 a (s.drop i) none c k e) (hB : a.idle ≤ B) : PQ φ C B a.lines s (some i) c := by
  obtain ⟨rfl, hk, -⟩ := h.bad rfl
  have hle := h.le
  rw [List.length_drop] at hle
  have hid := h.idle
  have hco := h.cost
  refine ⟨i, k, by omega, ?_, ?_, ?_, ?_, by simp [Mark.lines], by simp⟩
  · intro h0
    exact h.idle (by omega)
  · intro h0
    simp only [Mark.lines]
    by_cases h1 : i = 0
    · omega
    · have : C * 1 ≤ C * i := Nat.mul_le_mul_left C (by omega)
      omega
  · intro h0
    by_cases h1 : i = 0
    · subst h1
      exact (h.head (by omega)).mono fun _ => .inr
    · exact heads_take hi (by omega) fun c hc => .inl (hw c hc)
  · intro h0
    refine (h.head (by omega)).mono fun c hc => .inr ⟨?_, hc⟩
    cases ha : a.sure with
    | false => rfl
    | true => exact absurd (hk ha) (by omega)

theorem Pq.lines_next {a : Mark} {s : Str} {c c' k e k' e' i j : Nat} {o : Option Nat} (hC : φ a.idle ≤ C)
    (hi : i ≤ s.length) (hw : ∀ c ∈ s.take i, isWs c = true) (h : Pq φ C 0 a (s.drop i) (some j) c k e)
    (h' : Pq φ C B a.lines ((s.drop i).drop j) o c' k' e') (he : a.empty = false) (hd : NoShared a.again a.lines.first)
    (hB : a.idle ≤ B) : PQ φ C B a.lines s (o.map (i + j + ·)) (c + c') := by
  obtain ⟨rfl, hk⟩ := h.ok j rfl
  have hle := h.le
  have hle' := h'.le
  simp only [List.length_drop] at hle hle'
  have hj : j ≠ 0 := fun h0 => by rw [hk h0] at he; cases he
  have h1 := h.cost (by omega)
  have h3 := h'.idle
  have h4 := h'.cost
  simp only [Mark.lines] at h3 h4
  have hhead : Heads s a.lines.first := by
    by_cases h1 : i = 0
    · subst h1
      exact (h.head (by omega)).mono fun _ => .inr
    · exact heads_take hi (by omega) fun c hc => .inl (hw c hc)
  have hiC : i = 0 ∨ φ a.idle ≤ C * i := by
    by_cases h1 : i = 0
    · exact .inl h1
    · have : C * 1 ≤ C * i := Nat.mul_le_mul_left C (by omega)
      omega
  by_cases he' : e = 0
  · subst he'
    refine ⟨i + j + k', e', by omega, by omega, ?_, fun _ => hhead, ?_, ?_, fun ho => ?_⟩
    · intro h0
      simp only [Mark.lines, Nat.mul_add]
      omega
    · intro h0
      have := h'.again h0
      rw [List.drop_drop, List.drop_drop] at this
      simpa [Nat.add_assoc] using this
    · intro x hx
      cases o with
      | none => cases hx
      | some x' =>
        obtain ⟨rfl, -⟩ := h'.ok x' rfl
        simp only [Option.map_some, Option.some.injEq] at hx
        exact ⟨hx.symm, fun _ => rfl⟩
    · cases o with
      | some _ => cases ho
      | none => exact ⟨(h'.bad rfl).1, by simp [Mark.lines], rfl⟩
  · have hno : k' + e' = 0 := by
      apply Classical.byContradiction
      intro h0
      exact (h.again (by omega)).apart (h'.head (by omega)) hd
    cases o with
    | some x =>
      obtain ⟨rfl, -⟩ := h'.ok x rfl
      have hx : x = 0 := by omega
      subst hx
      refine ⟨i + j, e, by omega, by omega, ?_, fun _ => hhead, ?_, ?_, by simp⟩
      · intro h0
        simp only [Mark.lines, Nat.mul_add]
        omega
      · intro h0
        have := h.again h0
        rw [List.drop_drop] at this
        exact this.mono fun c hc => .inl hc
      · intro x hx
        simp only [Option.map_some, Option.some.injEq] at hx
        exact ⟨by omega, fun _ => rfl⟩
    | none =>
      refine ⟨i + j + e, 0, by omega, by omega, ?_, fun _ => hhead, by omega, by simp,
        fun _ => ⟨rfl, by simp [Mark.lines], rfl⟩⟩
      intro h0
      simp only [Mark.lines, Nat.mul_add]
      omega

end

/-! ### Loops, again with whether they have been entered -/

section
variable {ev : Ev} {g : Call → Nat}

theorem sat_repeat_any {r : Rule} {Q : Quo} (hs : Sat ev g r Q) {I : Str → Nat → Nat → Prop}
    (base : ∀ s c, Q s none c → I s 0 c)
    (next : ∀ s k c k' c', Q s (some k) c → I (s.drop k) k' c' → I s (k + k') (c + c')) {start : Pos} {opt : Bool} :
    ∀ {fuel : Nat} {first p s oe st o st'}, start.off ≤ p.off →
    evalRepeat ev r opt start fuel first p s oe st = .ret o st' →
    (first = true ∧ opt = false ∧ o.taken = none ∧ Q p.src none ((repeatCalls ev r fuel p s st).map g).sum) ∨
    ∃ k, o.taken = some (p.off - start.off + k) ∧ I p.src k ((repeatCalls ev r fuel p s st).map g).sum ∧
      (first = true → opt = false → ∃ k' c, Q p.src (some k') c ∧ k' ≤ k)
  | 0, _, _, _, _, _, _, _, _, h => by simp [evalRepeat] at h
  | fuel + 1, first, p, s, oe, st, o, st', hp, h => by
    simp only [evalRepeat] at h
    cases ho : ev r st s p with
    | timeout => rw [ho] at h; cases h
    | panic => rw [ho] at h; cases h
    | ret x st1 =>
      have hq := hs _ _ _ _ _ ho
      rw [ho] at h
      cases x with
      | err e =>
        simp only at h
        split at h
        · rename_i hf
          simp only [Out.ret.injEq] at h
          obtain ⟨rfl, rfl⟩ := h
          exact .inl ⟨hf.1, hf.2, rfl, by simpa [repeatCalls, ho, Res.taken] using hq⟩
        · rename_i hf
          simp only [Out.ret.injEq] at h
          obtain ⟨rfl, rfl⟩ := h
          exact .inr ⟨0, by simp [Res.taken, Pos.subtract], by simpa [repeatCalls, ho] using base _ _ hq,
            fun h1 h2 => absurd ⟨h1, h2⟩ hf⟩
      | ok range s1 e1 =>
        rcases sat_repeat_any hs base next (p := p.consume range.length) (by simp only [Pos.consume]; omega) h with
          ⟨h0, -⟩ | ⟨k, h1, h2, -⟩
        · cases h0
        · refine .inr ⟨range.length + k, ?_, ?_, fun _ _ => ⟨_, _, hq, by omega⟩⟩
          · rw [h1]
            simp only [Pos.consume, Option.some.injEq]
            omega
          · simp only [repeatCalls, ho, List.map_cons, List.sum_cons]
            exact next _ _ _ _ _ hq h2

theorem sat_turns {r b : Rule} {Q R : Quo} (hs : Sat ev g r Q) (hb : Sat ev g b R) {I : Quo} {opt trail : Bool}
    (stop : ∀ s c, Q s none c → I s (if trail then some 0 else none) c)
    (last : ∀ s k c c', Q s (some k) c → R (s.drop k) none c' → I s (some k) (c + c'))
    (next : ∀ s k c k' c' o c'', Q s (some k) c → R (s.drop k) (some k') c' → I ((s.drop k).drop k') o c'' →
      I s (o.map (k + k' + ·)) (c + c' + c'')) {start : Pos} :
    ∀ {fuel : Nat} {first p s oe st o st'}, start.off ≤ p.off →
    evalSeparateBy ev r b opt trail start fuel first p s oe st = .ret o st' →
    (first = true ∧ o.taken = (if opt then some (p.off - start.off) else none) ∧
      Q p.src none ((separateByCalls ev r b fuel p s st).map g).sum) ∨
    ∃ o', o.taken = o'.map (p.off - start.off + ·) ∧ I p.src o' ((separateByCalls ev r b fuel p s st).map g).sum ∧
      (first = true → ∃ k c, Q p.src (some k) c ∧ ∀ j, o' = some j → k ≤ j)
  | 0, _, _, _, _, _, _, _, _, h => by simp [evalSeparateBy] at h
  | fuel + 1, first, p, s, oe, st, o, st', hp, h => by
    simp only [evalSeparateBy] at h
    cases ho : ev r st s p with
    | timeout => rw [ho] at h; cases h
    | panic => rw [ho] at h; cases h
    | ret x st1 =>
      have hq := hs _ _ _ _ _ ho
      rw [ho] at h
      cases x with
      | err e =>
        simp only at h
        cases first with
        | true =>
          refine .inl ⟨rfl, ?_, by simpa [separateByCalls, ho, Res.taken] using hq⟩
          cases opt with
          | true =>
            simp at h
            obtain ⟨rfl, rfl⟩ := h
            simp [Res.taken, Pos.subtract]
          | false =>
            simp at h
            obtain ⟨rfl, rfl⟩ := h
            rfl
        | false =>
          refine .inr ⟨if trail then some 0 else none, ?_, by simpa [separateByCalls, ho] using stop _ _ hq, by simp⟩
          cases trail with
          | true =>
            simp at h
            obtain ⟨rfl, rfl⟩ := h
            simp [Res.taken, Pos.subtract]
          | false =>
            simp at h
            obtain ⟨rfl, rfl⟩ := h
            rfl
      | ok range s1 e1 =>
        simp only at h
        cases ho2 : ev b st1 s1 (p.consume range.length) with
        | timeout => rw [ho2] at h; cases h
        | panic => rw [ho2] at h; cases h
        | ret y st2 =>
          have hq2 := hb _ _ _ _ _ ho2
          rw [ho2] at h
          cases y with
          | err e =>
            simp only [Out.ret.injEq] at h
            obtain ⟨rfl, rfl⟩ := h
            refine .inr ⟨some range.length, by simp [Res.taken, Pos.subtract, Pos.consume]; omega, ?_,
              fun _ => ⟨_, _, hq, fun j hj => by cases hj; exact Nat.le_refl _⟩⟩
            simpa [separateByCalls, ho, ho2] using last _ _ _ _ hq hq2
          | ok range2 s2 e2 =>
            rcases sat_turns hs hb stop last next (p := (p.consume range.length).consume range2.length)
              (by simp only [Pos.consume]; omega) h with ⟨h0, -⟩ | ⟨o', h1, h2, -⟩
            · cases h0
            · refine .inr ⟨o'.map (range.length + range2.length + ·), ?_, ?_, fun _ => ⟨_, _, hq, ?_⟩⟩
              · rw [h1]
                cases o' with
                | none => rfl
                | some k => simp only [Option.map_some, Pos.consume, Option.some.injEq]; omega
              · have := next _ _ _ _ _ _ _ hq hq2 h2
                simp only [separateByCalls, ho, ho2, List.map_cons, List.sum_cons]
                rwa [Nat.add_assoc (g _)] at this
              · intro j hj
                cases o' with
                | none => cases hj
                | some k =>
                  simp only [Option.map_some, Option.some.injEq] at hj
                  omega

end

/-! ### Every rule -/

section
variable {L : Lexer} {refs : List Rule} {M : Nat → Mark} {φ : Nat → Nat} {C B : Nat}

/-- What the rule is claimed to do. -/
abbrev RulePQ (L : Lexer) (M : Nat → Mark) (φ : Nat → Nat) (C : Nat) (r : Rule) : Quo := PQ φ C 0 (markOf L M r)

theorem belowL_map {n : Nat} : ∀ {rs : List Rule}, (∀ r ∈ rs, Below L refs n r (RulePQ L M φ C r)) →
    BelowL L refs n rs (rs.map (RulePQ L M φ C))
  | [], _ => trivial
  | r :: rs, h => ⟨h r (by simp), belowL_map fun x hx => h x (by simp [hx])⟩

theorem markSequence_idle : ∀ {rs : List Rule}, (∀ r ∈ rs, (markOf L M r).idle ≤ B) → (markSequence L M rs).idle ≤ rs.length * B
  | [], _ => by simp [markSequence, Mark.nothing]
  | r :: rs, h => by
    have h1 := h r (by simp)
    have h2 := markSequence_idle (rs := rs) fun x hx => h x (by simp [hx])
    simp only [markSequence, Mark.then_, List.length_cons, Nat.add_mul]
    split <;> omega

theorem markSelect_idle : ∀ {rs : List Rule}, (∀ r ∈ rs, (markOf L M r).idle ≤ B) → (markSelect L M rs).idle ≤ rs.length * B
  | [], _ => by simp [markSelect, Mark.fail]
  | r :: rs, h => by
    have h1 := h r (by simp)
    have h2 := markSelect_idle (rs := rs) fun x hx => h x (by simp [hx])
    simp only [markSelect, Mark.else_, List.length_cons, Nat.add_mul]
    omega

variable (hφ : ∀ i j, i ≤ j → φ j ≤ φ i)

include hφ in
theorem seqQ_pq : ∀ {rs : List Rule} {s o c}, (∀ r ∈ rs, (markOf L M r).idle ≤ B) → DecidedSequence L M rs →
    seqQ (rs.map (RulePQ L M φ C)) s o c → PQ φ C (rs.length * B) (markSequence L M rs) s o c
  | [], s, o, c, _, _, h => by
    obtain ⟨rfl, rfl⟩ := h
    exact ⟨_, _, pq_nothing⟩
  | r :: rs, s, o, c, hB, hd, h => by
    have hB' : ∀ x ∈ rs, (markOf L M x).idle ≤ B := fun x hx => hB x (by simp [hx])
    rcases h with ⟨⟨k, e, h⟩, rfl⟩ | ⟨j, c₁, o', c₂, ⟨k, e, h⟩, h', rfl, rfl⟩
    · exact ⟨_, _, h.then_fail hφ _⟩
    · obtain ⟨k', e', h'⟩ := seqQ_pq hB' hd.2 h'
      obtain ⟨k, e, h⟩ := h.then_ok hφ h' hd.1 (markSequence_idle hB') (hB r (by simp))
      rw [show (r :: rs).length * B = rs.length * B + B by simp [Nat.add_mul]]
      exact ⟨k, e, h⟩

include hφ in
theorem selQ_pq : ∀ {rs : List Rule} {s o c}, (∀ r ∈ rs, (markOf L M r).idle ≤ B) → DecidedSelect L M rs →
    selQ (rs.map (RulePQ L M φ C)) s o c → PQ φ C (rs.length * B) (markSelect L M rs) s o c
  | [], s, o, c, _, _, h => by
    obtain ⟨rfl, rfl⟩ := h
    exact ⟨_, _, pq_fail⟩
  | r :: rs, s, o, c, hB, hd, h => by
    have hB' : ∀ x ∈ rs, (markOf L M x).idle ≤ B := fun x hx => hB x (by simp [hx])
    rcases h with ⟨j, ⟨k, e, h⟩, rfl⟩ | ⟨c₁, c₂, ⟨k, e, h⟩, h', rfl⟩
    · exact ⟨_, _, h.else_ok hφ _⟩
    · obtain ⟨k', e', h'⟩ := selQ_pq hB' hd.2 h'
      obtain ⟨k, e, h⟩ := h.else_fail hφ h' hd.1 (markSelect_idle hB') (hB r (by simp))
      rw [show (r :: rs).length * B = rs.length * B + B by simp [Nat.add_mul]]
      exact ⟨k, e, h⟩

omit hφ in
theorem below_leaf {n : Nat} {r : Rule} {f : Char → Prop} {em sf : Bool} (hC : 1 + φ 1 ≤ C)
    (hc : ∀ ev m c, c.rule = r → subcalls L refs ev m c = [])
    (h : ∀ m st s p o st', step L refs (eval L refs m) m r st s p = .ret o st' →
      (∀ k, o.taken = some k → k ≤ p.src.length) ∧ (∀ k, o.taken = some k → k ≠ 0 → Heads p.src f) ∧
      (o.taken = some 0 → em = true) ∧ (o.taken = none → sf = false)) :
    Below L refs n r (PQ φ C 0 (.leaf f em sf)) := by
  refine Below.mono (n := n + 1) (below_succ fun m hm st s p o st' ho => ?_) (by omega)
  obtain ⟨h1, h2, h3, h4⟩ := h m st s p o st' ho
  rw [hc _ _ _ rfl]
  exact pq_leaf hC h1 h2 h3 h4

theorem takeWhile_heads {p : Char → Bool} {s : Str} (h : (s.takeWhile p).length ≠ 0) : Heads s (fun c => p c = true) := by
  cases s with
  | nil => simp at h
  | cons c t =>
    refine ⟨c, t, rfl, ?_⟩
    cases hc : p c with
    | true => exact hc
    | false => simp [hc] at h

theorem below_whitespace_pq {n opt id} (hC : 1 + φ 1 ≤ C) : Below L refs n (.whitespace opt id) (RulePQ L M φ C (.whitespace opt id)) := by
  simp only [RulePQ, markOf]
  refine below_leaf hC (fun ev m c hc => by simp [subcalls, hc]) fun m st s p o st' ho => ?_
  simp only [step, evalWhitespace] at ho
  split at ho
  · rename_i h
    simp only [Out.ret.injEq] at ho
    rw [← ho.1]
    simp [Res.taken, h.2]
  · rename_i h
    simp only [Out.ret.injEq] at ho
    rw [← ho.1]
    have h1 := takeWhile_length_le isWs p.src
    have h2 := @takeWhile_heads isWs p.src
    simp only [Res.taken, Pos.whitespace, Pos.peek, Option.some.injEq] at h ⊢
    refine ⟨by omega, fun k hk h0 => h2 (by omega), fun h0 => ?_, by simp⟩
    cases opt with
    | true => rfl
    | false => exact absurd ⟨h0, rfl⟩ h

theorem below_untilAny_pq {n any opt prop id} (hC : 1 + φ 1 ≤ C) :
    Below L refs n (.untilAny any opt prop id) (RulePQ L M φ C (.untilAny any opt prop id)) := by
  simp only [RulePQ, markOf]
  refine below_leaf hC (fun ev m c hc => by simp [subcalls, hc]) fun m st s p o st' ho => ?_
  simp only [step, evalUntilAny] at ho
  split at ho
  · rename_i h
    simp only [Out.ret.injEq] at ho
    rw [← ho.1]
    simp [Res.taken, h.2]
  · rename_i h
    rw [taken_emitOpt ho]
    have h1 := takeWhile_length_le (fun c => !any.contains c) p.src
    have h2 := @takeWhile_heads (fun c => !any.contains c) p.src
    simp only [Pos.untilAny, Pos.peek, Option.some.injEq] at h ⊢
    refine ⟨by omega, fun k hk h0 => (h2 (by omega)).mono fun c hc => by simpa using hc, fun h0 => ?_, by simp⟩
    cases opt with
    | true => rfl
    | false => exact absurd ⟨h0, rfl⟩ h

theorem below_untilAnyOrWs_pq {n any opt prop id} (hC : 1 + φ 1 ≤ C) :
    Below L refs n (.untilAnyOrWs any opt prop id) (RulePQ L M φ C (.untilAnyOrWs any opt prop id)) := by
  simp only [RulePQ, markOf]
  refine below_leaf hC (fun ev m c hc => by simp [subcalls, hc]) fun m st s p o st' ho => ?_
  simp only [step, evalUntilAnyOrWs] at ho
  split at ho
  · rename_i h
    simp only [Out.ret.injEq] at ho
    rw [← ho.1]
    simp [Res.taken, h.2]
  · rename_i h
    rw [taken_emitOpt ho]
    have h1 := takeWhile_length_le (fun c => !(any.contains c || isWs c)) p.src
    have h2 := @takeWhile_heads (fun c => !(any.contains c || isWs c)) p.src
    simp only [Pos.untilAnyOrWs, Pos.peek, Option.some.injEq] at h ⊢
    refine ⟨by omega, fun k hk h0 => (h2 (by omega)).mono fun c hc => by simpa using hc, fun h0 => ?_, by simp⟩
    cases opt with
    | true => rfl
    | false => exact absurd ⟨h0, rfl⟩ h

theorem below_tag_pq {n t neg inv prop id} (hC : 1 + φ 1 ≤ C) :
    Below L refs n (.tag t neg inv prop id) (RulePQ L M φ C (.tag t neg inv prop id)) := by
  simp only [RulePQ, markOf]
  refine below_leaf hC (fun ev m c hc => by simp [subcalls, hc]) fun m st s p o st' ho => ?_
  simp only [step, evalTag, Pos.tag] at ho
  by_cases h : t.isPrefixOf p.src = true
  · simp only [h, if_true] at ho
    cases neg with
    | true =>
      simp only [if_true, Out.ret.injEq] at ho
      rw [← ho.1]
      simp [Res.taken]
    | false =>
      simp only [Bool.false_eq_true, if_false] at ho
      rw [taken_emitOpt ho]
      have h1 := isPrefixOf_length h
      simp only [Pos.peek, Option.some.injEq]
      refine ⟨by omega, fun k hk h0 => ?_, fun h0 => by simpa using h0, by simp⟩
      cases t with
      | nil => exact absurd hk.symm h0
      | cons c t =>
        obtain ⟨u, hu⟩ := List.isPrefixOf_iff_prefix.1 h
        exact ⟨c, t ++ u, hu.symm, trivial, rfl⟩
  · simp only [h, if_false, Bool.false_eq_true] at ho
    cases neg with
    | true =>
      simp only [if_true] at ho
      rw [taken_emitOpt ho]
      simp [Pos.start]
    | false =>
      simp only [Bool.false_eq_true, if_false, Out.ret.injEq] at ho
      rw [← ho.1]
      simp only [Res.taken, reduceCtorEq, false_implies, implies_true, true_and, forall_const]
      cases t with
      | nil => simp at h
      | cons c t => rfl

theorem below_text_pq (hL : L.Lawful) {n ae prop id} (hC : 1 + φ 1 ≤ C) :
    Below L refs n (.text ae prop id) (RulePQ L M φ C (.text ae prop id)) := by
  have h1 : Below L refs (n + 1) (.text ae prop id) TextQ := below_text hL
  intro m hm st s p o st' ho
  obtain ⟨h2, h3⟩ := h1 m (by omega) st s p o st' ho
  simp only [RulePQ, markOf, h2]
  refine pq_leaf hC (fun k hk => (h3 k hk).2.1) (fun k hk _ => ?_) (fun h0 => ?_) (fun _ => rfl)
  · have := (h3 k hk).2.2
    cases hp : p.src with
    | nil => rw [hp] at this; cases this
    | cons c t => rw [hp] at this; cases this; exact ⟨_, t, rfl, rfl⟩
  · have := (h3 0 h0).1
    omega

theorem below_number_pq (hL : L.Lawful) {n prop us id} (hC : 1 + φ 1 ≤ C) :
    Below L refs n (.number prop us id) (RulePQ L M φ C (.number prop us id)) := by
  simp only [RulePQ, markOf]
  refine below_leaf hC (fun ev m c hc => by simp [subcalls, hc]) fun m st s p o st' ho => ?_
  simp only [step, evalNumber] at ho
  split at ho
  · rename_i j hj
    split at ho
    · simp only [Out.ret.injEq] at ho
      rw [← ho.1]
      simp [Res.taken]
    · rw [taken_emitOpt ho]
      obtain ⟨h1, h2⟩ := hL.num_some hj
      simp only [Pos.peek, Option.some.injEq]
      refine ⟨by omega, fun k hk h0 => ?_, by omega, by simp⟩
      cases hp : p.src with
      | nil => rw [hp] at h2; simp at h2; omega
      | cons c t => rw [hp] at hj; exact ⟨c, t, rfl, t, j, hj⟩
  · simp only [Out.ret.injEq] at ho
    rw [← ho.1]
    simp [Res.taken]

theorem callCount_none {n : Nat} {r : Rule} {st s p} (h : CallsNone r) : callCount L refs n ⟨r, st, s, p⟩ ≤ 1 := by
  cases n with
  | zero => simp [callCount]
  | succ n => cases r <;> simp_all [callCount, subcalls, CallsNone]

theorem below_not_pq {n r id} (h : CallsNone r) : Below L refs n (.not r id) (RulePQ L M φ C (.not r id)) := by
  refine Below.mono (n := n + 1) (below_succ fun m hm st s p o st' ho => ?_) (by omega)
  simp only [RulePQ, markOf]
  have h1 := callCount_none (L := L) (refs := refs) (n := m) (st := st) (s := s) (p := p) h
  have h2 : ∀ j, o.taken = some j → j = 0 := by
    intro j hj
    simp only [step, evalNot] at ho
    cases hr : eval L refs m r st s p with
    | timeout => rw [hr] at ho; cases ho
    | panic => rw [hr] at ho; cases ho
    | ret x st1 =>
      rw [hr] at ho
      cases x <;>
        (simp only [Out.ret.injEq] at ho
         rw [← ho.1] at hj
         simp [Res.taken, Pos.start] at hj)
      exact hj.symm
  refine ⟨0, 0, by omega, ?_, by omega, by omega, by omega, fun j hj => ⟨h2 j hj, fun _ => rfl⟩, fun _ => ⟨rfl, by simp, rfl⟩⟩
  intro _
  simp [subcalls, Mark.called, Mark.leaf]
  omega

end

/-! ### All together -/

/-- The numbers fit together: `B` bounds the calls without reading, `w` the number of parts. -/
structure Pays (L : Lexer) (M : Nat → Mark) (refs : List Rule) (φ : Nat → Nat) (C B w : Nat) : Prop where
  anti : ∀ i j, i ≤ j → φ j ≤ φ i
  idle : ∀ x, Part refs x → (markOf L M x).idle ≤ B
  width : ∀ rs id, Part refs (.sequence rs id) ∨ Part refs (.select rs id) → rs.length ≤ w
  step : ∀ i, i + 1 ≤ B → (w + 3) * B + 1 + φ (1 + i) ≤ φ i
  char : 1 + φ 0 ≤ C

theorem decided_occurs {c r : Rule} (hc : Child c r) {q : Rule} (h : Occurs r q) : Occurs c q := by
  induction h with
  | refl => exact .step .refl hc
  | step _ hc' ih => exact .step ih hc'

theorem decided_part {refs : List Rule} {c r : Rule} (h : Part refs r) (hc : Child c r) : Part refs c := by
  obtain ⟨q, hq, h⟩ := h
  exact ⟨q, hq, decided_occurs hc h⟩

theorem Pays.called {L : Lexer} {M : Nat → Mark} {refs : List Rule} {φ : Nat → Nat} {C B w x : Nat} (hF : Pays L M refs φ C B w)
    {a : Mark} {s o c} (ha : 1 + a.idle ≤ B) (hx : x ≤ (w + 3) * B) (h : PQ φ C x a s o c) : PQ φ C 0 a.called s o (1 + c) := by
  obtain ⟨k, e, h⟩ := h
  have := hF.step a.idle (by omega)
  exact ⟨k, e, h.called (by omega)⟩

/-- Whatever is tried, what it costs is paid for by what is read. -/
theorem below_predictive {L : Lexer} (hL : L.Lawful) {M : Nat → Mark} {refs : List Rule} (hP : Predictive L M refs)
    {φ : Nat → Nat} {C B w : Nat} (hF : Pays L M refs φ C B w) : ∀ (n : Nat) (r : Rule), Part refs r →
    Below L refs n r (RulePQ L M φ C r)
  | 0, _, _ => fun m hm => absurd hm (by omega)
  | n + 1, r, hr => by
    have ih : ∀ c, Child c r → Below L refs n c (RulePQ L M φ C c) := fun c hc =>
      below_predictive hL hP hF n c (decided_part hr hc)
    have hb : ∀ c, Child c r → (markOf L M c).idle ≤ B := fun c hc => hF.idle c (decided_part hr hc)
    have hB := hF.idle r hr
    have hd := hP.decided r hr
    have hφ := hF.anti
    have hC1 : 1 + φ 1 ≤ C := by
      have := hF.char
      have := hφ 0 1 (by omega)
      omega
    have hCi : ∀ i, φ i ≤ C := fun i => by
      have := hF.char
      have := hφ 0 i (by omega)
      omega
    have h3 : 3 * B ≤ (w + 3) * B := Nat.mul_le_mul_right B (by omega)
    have h1 : B ≤ (w + 3) * B := by omega
    have hw : ∀ k, k ≤ w → k * B ≤ (w + 3) * B := fun k hk => Nat.mul_le_mul_right B (by omega)
    cases r with
    | whitespace => exact below_whitespace_pq hC1
    | tag => exact below_tag_pq hC1
    | untilAny => exact below_untilAny_pq hC1
    | untilAnyOrWs => exact below_untilAnyOrWs_pq hC1
    | text => exact below_text_pq hL hC1
    | number => exact below_number_pq hL hC1
    | not r id => exact below_not_pq hd
    | fastSelect => exact hd.elim
    | sequence rs id =>
      simp only [RulePQ, markOf] at hB ⊢
      refine (below_sequence (belowL_map fun c hc => ih c (.sequence hc))).weaken fun s o c h => ?_
      obtain ⟨c', h, rfl⟩ := h
      exact hF.called hB (hw _ (hF.width _ _ (.inl hr))) (seqQ_pq hφ (fun c hc => hb c (.sequence hc)) hd h)
    | select rs id =>
      simp only [RulePQ, markOf] at hB ⊢
      refine (below_select (belowL_map fun c hc => ih c (.select hc))).weaken fun s o c h => ?_
      obtain ⟨c', h, rfl⟩ := h
      exact hF.called hB (hw _ (hF.width _ _ (.inr hr))) (selQ_pq hφ (fun c hc => hb c (.select hc)) hd h)
    | optional r id =>
      simp only [RulePQ, markOf] at hB ⊢
      refine (below_optional (ih r .optional)).weaken fun s o c h => ?_
      obtain ⟨c', h, rfl⟩ := h
      refine hF.called hB h1 ?_
      rcases h with ⟨k, ⟨k', e', h⟩, rfl⟩ | ⟨⟨k', e', h⟩, rfl⟩
      · exact ⟨_, _, h.else_ok hφ _⟩
      · have := h.else_fail (x := 0) hφ pq_nothing (fun _ h => h.2) (Nat.le_refl _) (hb r .optional)
        rw [Nat.zero_add, Nat.add_zero] at this
        exact this
    | node name prop ix id =>
      cases ix with
      | none =>
        simp only [RulePQ, markOf]
        refine below_leaf hC1 (fun ev m c hc => by simp [subcalls, hc, nodeCalls]) fun m st s p o st' ho => ?_
        simp only [step, evalNode, Out.ret.injEq] at ho
        rw [← ho.1]
        simp [Res.taken]
      | some i =>
        cases hi : refs[i]? with
        | none =>
          refine below_succ fun m hm st s p o st' ho => ?_
          simp [step, evalNode, hi] at ho
        | some q =>
          simp only [RulePQ, markOf] at hB ⊢
          have hq : Part refs q := ⟨q, List.mem_of_getElem? hi, .refl⟩
          refine (below_node hi (below_predictive hL hP hF n q hq)).weaken fun s o c h => ?_
          obtain ⟨c', ⟨k, e, h⟩, rfl⟩ := h
          exact hF.called hB (Nat.zero_le _) ⟨k, e, h.weaken hφ (hP.covers i q hi) (Nat.le_refl _)⟩
    | repeat_ r opt id =>
      simp only [RulePQ, markOf] at hB ⊢
      refine below_succ fun m hm st s p o st' ho => hF.called hB h1 ?_
      simp only [subcalls]
      rcases sat_repeat_any (ih r .repeat_ m hm) (I := fun s k c => PQ φ C B ((markOf L M r).loop true) s (some k) c)
        (fun s c ⟨k, e, h⟩ => h.loop_base (hb r .repeat_))
        (fun s k c k' c' ⟨_, _, h⟩ ⟨_, _, h'⟩ => h.loop_next h' hd.1 hd.2 (hb r .repeat_)) (Nat.le_refl _) ho with
        ⟨-, rfl, h2, k, e, h⟩ | ⟨k, h2, ⟨k', e', h⟩, h5⟩
      · rw [h2]
        exact h.loop_fail
      · rw [h2, Nat.sub_self, Nat.zero_add]
        refine ⟨k', e', h.loop_opt opt fun h0 hk => ?_⟩
        obtain ⟨k1, c1, ⟨_, _, h6⟩, h7⟩ := h5 rfl h0
        obtain ⟨h8, h9⟩ := h6.ok k1 rfl
        have := h9 (by omega)
        rw [hd.1] at this
        cases this
    | separateBy r b opt trail id =>
      simp only [RulePQ, markOf] at hB ⊢
      refine below_succ fun m hm st s p o st' ho => hF.called hB h3 ?_
      simp only [subcalls]
      have hBt : 1 + ((markOf L M r).turns (markOf L M b) true trail).idle ≤ B := hB
      have hφB : 3 * B ≤ φ ((markOf L M r).turns (markOf L M b) true trail).idle := by
        have := hF.step _ (Nat.le_trans (Nat.le_of_eq (Nat.add_comm _ _)) hBt)
        omega
      rcases sat_turns (ih r .item m hm) (ih b .sep m hm) (I := PQ φ C (3 * B) ((markOf L M r).turns (markOf L M b) true trail))
        (fun s c ⟨k, e, h⟩ => h.turns_stop hφ)
        (fun s k c c' ⟨_, _, h⟩ ⟨_, _, h'⟩ => h.turns_last hφ h' hd.2.2.1 (hb r .item) (hb b .sep))
        (fun s k c k' c' o c'' ⟨_, _, h⟩ ⟨_, _, h'⟩ ⟨_, _, h''⟩ => h.turns_next hφ h' h'' hd.1 hd.2.1 hd.2.2.1 hd.2.2.2.1
          hd.2.2.2.2 (hb r .item) (hb b .sep) (by omega) hφB) (Nat.le_refl _) ho with
        ⟨-, h2, k, e, h⟩ | ⟨o', h2, ⟨k', e', h⟩, h5⟩
      · have := h.turns_fail (x := 3 * B) (b := markOf L M b) (trail := trail) hφ opt
        rw [h2, Nat.sub_self]
        exact this
      · have h6 : o.taken = o' := by rw [h2]; cases o' <;> simp
        rw [h6]
        refine ⟨k', e', h.turns_opt opt fun h0 hk => ?_⟩
        obtain ⟨k1, c1, ⟨_, _, h6⟩, h7⟩ := h5 rfl
        obtain ⟨h8, h9⟩ := h6.ok k1 rfl
        have := h7 0 hk
        exact h9 (by omega)
    | lines r ind id =>
      obtain ⟨rfl, he, hd⟩ := hd
      simp only [RulePQ, markOf] at hB ⊢
      have hr' := hb r .lines
      refine (below_lines (ih r .lines) (J := fun _ => PQ φ C B (markOf L M r).lines) ?_ ?_ ?_ ?_).weaken fun s o c h => ?_
      · rintro f s k ⟨i, h⟩
        obtain ⟨h2, h3⟩ := hL.line_done h
        exact pq_lines_end (k := k) (hCi _) (by omega) (fun c hc => h3 c (List.mem_of_mem_take hc)) (fun j hj => by cases hj; rfl)
      · rintro f s k ⟨i, h⟩
        obtain ⟨-, h2, h3, -⟩ := hL.line_fail h
        exact pq_lines_end (hCi _) h2 (fun c hc => (h3 c hc).1) (fun j hj => by cases hj)
      · rintro f s k c ⟨i, h⟩ ⟨_, _, h'⟩
        obtain ⟨h2, h3, -⟩ := hL.line_call h
        exact h'.lines_last (hCi _) h2 h3 hr'
      · rintro f s k k' c o c' ⟨i, h⟩ ⟨_, _, h'⟩ ⟨_, _, h''⟩
        obtain ⟨h2, h3, -⟩ := hL.line_call h
        exact h'.lines_next (hCi _) h2 h3 h'' he hd hr'
      · obtain ⟨c', h, rfl⟩ := h
        exact hF.called hB h1 h

end Verif
