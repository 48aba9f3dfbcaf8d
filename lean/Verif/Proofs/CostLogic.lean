import Verif.Spec.Cost
import Verif.Spec.Lexer
import Verif.Proofs.Calls
/-
What a rule takes and costs: one relation for each rule, put together from those of its parts.
-/
namespace Verif
open Spec

/-- The number of characters taken. -/
def Res.taken : Res → Option Nat
  | .ok r _ _ => some r.length
  | .err _ => none

/-- From the text ahead, the number of characters taken (or a failure), and the number of calls. -/
abbrev Quo := Str → Option Nat → Nat → Prop

/-- Whatever the rule does is described by `Q`; `g` tells what a call costs. -/
def Sat (ev : Ev) (g : Call → Nat) (r : Rule) (Q : Quo) : Prop :=
  ∀ st s p o st', ev r st s p = .ret o st' → Q p.src o.taken (g ⟨r, st, s, p⟩)

/-- The same for lists. -/
def SatL (ev : Ev) (g : Call → Nat) : List Rule → List Quo → Prop
  | [], [] => True
  | r :: rs, Q :: Qs => Sat ev g r Q ∧ SatL ev g rs Qs
  | _, _ => False

/-- One after the other. -/
def seqQ : List Quo → Quo
  | [], _, o, c => o = some 0 ∧ c = 0
  | Q :: Qs, s, o, c =>
    (Q s none c ∧ o = none) ∨
      ∃ k c₁ o' c₂, Q s (some k) c₁ ∧ seqQ Qs (s.drop k) o' c₂ ∧ o = o'.map (k + ·) ∧ c = c₁ + c₂

/-- The first that does not fail. -/
def selQ : List Quo → Quo
  | [], _, o, c => o = none ∧ c = 0
  | Q :: Qs, s, o, c =>
    (∃ k, Q s (some k) c ∧ o = some k) ∨ ∃ c₁ c₂, Q s none c₁ ∧ selQ Qs s o c₂ ∧ c = c₁ + c₂

section
variable {ev : Ev} {g : Call → Nat}

theorem sat_sequence {start : Pos} : ∀ {rs : List Rule} {Qs : List Quo}, SatL ev g rs Qs → ∀ {p s oe st o st'},
    start.off ≤ p.off → evalSequence ev start rs p s oe st = .ret o st' →
    ∃ o', seqQ Qs p.src o' ((sequenceCalls ev rs p s st).map g).sum ∧
      o.taken = o'.map (p.off - start.off + ·)
  | [], [], _, p, s, oe, st, o, st', _, h => by
    simp only [evalSequence, Out.ret.injEq] at h
    obtain ⟨rfl, rfl⟩ := h
    exact ⟨some 0, ⟨rfl, by simp [sequenceCalls]⟩, by simp [Res.taken, Pos.subtract]⟩
  | r :: rs, Q :: Qs, hs, p, s, oe, st, o, st', hp, h => by
    simp only [evalSequence] at h
    cases ho : ev r st s p with
    | timeout => rw [ho] at h; cases h
    | panic => rw [ho] at h; cases h
    | ret x st1 =>
      have hq := hs.1 _ _ _ _ _ ho
      rw [ho] at h
      cases x with
      | err e =>
        simp only [Out.ret.injEq] at h
        obtain ⟨rfl, rfl⟩ := h
        exact ⟨none, .inl ⟨by simpa [sequenceCalls, ho, Res.taken] using hq, rfl⟩, rfl⟩
      | ok range s1 e1 =>
        obtain ⟨o', h1, h2⟩ := sat_sequence hs.2 (p := p.consume range.length) (by simp only [Pos.consume]; omega) h
        refine ⟨o'.map (range.length + ·), .inr ⟨_, _, o', _, hq, h1, rfl, ?_⟩, ?_⟩
        · simp [sequenceCalls, ho]
        · rw [h2]
          cases o' with
          | none => rfl
          | some k => simp only [Option.map_some, Pos.consume, Option.some.injEq]; omega
  | [], _ :: _, hs, _, _, _, _, _, _, _, _ => hs.elim
  | _ :: _, [], hs, _, _, _, _, _, _, _, _ => hs.elim

theorem sat_select {id s p} : ∀ {rs : List Rule} {Qs : List Quo}, SatL ev g rs Qs → ∀ {oe st o st'},
    evalSelect ev id s p rs oe st = .ret o st' → selQ Qs p.src o.taken ((selectCalls ev s p rs st).map g).sum
  | [], [], _, oe, st, o, st', h => by
    cases oe <;> (simp only [evalSelect, Out.ret.injEq] at h; obtain ⟨rfl, rfl⟩ := h; exact ⟨rfl, rfl⟩)
  | r :: rs, Q :: Qs, hs, oe, st, o, st', h => by
    simp only [evalSelect] at h
    cases ho : ev r st s p with
    | timeout => rw [ho] at h; cases h
    | panic => rw [ho] at h; cases h
    | ret x st1 =>
      have hq := hs.1 _ _ _ _ _ ho
      rw [ho] at h
      cases x with
      | ok range s1 e1 =>
        simp only [Out.ret.injEq] at h
        obtain ⟨rfl, rfl⟩ := h
        exact .inl ⟨range.length, by simpa [selectCalls, ho, Res.taken] using hq, rfl⟩
      | err e =>
        exact .inr ⟨_, _, hq, sat_select hs.2 h, by simp [selectCalls, ho]⟩
  | [], _ :: _, hs, _, _, _, _, _ => hs.elim
  | _ :: _, [], hs, _, _, _, _, _ => hs.elim

theorem sat_repeat {r : Rule} {Q : Quo} (hs : Sat ev g r Q) {I : Str → Nat → Nat → Prop}
    (base : ∀ s c, Q s none c → I s 0 c)
    (next : ∀ s k c k' c', Q s (some k) c → I (s.drop k) k' c' → I s (k + k') (c + c')) {start : Pos} :
    ∀ {fuel : Nat} {first p s oe st o st'}, start.off ≤ p.off →
    evalRepeat ev r true start fuel first p s oe st = .ret o st' →
    ∃ k, o.taken = some (p.off - start.off + k) ∧ I p.src k ((repeatCalls ev r fuel p s st).map g).sum
  | 0, _, _, _, _, _, _, _, _, h => by simp [evalRepeat] at h
  | fuel + 1, first, p, s, oe, st, o, st', hp, h => by
    simp only [evalRepeat] at h
    cases ho : ev r st s p with
    | timeout => rw [ho] at h; cases h
    | panic => rw [ho] at h; cases h
    | ret x st1 =>
      have hq := hs _ _ _ _ _ ho
      rw [ho] at h
      cases x with
      | err e =>
        simp at h
        obtain ⟨rfl, rfl⟩ := h
        exact ⟨0, by simp [Res.taken, Pos.subtract], by simpa [repeatCalls, ho] using base _ _ hq⟩
      | ok range s1 e1 =>
        obtain ⟨k, h1, h2⟩ := sat_repeat hs base next (p := p.consume range.length) (by simp only [Pos.consume]; omega) h
        refine ⟨range.length + k, ?_, ?_⟩
        · rw [h1]
          simp only [Pos.consume, Option.some.injEq]
          omega
        · simp only [repeatCalls, ho, List.map_cons, List.sum_cons]
          exact next _ _ _ _ _ hq h2

/-- At least one item; a separator at the end is allowed. -/
theorem sat_separateBy {r b : Rule} {Q R : Quo} (hs : Sat ev g r Q) (hb : Sat ev g b R) {I : Str → Nat → Nat → Prop}
    (base : ∀ s c, Q s none c → I s 0 c)
    (last : ∀ s k c c', Q s (some k) c → R (s.drop k) none c' → I s k (c + c'))
    (next : ∀ s k c k' c' k'' c'', Q s (some k) c → R (s.drop k) (some k') c' → I ((s.drop k).drop k') k'' c'' →
      I s (k + k' + k'') (c + c' + c'')) {start : Pos} :
    ∀ {fuel : Nat} {first p s oe st o st'}, start.off ≤ p.off →
    evalSeparateBy ev r b false true start fuel first p s oe st = .ret o st' →
    (first = true ∧ o.taken = none ∧ Q p.src none ((separateByCalls ev r b fuel p s st).map g).sum) ∨
    ∃ k, o.taken = some (p.off - start.off + k) ∧ I p.src k ((separateByCalls ev r b fuel p s st).map g).sum
  | 0, _, _, _, _, _, _, _, _, h => by simp [evalSeparateBy] at h
  | fuel + 1, first, p, s, oe, st, o, st', hp, h => by
    simp only [evalSeparateBy] at h
    cases ho : ev r st s p with
    | timeout => rw [ho] at h; cases h
    | panic => rw [ho] at h; cases h
    | ret x st1 =>
      have hq := hs _ _ _ _ _ ho
      rw [ho] at h
      cases x with
      | err e =>
        cases first with
        | true =>
          simp at h
          obtain ⟨rfl, rfl⟩ := h
          exact .inl ⟨rfl, rfl, by simpa [separateByCalls, ho, Res.taken] using hq⟩
        | false =>
          simp at h
          obtain ⟨rfl, rfl⟩ := h
          exact .inr ⟨0, by simp [Res.taken, Pos.subtract], by simpa [separateByCalls, ho] using base _ _ hq⟩
      | ok range s1 e1 =>
        simp only at h
        cases ho2 : ev b st1 s1 (p.consume range.length) with
        | timeout => rw [ho2] at h; cases h
        | panic => rw [ho2] at h; cases h
        | ret y st2 =>
          have hq2 := hb _ _ _ _ _ ho2
          rw [ho2] at h
          cases y with
          | err e =>
            simp only [Out.ret.injEq] at h
            obtain ⟨rfl, rfl⟩ := h
            refine .inr ⟨range.length, by simp [Res.taken, Pos.subtract, Pos.consume]; omega, ?_⟩
            simpa [separateByCalls, ho, ho2] using last _ _ _ _ hq hq2
          | ok range2 s2 e2 =>
            rcases sat_separateBy hs hb base last next (p := (p.consume range.length).consume range2.length)
              (by simp only [Pos.consume]; omega) h with ⟨h0, -⟩ | ⟨k, h1, h2⟩
            · cases h0
            · refine .inr ⟨range.length + range2.length + k, ?_, ?_⟩
              · rw [h1]
                simp only [Pos.consume, Option.some.injEq]
                omega
              · have := next _ _ _ _ _ _ _ hq hq2 h2
                simp only [separateByCalls, ho, ho2, List.map_cons, List.sum_cons]
                rwa [Nat.add_assoc (g _)] at this

theorem sat_lines {L : Lexer} {r : Rule} {Q : Quo} (hs : Sat ev g r Q) {J : Bool → Quo}
    (done : ∀ f s k, (∃ i, L.lineNext f i s = .done k) → J f s (some k) 0)
    (fail : ∀ f s k, (∃ i, L.lineNext f i s = .fail k) → J f s none 0)
    (last : ∀ f s k c, (∃ i, L.lineNext f i s = .call k) → Q (s.drop k) none c → J f s (some k) c)
    (next : ∀ f s k k' c o c', (∃ i, L.lineNext f i s = .call k) → Q (s.drop k) (some k') c →
      J false ((s.drop k).drop k') o c' → J f s (o.map (k + k' + ·)) (c + c')) {id : DebugId} {start : Pos} :
    ∀ {fuel : Nat} {first item p x o st'}, start.off ≤ p.off →
    evalLines L (lineClosure ev r) id start fuel first item p x = .ret o st' →
    ∃ o', o.taken = o'.map (p.off - start.off + ·) ∧
      J first p.src o' ((linesCalls L (lineClosure ev r) (lineClosureCalls r) fuel first item p x).map g).sum
  | 0, _, _, _, _, _, _, _, h => by simp [evalLines] at h
  | fuel + 1, first, item, p, x, o, st', hp, h => by
    simp only [evalLines] at h
    cases hn : L.lineNext first item p.src with
    | done k =>
      rw [hn] at h
      simp only [Out.ret.injEq] at h
      obtain ⟨rfl, rfl⟩ := h
      refine ⟨some k, by simp [Res.taken, Pos.subtract, Pos.consume]; omega, ?_⟩
      simpa [linesCalls, hn] using done _ _ _ ⟨_, hn⟩
    | fail k =>
      rw [hn] at h
      simp only [Out.ret.injEq] at h
      obtain ⟨rfl, rfl⟩ := h
      refine ⟨none, rfl, ?_⟩
      simpa [linesCalls, hn] using fail _ _ _ ⟨_, hn⟩
    | call k =>
      rw [hn] at h
      simp only [lineClosure] at h
      cases ho : ev r x.st x.s (p.consume k) with
      | timeout => rw [ho] at h; cases h
      | panic => rw [ho] at h; cases h
      | ret y st1 =>
        have hq := hs _ _ _ _ _ ho
        rw [ho] at h
        cases y with
        | err e =>
          simp only [Out.ret.injEq] at h
          obtain ⟨rfl, rfl⟩ := h
          refine ⟨some k, by simp [Res.taken, Pos.subtract, Pos.consume]; omega, ?_⟩
          simpa [linesCalls, hn, lineClosureCalls, lineClosure, ho] using last _ _ _ _ ⟨_, hn⟩ hq
        | ok range s1 e1 =>
          simp only at h
          obtain ⟨o', h1, h2⟩ := sat_lines hs done fail last next (p := (p.consume k).consume range.length)
            (by simp only [Pos.consume]; omega) h
          refine ⟨o'.map (k + range.length + ·), ?_, ?_⟩
          · rw [h1]
            cases o' with
            | none => rfl
            | some k' => simp only [Option.map_some, Pos.consume, Option.some.injEq]; omega
          · have := next _ _ _ _ _ _ _ ⟨_, hn⟩ hq h2
            simpa [linesCalls, hn, lineClosureCalls, lineClosure, ho] using this

end

/-! ### With depth -/

/-- Whatever the rule does is described by `Q`, at every depth below `n`. -/
def Below (L : Lexer) (refs : List Rule) (n : Nat) (r : Rule) (Q : Quo) : Prop :=
  ∀ m < n, Sat (eval L refs m) (callCount L refs m) r Q

/-- The same for lists. -/
def BelowL (L : Lexer) (refs : List Rule) (n : Nat) : List Rule → List Quo → Prop
  | [], [] => True
  | r :: rs, Q :: Qs => Below L refs n r Q ∧ BelowL L refs n rs Qs
  | _, _ => False

section
variable {L : Lexer} {refs : List Rule} {n : Nat}

theorem Below.mono {r : Rule} {Q : Quo} {m : Nat} (h : Below L refs n r Q) (hm : m ≤ n) : Below L refs m r Q :=
  fun k hk => h k (by omega)

theorem Below.weaken {r : Rule} {Q R : Quo} (h : Below L refs n r Q) (hq : ∀ s o c, Q s o c → R s o c) :
    Below L refs n r R := fun m hm st s p o st' ho => hq _ _ _ (h m hm st s p o st' ho)

theorem BelowL.nil : BelowL L refs n [] [] := trivial

theorem BelowL.cons {r rs} {Q : Quo} {Qs : List Quo} (h : Below L refs n r Q) (hs : BelowL L refs n rs Qs) :
    BelowL L refs n (r :: rs) (Q :: Qs) := ⟨h, hs⟩

theorem BelowL.sat : ∀ {rs : List Rule} {Qs : List Quo}, BelowL L refs n rs Qs → ∀ m < n,
    SatL (eval L refs m) (callCount L refs m) rs Qs
  | [], [], _, _, _ => trivial
  | _ :: _, _ :: _, h, m, hm => ⟨h.1 m hm, BelowL.sat h.2 m hm⟩
  | [], _ :: _, h, _, _ => h.elim
  | _ :: _, [], h, _, _ => h.elim

theorem below_succ {r : Rule} {Q : Quo}
    (h : ∀ m < n, ∀ st s p o st', step L refs (eval L refs m) m r st s p = .ret o st' →
      Q p.src o.taken (1 + ((subcalls L refs (eval L refs m) m ⟨r, st, s, p⟩).map (callCount L refs m)).sum)) :
    Below L refs (n + 1) r Q := by
  intro m hm st s p o st' ho
  cases m with
  | zero => simp [eval] at ho
  | succ m => exact h m (by omega) st s p o st' ho

theorem below_sequence {rs id} {Qs : List Quo} (h : BelowL L refs n rs Qs) :
    Below L refs (n + 1) (.sequence rs id) (fun s o c => ∃ c', seqQ Qs s o c' ∧ c = 1 + c') := by
  refine below_succ fun m hm st s p o st' ho => ?_
  obtain ⟨o', h1, h2⟩ := sat_sequence (h.sat m hm) (Nat.le_refl _) ho
  have h3 : o.taken = o' := by rw [h2]; cases o' <;> simp
  exact ⟨_, h3 ▸ h1, rfl⟩

theorem below_select {rs id} {Qs : List Quo} (h : BelowL L refs n rs Qs) :
    Below L refs (n + 1) (.select rs id) (fun s o c => ∃ c', selQ Qs s o c' ∧ c = 1 + c') :=
  below_succ fun m hm _ _ _ _ _ ho => ⟨_, sat_select (h.sat m hm) ho, rfl⟩

theorem below_repeat {r id} {Q : Quo} (h : Below L refs n r Q) {I : Str → Nat → Nat → Prop}
    (base : ∀ s c, Q s none c → I s 0 c)
    (next : ∀ s k c k' c', Q s (some k) c → I (s.drop k) k' c' → I s (k + k') (c + c')) :
    Below L refs (n + 1) (.repeat_ r true id) (fun s o c => ∃ k c', o = some k ∧ I s k c' ∧ c = 1 + c') := by
  refine below_succ fun m hm st s p o st' ho => ?_
  obtain ⟨k, h1, h2⟩ := sat_repeat (h m hm) base next (Nat.le_refl _) ho
  exact ⟨k, _, by simpa using h1, h2, rfl⟩

theorem below_separateBy {r b id} {Q R : Quo} (h : Below L refs n r Q) (hb : Below L refs n b R)
    {I : Str → Nat → Nat → Prop}
    (base : ∀ s c, Q s none c → I s 0 c)
    (last : ∀ s k c c', Q s (some k) c → R (s.drop k) none c' → I s k (c + c'))
    (next : ∀ s k c k' c' k'' c'', Q s (some k) c → R (s.drop k) (some k') c' → I ((s.drop k).drop k') k'' c'' →
      I s (k + k' + k'') (c + c' + c'')) :
    Below L refs (n + 1) (.separateBy r b false true id)
      (fun s o c => ∃ c', ((o = none ∧ Q s none c') ∨ ∃ k, o = some k ∧ I s k c') ∧ c = 1 + c') := by
  refine below_succ fun m hm st s p o st' ho => ?_
  refine ⟨_, ?_, rfl⟩
  rcases sat_separateBy (h m hm) (hb m hm) base last next (Nat.le_refl _) ho with ⟨-, h1, h2⟩ | ⟨k, h1, h2⟩
  · exact .inl ⟨h1, h2⟩
  · exact .inr ⟨k, by simpa using h1, h2⟩

theorem below_lines {r id} {Q : Quo} (h : Below L refs n r Q) {J : Bool → Quo}
    (done : ∀ f s k, (∃ i, L.lineNext f i s = .done k) → J f s (some k) 0)
    (fail : ∀ f s k, (∃ i, L.lineNext f i s = .fail k) → J f s none 0)
    (last : ∀ f s k c, (∃ i, L.lineNext f i s = .call k) → Q (s.drop k) none c → J f s (some k) c)
    (next : ∀ f s k k' c o c', (∃ i, L.lineNext f i s = .call k) → Q (s.drop k) (some k') c →
      J false ((s.drop k).drop k') o c' → J f s (o.map (k + k' + ·)) (c + c')) :
    Below L refs (n + 1) (.lines r false id) (fun s o c => ∃ c', J true s o c' ∧ c = 1 + c') := by
  refine below_succ fun m hm st s p o st' ho => ?_
  simp only [step, Bool.false_eq_true, if_false] at ho
  obtain ⟨o', h1, h2⟩ := sat_lines (h m hm) done fail last next (Nat.le_refl _) ho
  have h3 : o.taken = o' := by rw [h1]; cases o' <;> simp
  exact ⟨_, h3 ▸ h2, by simp [subcalls]⟩

theorem below_optional {r id} {Q : Quo} (h : Below L refs n r Q) :
    Below L refs (n + 1) (.optional r id)
      (fun s o c => ∃ c', ((∃ k, Q s (some k) c' ∧ o = some k) ∨ (Q s none c' ∧ o = some 0)) ∧ c = 1 + c') := by
  refine below_succ fun m hm st s p o st' ho => ?_
  simp only [step, evalOptional] at ho
  cases hr : eval L refs m r st s p with
  | timeout => rw [hr] at ho; cases ho
  | panic => rw [hr] at ho; cases ho
  | ret x st1 =>
    have hq := h m hm _ _ _ _ _ hr
    rw [hr] at ho
    refine ⟨_, ?_, rfl⟩
    simp only [subcalls, List.map_cons, List.map_nil, List.sum_cons, List.sum_nil, Nat.add_zero]
    cases x with
    | err e =>
      simp only [Out.ret.injEq] at ho
      obtain ⟨rfl, rfl⟩ := ho
      exact .inr ⟨hq, rfl⟩
    | ok range s1 e1 =>
      simp only [Out.ret.injEq] at ho
      obtain ⟨rfl, rfl⟩ := ho
      exact .inl ⟨range.length, hq, by simp [Res.taken, Pos.subtract, Pos.consume]⟩

theorem below_node {name prop ix id r} {Q : Quo} (hr : refs[ix]? = some r) (h : Below L refs n r Q) :
    Below L refs (n + 1) (.node name prop (some ix) id) (fun s o c => ∃ c', Q s o c' ∧ c = 1 + c') := by
  refine below_succ fun m hm st s p o st' ho => ?_
  simp only [step, evalNode, hr] at ho
  refine ⟨_, ?_, rfl⟩
  simp only [subcalls, nodeCalls, hr, List.map_cons, List.map_nil, List.sum_cons, List.sum_nil, Nat.add_zero]
  cases hx : eval L refs m r (pushOpt prop .startNode p.start st s).1 (pushOpt prop .startNode p.start st s).2 p with
  | timeout => rw [hx] at ho; cases ho
  | panic => rw [hx] at ho; cases ho
  | ret x st1 =>
    have hq := h m hm _ _ _ _ _ hx
    rw [hx] at ho
    cases x with
    | err e =>
      simp only [Out.ret.injEq] at ho
      obtain ⟨rfl, rfl⟩ := ho
      exact hq
    | ok range s1 e1 =>
      simp only [Out.ret.injEq] at ho
      obtain ⟨rfl, rfl⟩ := ho
      simpa [Res.taken, Pos.subtract, Pos.consume] using hq

/-! ### Rules that do not call others -/

theorem takeWhile_length_le {α : Type} (p : α → Bool) : ∀ l : List α, (l.takeWhile p).length ≤ l.length
  | [] => Nat.le_refl _
  | a :: l => by
    simp only [List.takeWhile_cons]
    split
    · simpa using takeWhile_length_le p l
    · simp

theorem taken_emitOpt {prop mk r st s o st'} (h : emitOpt prop mk r st s = .ret o st') : o.taken = some r.length := by
  simp only [emitOpt, Out.ret.injEq] at h
  rw [← h.1]
  rfl

/-- `"t"`. -/
def TagQ (t : Str) : Quo := fun s o c => c = 1 ∧ ((t.isPrefixOf s = true ∧ o = some t.length) ∨ (t.isPrefixOf s = false ∧ o = none))

theorem below_tag {t inv prop id} : Below L refs n (.tag t false inv prop id) (TagQ t) := by
  refine Below.mono (n := n + 1) (below_succ fun m hm st s p o st' ho => ⟨by simp [subcalls], ?_⟩) (by omega)
  simp only [step, evalTag, Pos.tag] at ho
  by_cases h : t.isPrefixOf p.src = true
  · simp only [h, if_true, Bool.false_eq_true, if_false] at ho
    exact .inl ⟨h, by rw [taken_emitOpt ho]; rfl⟩
  · simp only [h, if_false, Out.ret.injEq, Bool.false_eq_true] at ho
    obtain ⟨rfl, rfl⟩ := ho
    exact .inr ⟨Bool.eq_false_iff.2 h, rfl⟩

/-- `!"t"`. -/
def NoTagQ (t : Str) : Quo := fun s o c => c = 1 ∧ ((t.isPrefixOf s = true ∧ o = none) ∨ (t.isPrefixOf s = false ∧ o = some 0))

theorem below_noTag {t inv prop id} : Below L refs n (.tag t true inv prop id) (NoTagQ t) := by
  refine Below.mono (n := n + 1) (below_succ fun m hm st s p o st' ho => ⟨by simp [subcalls], ?_⟩) (by omega)
  simp only [step, evalTag, Pos.tag] at ho
  by_cases h : t.isPrefixOf p.src = true
  · simp only [h, if_true, Out.ret.injEq] at ho
    obtain ⟨rfl, rfl⟩ := ho
    exact .inl ⟨h, rfl⟩
  · simp only [h, if_false, if_true, Bool.false_eq_true] at ho
    exact .inr ⟨Bool.eq_false_iff.2 h, by rw [taken_emitOpt ho]; rfl⟩

/-- Takes at least `m` characters, or fails, with at most `b` calls. -/
def Cheap (m b : Nat) : Quo := fun s o c => c ≤ b ∧ ∀ k, o = some k → m ≤ k ∧ k ≤ s.length

theorem below_whitespace {opt id} :
    Below L refs n (.whitespace opt id) (Cheap (if opt then 0 else 1) 1) := by
  refine Below.mono (n := n + 1) (below_succ fun m hm st s p o st' ho => ⟨by simp [subcalls], ?_⟩) (by omega)
  intro k hk
  simp only [step, evalWhitespace] at ho
  split at ho
  · simp only [Out.ret.injEq] at ho
    rw [← ho.1] at hk; cases hk
  · rename_i h
    simp only [Out.ret.injEq] at ho
    rw [← ho.1] at hk
    simp only [Res.taken, Pos.whitespace, Pos.peek, Option.some.injEq] at hk h
    have := takeWhile_length_le isWs p.src
    rw [hk] at h this
    cases opt <;> simp at h ⊢ <;> omega

theorem below_untilAny {any opt prop id} :
    Below L refs n (.untilAny any opt prop id) (Cheap (if opt then 0 else 1) 1) := by
  refine Below.mono (n := n + 1) (below_succ fun m hm st s p o st' ho => ⟨by simp [subcalls], ?_⟩) (by omega)
  intro k hk
  simp only [step, evalUntilAny] at ho
  split at ho
  · simp only [Out.ret.injEq] at ho
    rw [← ho.1] at hk; cases hk
  · rename_i h
    rw [taken_emitOpt ho] at hk
    simp only [Pos.untilAny, Pos.peek, Option.some.injEq] at hk h
    have := takeWhile_length_le (fun c => !any.contains c) p.src
    rw [hk] at h this
    cases opt <;> simp at h ⊢ <;> omega

theorem below_untilAnyOrWs {any opt prop id} :
    Below L refs n (.untilAnyOrWs any opt prop id) (Cheap (if opt then 0 else 1) 1) := by
  refine Below.mono (n := n + 1) (below_succ fun m hm st s p o st' ho => ⟨by simp [subcalls], ?_⟩) (by omega)
  intro k hk
  simp only [step, evalUntilAnyOrWs] at ho
  split at ho
  · simp only [Out.ret.injEq] at ho
    rw [← ho.1] at hk; cases hk
  · rename_i h
    rw [taken_emitOpt ho] at hk
    simp only [Pos.untilAnyOrWs, Pos.peek, Option.some.injEq] at hk h
    have := takeWhile_length_le (fun c => !(any.contains c || isWs c)) p.src
    rw [hk] at h this
    cases opt <;> simp at h ⊢ <;> omega

/-- A quoted string. -/
def TextQ : Quo := fun s o c => c = 1 ∧ ∀ k, o = some k → 2 ≤ k ∧ k ≤ s.length ∧ s.head? = some '"'

theorem below_text (hL : L.Lawful) {ae prop id} : Below L refs n (.text ae prop id) TextQ := by
  refine Below.mono (n := n + 1) (below_succ fun m hm st s p o st' ho => ⟨by simp [subcalls], ?_⟩) (by omega)
  intro k hk
  simp only [step, evalText] at ho
  split at ho
  · rename_i j hj
    split at ho
    · simp only [Out.ret.injEq] at ho
      rw [← ho.1] at hk; cases hk
    · split at ho
      · simp only [Out.ret.injEq] at ho
        rw [← ho.1] at hk; cases hk
      · rw [taken_emitOpt ho] at hk
        simp only [Pos.peek, Option.some.injEq] at hk
        subst hk
        exact hL.str_some hj
  · simp only [Out.ret.injEq] at ho
    rw [← ho.1] at hk; cases hk

/-- A number, which does not begin with a slash. -/
def NumQ : Quo := fun s o c => c = 1 ∧ ∀ k, o = some k → 1 ≤ k ∧ k ≤ s.length ∧ s.head? ≠ some '/'

theorem below_number (hL : L.Lawful) (hX : L.Exact) {prop id} : Below L refs n (.number prop false id) NumQ := by
  refine Below.mono (n := n + 1) (below_succ fun m hm st s p o st' ho => ⟨by simp [subcalls], ?_⟩) (by omega)
  intro k hk
  simp only [step, evalNumber] at ho
  split at ho
  · rename_i j hj
    split at ho
    · simp only [Out.ret.injEq] at ho
      rw [← ho.1] at hk; cases hk
    · rw [taken_emitOpt ho] at hk
      simp only [Pos.peek, Option.some.injEq] at hk
      subst hk
      obtain ⟨h1, h2⟩ := hL.num_some hj
      refine ⟨h1, h2, fun h => ?_⟩
      cases hp : p.src with
      | nil => rw [hp] at h; cases h
      | cons c cs =>
        rw [hp] at h hj
        simp only [List.head?_cons, Option.some.injEq] at h
        exact (hX.num_head hj).2.2 h
  · simp only [Out.ret.injEq] at ho
    rw [← ho.1] at hk; cases hk

end
end Verif
