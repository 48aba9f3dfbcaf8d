import Verif.Spec.Predictive
import Verif.Proofs.CostLogic
/-
Syntaxes decided by the next character: what is read is paid for by what it costs to be called without reading.
-/
namespace Verif
open Spec

/-- The text begins with such a character. -/
def Heads (s : Str) (P : Char → Prop) : Prop := ∃ c t, s = c :: t ∧ P c

theorem Heads.mono {s P Q} (h : Heads s P) (hq : ∀ c, P c → Q c) : Heads s Q := by
  obtain ⟨c, t, h1, h2⟩ := h
  exact ⟨c, t, h1, hq c h2⟩

theorem Heads.apart {s P Q} (h : Heads s P) (h' : Heads s Q) : ¬ NoShared P Q := by
  obtain ⟨c, t, rfl, h2⟩ := h
  obtain ⟨_, _, h3, h4⟩ := h'
  cases h3
  exact fun ha => ha c ⟨h2, h4⟩

/-- What happens with a rule marked `a`: `k` characters have been read, `e` more have been read in vain. -/
structure Pq (φ : Nat → Nat) (C x : Nat) (a : Mark) (s : Str) (o : Option Nat) (c k e : Nat) : Prop where
  le : k + e ≤ s.length
  idle : k + e = 0 → c ≤ a.idle
  cost : 0 < k + e → c + φ a.idle ≤ C * k + C * e + x
  head : 0 < k + e → Heads s a.first
  again : 0 < e → Heads (s.drop k) a.again
  ok : ∀ j, o = some j → j = k ∧ (k = 0 → a.empty = true)
  bad : o = none → e = 0 ∧ (a.sure = true → k = 0) ∧ a.safe = false

/-- The same for some `k` and `e`. -/
def PQ (φ : Nat → Nat) (C x : Nat) (a : Mark) : Quo := fun s o c => ∃ k e, Pq φ C x a s o c k e

section
variable {φ : Nat → Nat} {C B : Nat}

theorem pq_nothing {x s} : Pq φ C x .nothing s (some 0) 0 0 0 :=
  ⟨by omega, by simp [Mark.nothing], by omega, by omega, by omega, by simp [Mark.nothing], by simp⟩

theorem pq_fail {x s} : Pq φ C x .fail s none 0 0 0 :=
  ⟨by omega, by simp [Mark.fail], by omega, by omega, by omega, by simp, by simp [Mark.fail]⟩

/-- A rule that calls no others. -/
theorem pq_leaf {x f em sf s} {o : Option Nat} (hC : 1 + φ 1 ≤ C) (hl : ∀ k, o = some k → k ≤ s.length)
    (hf : ∀ k, o = some k → k ≠ 0 → Heads s f) (he : o = some 0 → em = true) (hs : o = none → sf = false) :
    PQ φ C x (.leaf f em sf) s o 1 := by
  cases o with
  | none =>
    exact ⟨0, 0, by omega, by simp [Mark.leaf], by omega, by omega, by omega, by simp, fun _ => ⟨rfl, by simp, hs rfl⟩⟩
  | some k =>
    refine ⟨k, 0, hl k rfl, by simp [Mark.leaf], ?_, fun h0 => hf k rfl (by omega), by omega, ?_, by simp⟩
    · intro h0
      have : C * 1 ≤ C * k := Nat.mul_le_mul_left C (by omega)
      simp only [Mark.leaf]
      omega
    · intro j hj
      cases hj
      exact ⟨rfl, fun h0 => he (by rw [h0])⟩

variable (hφ : ∀ i j, i ≤ j → φ j ≤ φ i)

include hφ in
theorem Pq.weaken {x y} {a b : Mark} {s o c k e} (h : Pq φ C x a s o c k e) (hb : b.Covers a) (hx : x ≤ y) :
    Pq φ C y b s o c k e where
  le := h.le
  idle h0 := Nat.le_trans (h.idle h0) hb.idle
  cost h0 := by
    have := h.cost h0
    have := hφ _ _ hb.idle
    omega
  head h0 := (h.head h0).mono hb.first
  again h0 := (h.again h0).mono hb.again
  ok j hj := ⟨(h.ok j hj).1, fun h0 => hb.empty ((h.ok j hj).2 h0)⟩
  bad ho := ⟨(h.bad ho).1, fun hs => (h.bad ho).2.1 (hb.sure hs), by
    have := (h.bad ho).2.2
    have := hb.safe
    cases hs : b.safe <;> simp_all⟩

omit hφ in
/-- The call itself is paid for by the difference. -/
theorem Pq.called {x a s o c k e} (h : Pq φ C x a s o c k e) (hx : x + 1 + φ (1 + a.idle) ≤ φ a.idle) :
    Pq φ C 0 a.called s o (1 + c) k e where
  le := h.le
  idle h0 := Nat.add_le_add_left (h.idle h0) 1
  cost h0 := by
    have := h.cost h0
    simp only [Mark.called]
    omega
  head h0 := h.head h0
  again h0 := h.again h0
  ok := h.ok
  bad := h.bad

include hφ in
theorem Pq.then_fail {x a s c k e} (b : Mark) (h : Pq φ C 0 a s none c k e) : Pq φ C x (a.then_ b) s none c k e where
  le := h.le
  idle h0 := Nat.le_trans (h.idle h0) (Nat.le_add_right _ _)
  cost h0 := by
    have := h.cost h0
    have := hφ a.idle (a.then_ b).idle (Nat.le_add_right _ _)
    omega
  head h0 := (h.head h0).mono fun _ => .inl
  again h0 := by have := (h.bad rfl).1; omega
  ok j hj := by cases hj
  bad _ := ⟨(h.bad rfl).1, fun hs => (h.bad rfl).2.1 (by simp [Mark.then_] at hs; exact hs.1), by
    simp [Mark.then_, (h.bad rfl).2.2]⟩

include hφ in
theorem Pq.then_ok {x a b s j o c c' k e k' e'} (h : Pq φ C 0 a s (some j) c k e) (h' : Pq φ C x b (s.drop j) o c' k' e')
    (hd : NoShared a.again b.first) (hx : b.idle ≤ x) (hB : a.idle ≤ B) :
    ∃ k e, Pq φ C (x + B) (a.then_ b) s (o.map (j + ·)) (c + c') k e := by
  obtain ⟨rfl, hk⟩ := h.ok j rfl
  have hle := h.le
  have hle' := h'.le
  have hidle : a.idle ≤ (a.then_ b).idle := Nat.le_add_right _ _
  have hφ1 := hφ _ _ hidle
  rw [List.length_drop] at hle'
  by_cases he : e = 0
  · subst he
    refine ⟨j + k', e', by omega, ?_, ?_, ?_, ?_, ?_, ?_⟩
    · intro h0
      have h1 := h.idle (by omega)
      have h2 := h'.idle (by omega)
      have h3 := hk (by omega)
      simp only [Mark.then_, h3, if_true]
      omega
    · intro h0
      simp only [Nat.mul_add]
      by_cases hj : j = 0
      · have h1 := h.idle (by omega)
        have h2 := h'.cost (by omega)
        have h3 := hk hj
        have h4 : b.idle ≤ (a.then_ b).idle := by simp [Mark.then_, h3]
        have := hφ _ _ h4
        omega
      · have h1 := h.cost (by omega)
        by_cases h2 : k' + e' = 0
        · have := h'.idle h2
          omega
        · have := h'.cost (by omega)
          omega
    · intro h0
      by_cases hj : j = 0
      · have h3 := hk hj
        have := h'.head (by omega)
        rw [hj] at this
        exact this.mono fun c hc => .inr ⟨h3, hc⟩
      · exact (h.head (by omega)).mono fun _ => .inl
    · intro h0
      have := h'.again h0
      rw [List.drop_drop] at this
      exact this.mono fun _ => .inl
    · intro i hi
      cases o with
      | none => cases hi
      | some i' =>
        obtain ⟨rfl, h2⟩ := h'.ok i' rfl
        simp only [Option.map_some, Option.some.injEq] at hi
        refine ⟨hi.symm, fun h0 => ?_⟩
        simp [Mark.then_, hk (by omega), h2 (by omega)]
    · intro ho
      cases o with
      | some _ => cases ho
      | none =>
        obtain ⟨h1, h2, h3⟩ := h'.bad rfl
        exact ⟨h1, by simp [Mark.then_, h3], by simp [Mark.then_, h3]⟩
  · have hno : k' + e' = 0 := by
      apply Classical.byContradiction
      intro h0
      exact (h.again (by omega)).apart (h'.head (by omega)) hd
    have h1 := h.cost (by omega)
    have h2 := h'.idle hno
    cases o with
    | some i =>
      obtain ⟨rfl, h3⟩ := h'.ok i rfl
      have hi : i = 0 := by omega
      subst hi
      refine ⟨j, e, hle, by omega, by omega, fun _ => (h.head (by omega)).mono fun _ => .inl, ?_, ?_, by simp⟩
      · intro h0
        exact (h.again h0).mono fun c hc => .inr ⟨h3 rfl, hc⟩
      · intro i hi
        simp only [Option.map_some, Option.some.injEq] at hi
        refine ⟨by omega, fun h0 => ?_⟩
        simp [Mark.then_, hk h0, h3 rfl]
    | none =>
      obtain ⟨h3, h4, h5⟩ := h'.bad rfl
      refine ⟨j + e, 0, hle, by omega, ?_, fun _ => (h.head (by omega)).mono fun _ => .inl, by omega, by simp, ?_⟩
      · intro _
        simp only [Nat.mul_add]
        omega
      · intro _
        exact ⟨rfl, by simp [Mark.then_, h5], by simp [Mark.then_, h5]⟩

include hφ in
theorem Pq.else_ok {x a s j c k e} (b : Mark) (h : Pq φ C 0 a s (some j) c k e) : Pq φ C x (a.else_ b) s (some j) c k e where
  le := h.le
  idle h0 := Nat.le_trans (h.idle h0) (Nat.le_add_right _ _)
  cost h0 := by
    have := h.cost h0
    have := hφ a.idle (a.else_ b).idle (Nat.le_add_right _ _)
    omega
  head h0 := (h.head h0).mono fun _ => .inl
  again h0 := (h.again h0).mono fun _ => .inl
  ok i hi := ⟨(h.ok i hi).1, fun h0 => by simp [Mark.else_, (h.ok i hi).2 h0]⟩
  bad ho := by cases ho

include hφ in
theorem Pq.else_fail {x a b s o c c' k e k' e'} (h : Pq φ C 0 a s none c k e) (h' : Pq φ C x b s o c' k' e')
    (hd : NoShared a.first b.first) (hx : b.idle ≤ x) (hB : a.idle ≤ B) :
    ∃ k e, Pq φ C (x + B) (a.else_ b) s o (c + c') k e := by
  obtain ⟨rfl, hk, hs⟩ := h.bad rfl
  have hle := h.le
  have hle' := h'.le
  have hφ1 := hφ a.idle (a.else_ b).idle (Nat.le_add_right _ _)
  have hφ2 := hφ b.idle (a.else_ b).idle (Nat.le_add_left _ _)
  by_cases hk0 : k = 0
  · subst hk0
    have h1 := h.idle rfl
    refine ⟨k', e', hle', ?_, ?_, fun h0 => (h'.head h0).mono fun _ => .inr, fun h0 => (h'.again h0).mono fun _ h => .inr (.inl h),
      ?_, ?_⟩
    · intro h0
      have := h'.idle h0
      simp only [Mark.else_]
      omega
    · intro h0
      have := h'.cost h0
      omega
    · intro j hj
      exact ⟨(h'.ok j hj).1, fun h0 => by simp [Mark.else_, (h'.ok j hj).2 h0]⟩
    · intro ho
      obtain ⟨h2, h3, h4⟩ := h'.bad ho
      exact ⟨h2, fun h0 => h3 (by simp [Mark.else_] at h0; exact h0.2), by simp [Mark.else_, hs, h4]⟩
  · have hno : k' + e' = 0 := by
      apply Classical.byContradiction
      intro h0
      exact (h.head (by omega)).apart (h'.head (by omega)) hd
    have hsure : a.sure = false := by
      cases ha : a.sure with
      | false => rfl
      | true => exact absurd (hk ha) hk0
    have h1 := h.cost (by omega)
    have h2 := h'.idle hno
    cases o with
    | some i =>
      obtain ⟨rfl, h3⟩ := h'.ok i rfl
      have hi : i = 0 := by omega
      subst hi
      refine ⟨0, k, by omega, by omega, by omega, fun _ => (h.head (by omega)).mono fun _ => .inl, ?_, ?_, by simp⟩
      · intro h0
        exact (h.head (by omega)).mono fun c hc => .inr (.inr ⟨h3 rfl, hsure, hc⟩)
      · intro i hi
        simp only [Option.some.injEq] at hi
        exact ⟨by omega, fun h0 => by simp [Mark.else_, h3 rfl]⟩
    | none =>
      obtain ⟨h3, h4, h5⟩ := h'.bad rfl
      exact ⟨k, 0, by omega, by omega, by omega, fun _ => (h.head (by omega)).mono fun _ => .inl, by omega, by simp,
        fun _ => ⟨rfl, by simp [Mark.else_, hsure], by simp [Mark.else_, hs, h5]⟩⟩

/-! ### Loops -/

omit hφ in
theorem Pq.loop_base {a s c k e} (h : Pq φ C 0 a s none c k e) (hB : a.idle ≤ B) : PQ φ C B (a.loop true) s (some 0) c := by
  obtain ⟨rfl, hk, -⟩ := h.bad rfl
  have hle := h.le
  refine ⟨0, k, by omega, fun h0 => h.idle (by omega), ?_, fun h0 => h.head (by omega), ?_, by simp [Mark.loop], by simp⟩
  · intro h0
    have := h.cost (by omega)
    simp only [Mark.loop]
    omega
  · intro h0
    refine (h.head (by omega)).mono fun c hc => .inr ⟨?_, hc⟩
    cases ha : a.sure with
    | false => rfl
    | true => exact absurd (hk ha) (by omega)

omit hφ in
theorem Pq.loop_next {a s c c' j j' k e k' e'} (h : Pq φ C 0 a s (some j) c k e)
    (h' : Pq φ C B (a.loop true) (s.drop j) (some j') c' k' e') (he : a.empty = false) (hd : NoShared a.again a.first)
    (hB : a.idle ≤ B) : PQ φ C B (a.loop true) s (some (j + j')) (c + c') := by
  obtain ⟨rfl, hk⟩ := h.ok j rfl
  obtain ⟨rfl, -⟩ := h'.ok j' rfl
  have hle := h.le
  have hle' := h'.le
  rw [List.length_drop] at hle'
  have hj : j ≠ 0 := fun h0 => by rw [hk h0] at he; cases he
  have h1 := h.cost (by omega)
  have h3 := h'.idle
  have h4 := h'.cost
  simp only [Mark.loop] at h3 h4
  by_cases he' : e = 0
  · subst he'
    refine ⟨j + j', e', by omega, by omega, ?_, fun h0 => h.head (by omega), ?_, by simp [Mark.loop], by simp⟩
    · intro h0
      simp only [Mark.loop, Nat.mul_add]
      omega
    · intro h0
      have := h'.again h0
      rwa [List.drop_drop] at this
  · have hno : j' + e' = 0 := by
      apply Classical.byContradiction
      intro h0
      exact (h.again (by omega)).apart (h'.head (by omega)) hd
    have hj' : j' = 0 := by omega
    subst hj'
    refine ⟨j, e, hle, by omega, ?_, fun h0 => h.head (by omega), ?_, by simp [Mark.loop], by simp⟩
    · intro h0
      simp only [Mark.loop]
      omega
    · intro h0
      exact (h.again h0).mono fun c hc => .inl hc

omit hφ in
/-- What is left of a loop that was not entered. -/
theorem Pq.loop_fail {x a s c k e} (h : Pq φ C 0 a s none c k e) : PQ φ C x (a.loop false) s none c := by
  obtain ⟨rfl, hk, -⟩ := h.bad rfl
  refine ⟨k, 0, h.le, h.idle, ?_, h.head, by omega, by simp, fun _ => ⟨rfl, by simpa [Mark.loop] using hk, rfl⟩⟩
  intro h0
  have := h.cost h0
  simp only [Mark.loop]
  omega

omit hφ in
theorem Pq.loop_opt {x} {a : Mark} {s c j k e} (opt : Bool) (h : Pq φ C x (a.loop true) s (some j) c k e) (hj : opt = false → j ≠ 0) :
    Pq φ C x (a.loop opt) s (some j) c k e := by
  obtain ⟨rfl, -⟩ := h.ok j rfl
  refine ⟨h.le, h.idle, h.cost, h.head, h.again, ?_, by simp⟩
  intro i hi
  cases hi
  refine ⟨rfl, fun h0 => ?_⟩
  cases opt with
  | true => rfl
  | false => exact absurd h0 (hj rfl)

/-! ### Taking turns -/

include hφ in
theorem Pq.turns_stop {a b : Mark} {s c k e trail} (h : Pq φ C 0 a s none c k e) :
    PQ φ C (3 * B) (a.turns b true trail) s (if trail then some 0 else none) c := by
  obtain ⟨rfl, hk, -⟩ := h.bad rfl
  have hle := h.le
  have hi : a.idle ≤ (a.turns b true trail).idle := Nat.le_add_right _ _
  have hφ1 := hφ _ _ hi
  cases trail with
  | true =>
    refine ⟨0, k, by omega, ?_, ?_, fun h0 => (h.head (by omega)).mono fun _ => .inl, ?_, by simp [Mark.turns], by simp⟩
    · intro h0
      have := h.idle (by omega)
      omega
    · intro h0
      have := h.cost (by omega)
      omega
    · intro h0
      refine (h.head (by omega)).mono fun c hc => .inl (.inr ⟨?_, hc⟩)
      cases ha : a.sure with
      | false => rfl
      | true => exact absurd (hk ha) (by omega)
  | false =>
    refine ⟨k, 0, by omega, ?_, ?_, fun h0 => (h.head (by omega)).mono fun _ => .inl, by omega, by simp,
      fun _ => ⟨rfl, by simp [Mark.turns], by simp [Mark.turns]⟩⟩
    · intro h0
      have := h.idle (by omega)
      omega
    · intro h0
      have := h.cost (by omega)
      omega

include hφ in
theorem Pq.turns_last {a b : Mark} {s c c' j k e k' e' trail} (h : Pq φ C 0 a s (some j) c k e)
    (h' : Pq φ C 0 b (s.drop j) none c' k' e') (hd : NoShared a.again b.first) (hB : a.idle ≤ B) (hB' : b.idle ≤ B) :
    PQ φ C (3 * B) (a.turns b true trail) s (some j) (c + c') := by
  obtain ⟨rfl, hk⟩ := h.ok j rfl
  obtain ⟨rfl, hk', -⟩ := h'.bad rfl
  have hle := h.le
  have hle' := h'.le
  rw [List.length_drop] at hle'
  have hi : a.idle ≤ (a.turns b true trail).idle := Nat.le_add_right _ _
  have hφ1 := hφ _ _ hi
  by_cases he' : e = 0
  · subst he'
    refine ⟨j, k', by omega, ?_, ?_, ?_, ?_, by simp [Mark.turns], by simp⟩
    · intro h0
      have h1 := h.idle (by omega)
      have h2 := h'.idle (by omega)
      simp only [Mark.turns, hk (by omega), if_true]
      omega
    · intro h0
      by_cases hj : j = 0
      · have h1 := h.idle (by omega)
        have h2 := h'.cost (by omega)
        have h4 : b.idle ≤ (a.turns b true trail).idle := by simp [Mark.turns, hk hj]
        have := hφ _ _ h4
        omega
      · have h1 := h.cost (by omega)
        by_cases hk0 : k' = 0
        · have := h'.idle (by omega)
          omega
        · have := h'.cost (by omega)
          omega
    · intro h0
      by_cases hj : j = 0
      · have := h'.head (by omega)
        rw [hj] at this
        exact this.mono fun c hc => .inr ⟨hk hj, hc⟩
      · exact (h.head (by omega)).mono fun _ => .inl
    · intro h0
      refine (h'.head (by omega)).mono fun c hc => .inr (.inr ⟨?_, hc⟩)
      cases ha : b.sure with
      | false => rfl
      | true => exact absurd (hk' ha) (by omega)
  · have hno : k' + 0 = 0 := by
      apply Classical.byContradiction
      intro h0
      exact (h.again (by omega)).apart (h'.head (by omega)) hd
    have h1 := h.cost (by omega)
    have h2 := h'.idle hno
    refine ⟨j, e, by omega, by omega, by omega, fun _ => (h.head (by omega)).mono fun _ => .inl, ?_, by simp [Mark.turns], by simp⟩
    intro h0
    exact (h.again h0).mono fun c hc => .inl (.inl hc)

include hφ in
theorem Pq.turns_next {a b : Mark} {s c c' c'' j j' k e k' e' k'' e'' trail} {o : Option Nat} (h : Pq φ C 0 a s (some j) c k e)
    (h' : Pq φ C 0 b (s.drop j) (some j') c' k' e')
    (h'' : Pq φ C (3 * B) (a.turns b true trail) ((s.drop j).drop j') o c'' k'' e'')
    (he : (a.empty && b.empty) = false) (haa : NoShared a.again a.first) (hab : NoShared a.again b.first)
    (hba : NoShared b.again a.first) (hbb : NoShared b.again b.first) (hB : a.idle ≤ B) (hB' : b.idle ≤ B)
    (hB'' : (a.turns b true trail).idle ≤ B) (hφB : 3 * B ≤ φ (a.turns b true trail).idle) :
    PQ φ C (3 * B) (a.turns b true trail) s (o.map (j + j' + ·)) (c + c' + c'') := by
  obtain ⟨rfl, hk⟩ := h.ok j rfl
  obtain ⟨rfl, hk'⟩ := h'.ok j' rfl
  have hle := h.le
  have hle' := h'.le
  have hle'' := h''.le
  simp only [List.length_drop] at hle' hle''
  have hi : a.idle ≤ (a.turns b true trail).idle := Nat.le_add_right _ _
  have hφ1 := hφ _ _ hi
  have hφ2 : a.empty = true → φ (a.turns b true trail).idle ≤ φ b.idle := fun ha => hφ _ _ (by simp [Mark.turns, ha])
  have h1 := h.cost
  have h2 := h'.cost
  have h3 := h''.cost
  have h1' := h.idle
  have h2' := h'.idle
  have h3' := h''.idle
  have hhead : 0 < j + j' ∨ 0 < e ∨ 0 < e' → e = 0 ∨ (j' = 0 ∧ e' = 0) → Heads s (a.turns b true trail).first := by
    intro h0 h0'
    by_cases hj : j + e = 0
    · have := h'.head (by omega)
      rw [show j = 0 by omega] at this
      exact this.mono fun c hc => .inr ⟨hk (by omega), hc⟩
    · exact (h.head (by omega)).mono fun _ => .inl
  generalize hT : φ (a.turns b true trail).idle = T at *
  by_cases hes : e + e' = 0
  · -- nothing in vain so far
    obtain ⟨rfl, rfl⟩ : e = 0 ∧ e' = 0 := by omega
    have hjj : j + j' ≠ 0 := by
      intro h0
      rw [hk (by omega), hk' (by omega)] at he
      cases he
    refine ⟨j + j' + k'', e'', by omega, by omega, ?_, fun _ => hhead (by omega) (.inl rfl), ?_, ?_, ?_⟩
    · intro h0
      rw [hT]
      simp only [Nat.mul_add]
      by_cases hj : j = 0
      · have := hφ2 (hk hj)
        omega
      · by_cases hj' : j' = 0
        · omega
        · omega
    · intro h0
      have := h''.again h0
      rw [List.drop_drop, List.drop_drop] at this
      simpa [Nat.add_assoc] using this
    · intro i hi
      cases o with
      | none => cases hi
      | some i' =>
        obtain ⟨rfl, -⟩ := h''.ok i' rfl
        simp only [Option.map_some, Option.some.injEq] at hi
        exact ⟨hi.symm, by omega⟩
    · intro ho
      cases o with
      | some _ => cases ho
      | none => exact h''.bad rfl |>.imp_right fun h => ⟨fun hs => by have := h.2; simp [Mark.turns] at hs this; simp_all, h.2⟩
  · -- nothing more is read
    have hno' : e ≠ 0 → j' + e' = 0 := by
      intro he0
      apply Classical.byContradiction
      intro h0
      exact (h.again (by omega)).apart (h'.head (by omega)) hab
    have hno : k'' + e'' = 0 := by
      apply Classical.byContradiction
      intro h0
      have hh := h''.head (by omega)
      by_cases he0 : e = 0
      · have hg := h'.again (by omega)
        obtain ⟨x, t, h5, h6⟩ := hh
        obtain ⟨x', t', h7, h8⟩ := hg
        rw [h5] at h7
        cases h7
        rcases h6 with h6 | ⟨-, h6⟩
        · exact hba _ ⟨h8, h6⟩
        · exact hbb _ ⟨h8, h6⟩
      · have hg := h.again (by omega)
        have hj' : j' = 0 := by have := hno' he0; omega
        have hb : a.empty = false := by
          rw [hk' hj'] at he
          simpa using he
        rw [hj', List.drop_zero] at hh
        obtain ⟨x, t, h5, h6⟩ := hh
        obtain ⟨x', t', h7, h8⟩ := hg
        rw [h5] at h7
        cases h7
        rcases h6 with h6 | ⟨h6, -⟩
        · exact haa _ ⟨h8, h6⟩
        · rw [hb] at h6; cases h6
    have hcost : c + c' + c'' + T ≤ C * (j + j') + C * (e + e') + 3 * B := by
      simp only [Nat.mul_add]
      by_cases he0 : e = 0
      · by_cases hj : j = 0
        · have := hφ2 (hk hj)
          omega
        · omega
      · have := hno' he0
        omega
    have hsplit : e = 0 ∨ (j' = 0 ∧ e' = 0) := by omega
    have hh := hhead (by omega) hsplit
    cases o with
    | some i =>
      obtain ⟨rfl, -⟩ := h''.ok i rfl
      have hi0 : i = 0 := by omega
      subst hi0
      refine ⟨j + j', e + e', by omega, by omega, fun _ => by rw [hT]; exact hcost, fun _ => hh, ?_, ?_, by simp⟩
      · intro _
        rcases hsplit with rfl | ⟨rfl, rfl⟩
        · have := h'.again (by omega)
          rw [List.drop_drop] at this
          exact this.mono fun c hc => .inr (.inl hc)
        · exact (h.again (by omega)).mono fun c hc => .inl (.inl hc)
      · intro i hi
        simp only [Option.map_some, Option.some.injEq] at hi
        exact ⟨by omega, by simp [Mark.turns]⟩
    | none =>
      have hb := h''.bad rfl
      refine ⟨j + j' + (e + e'), 0, by omega, by omega, fun _ => ?_, fun _ => hh, by omega, by simp, fun _ => ⟨rfl, ?_, hb.2.2⟩⟩
      · rw [hT, Nat.mul_add]
        omega
      · have := hb.2.2
        simp [Mark.turns] at this ⊢
        simp [this]

include hφ in
/-- What is left of a loop that was not entered. -/
theorem Pq.turns_fail {x} {a b : Mark} {s c k e trail} (opt : Bool) (h : Pq φ C 0 a s none c k e) :
    PQ φ C x (a.turns b opt trail) s (if opt then some 0 else none) c := by
  obtain ⟨rfl, hk, -⟩ := h.bad rfl
  have hle := h.le
  have hi : a.idle ≤ (a.turns b opt trail).idle := Nat.le_add_right _ _
  have hφ1 := hφ _ _ hi
  have h1 : k + 0 = 0 → c ≤ (a.turns b opt trail).idle := fun h0 => Nat.le_trans (h.idle h0) hi
  have h2 : 0 < k + 0 → c + φ (a.turns b opt trail).idle ≤ C * k + C * 0 + x := fun h0 => by
    have := h.cost h0
    omega
  have h3 : 0 < k + 0 → Heads s (a.turns b opt trail).first := fun h0 => (h.head h0).mono fun _ => .inl
  cases opt with
  | true =>
    refine ⟨0, k, by omega, by simpa using h1, by simpa using h2, by simpa using h3, ?_, by simp [Mark.turns], by simp⟩
    intro h0
    refine (h.head (by omega)).mono fun c hc => .inl (.inr ⟨?_, hc⟩)
    cases ha : a.sure with
    | false => rfl
    | true => exact absurd (hk ha) (by omega)
  | false =>
    exact ⟨k, 0, hle, h1, h2, h3, by omega, by simp,
      fun _ => ⟨rfl, fun hs => hk (by simp [Mark.turns] at hs; exact hs.2), by simp [Mark.turns]⟩⟩

omit hφ in
theorem Pq.turns_opt {x} {a b : Mark} {s c k e trail} {o : Option Nat} (opt : Bool) (h : Pq φ C x (a.turns b true trail) s o c k e)
    (hj : opt = false → o = some 0 → a.empty = true) : Pq φ C x (a.turns b opt trail) s o c k e := by
  refine ⟨h.le, h.idle, h.cost, h.head, h.again, ?_, ?_⟩
  · intro i hi
    obtain ⟨rfl, -⟩ := h.ok i hi
    refine ⟨rfl, fun h0 => ?_⟩
    cases opt with
    | true => rfl
    | false => simpa [Mark.turns] using hj rfl (by rw [hi, h0])
  · intro ho
    obtain ⟨h1, h2, h3⟩ := h.bad ho
    simp only [Mark.turns, Bool.true_and] at h3
    exact ⟨h1, by simp [Mark.turns, h3], by simp [Mark.turns, h3]⟩

end
end Verif
