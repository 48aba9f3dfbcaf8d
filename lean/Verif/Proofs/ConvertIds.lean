import Verif.Spec.Ids
import Verif.Proofs.ConvertStep
/-
The debug ids given by `convert`.
-/
namespace Verif
open Spec CM Convert

/-- If the reader returns, then with a result and a state that satisfy `P`. -/
structure Post {α : Type} (m : CM α) (st : CSt) (P : Option α → CSt → Prop) : Prop where
  post : ∀ r st', m st = .ok (r, st') → P r st'

/-- The reader changes nothing. -/
structure Still {α : Type} (m : CM α) : Prop where
  eq : ∀ st r st', m st = .ok (r, st') → st' = st

/-- The counter does not go back, and the result satisfies `R`. -/
def Grow {α : Type} (i : Nat) (R : α → Nat → Prop) (r : Option α) (st : CSt) : Prop :=
  i ≤ st.id ∧ ∀ a, r = some a → R a st.id

/-- Different ids after `i`, up to `j`. -/
structure Fresh (i j : Nat) (l : List Nat) : Prop where
  nodup : l.Nodup
  gt : ∀ x ∈ l, i < x
  le : ∀ x ∈ l, x ≤ j

theorem Fresh.nil {i j : Nat} : Fresh i j [] := ⟨.nil, by simp, by simp⟩

theorem Fresh.mono {i i' j j' : Nat} {l : List Nat} (h : Fresh i j l) (hi : i' ≤ i) (hj : j ≤ j') :
    Fresh i' j' l :=
  ⟨h.nodup, fun x hx => Nat.lt_of_le_of_lt hi (h.gt x hx), fun x hx => Nat.le_trans (h.le x hx) hj⟩

theorem Fresh.append {i j k : Nat} {l l' : List Nat} (h : Fresh i j l) (h' : Fresh j k l') (hij : i ≤ j)
    (hjk : j ≤ k) : Fresh i k (l ++ l') := by
  refine ⟨List.nodup_append.2 ⟨h.nodup, h'.nodup, ?_⟩, ?_, ?_⟩
  · intro a ha b hb e
    subst e
    have := h.le a ha
    have := h'.gt a hb
    omega
  · intro x hx
    rcases List.mem_append.1 hx with hx | hx
    · exact h.gt x hx
    · have := h'.gt x hx; omega
  · intro x hx
    rcases List.mem_append.1 hx with hx | hx
    · have := h.le x hx; omega
    · exact h'.le x hx

theorem Fresh.left {i j : Nat} {l l' : List Nat} (h : Fresh i j (l ++ l')) : Fresh i j l :=
  ⟨(List.nodup_append.1 h.nodup).1, fun x hx => h.gt x (by simp [hx]), fun x hx => h.le x (by simp [hx])⟩

theorem Fresh.right {i j : Nat} {l l' : List Nat} (h : Fresh i j (l ++ l')) : Fresh i j l' :=
  ⟨(List.nodup_append.1 h.nodup).2.1, fun x hx => h.gt x (by simp [hx]), fun x hx => h.le x (by simp [hx])⟩

theorem Fresh.swap {i j : Nat} {l l' : List Nat} (h : Fresh i j (l ++ l')) : Fresh i j (l' ++ l) := by
  refine ⟨?_, fun x hx => h.gt x (by simp at hx ⊢; exact hx.symm),
    fun x hx => h.le x (by simp at hx ⊢; exact hx.symm)⟩
  obtain ⟨h₁, h₂, h₃⟩ := List.nodup_append.1 h.nodup
  exact List.nodup_append.2 ⟨h₂, h₁, fun a ha b hb e => h₃ b hb a ha e.symm⟩

theorem Fresh.one (i : Nat) : Fresh i (i + 1) [i + 1] := ⟨by simp, by simp, by simp⟩

section
variable {α β σ : Type} {st : CSt} {P : Option β → CSt → Prop}

theorem post_bind {m : CM α} {f : α → CM β} {Q : Option α → CSt → Prop} (h : Post m st Q)
    (hn : ∀ st', Q none st' → P none st') (hs : ∀ a st', Q (some a) st' → Post (f a) st' P) :
    Post (m >>= f) st P := by
  refine ⟨fun r st' e => ?_⟩
  simp only [Bind.bind, CM.bind] at e
  cases em : m st with
  | ok x =>
    obtain ⟨a, st₁⟩ := x
    rw [em] at e
    cases a with
    | none => cases e; exact hn _ (h.post _ _ em)
    | some a => exact (hs a st₁ (h.post _ _ em)).post _ _ e
  | panic => rw [em] at e; cases e
  | timeout => rw [em] at e; cases e

theorem Post.mono {m : CM β} {Q : Option β → CSt → Prop} (h : Post m st Q)
    (hq : ∀ r st', Q r st' → P r st') : Post m st P := ⟨fun r st' e => hq _ _ (h.post r st' e)⟩

theorem Still.post {m : CM β} (h : Still m) (hp : ∀ r, P r st) : Post m st P :=
  ⟨fun r st' e => by cases h.eq _ _ _ e; exact hp r⟩

/-- A step that changes nothing. -/
theorem post_still {m : CM α} {f : α → CM β} (h : Still m) (hn : P none st)
    (hs : ∀ a, Post (f a) st P) : Post (m >>= f) st P :=
  post_bind (Q := fun _ st' => st' = st) ⟨fun r st' e => h.eq _ _ _ e⟩ (by rintro _ rfl; exact hn)
    (by rintro a _ rfl; exact hs a)

theorem post_pure {b : β} (h : P (some b) st) : Post (Pure.pure b) st P :=
  ⟨fun r st' e => by cases e; exact h⟩

theorem post_need {x : Option α} {f : α → CM β} (hn : P none st)
    (hs : ∀ a, x = some a → Post (f a) st P) : Post (ofOption x >>= f) st P := by
  cases x with
  | none => exact ⟨fun r st' e => by cases e; exact hn⟩
  | some a => exact ⟨fun r st' e => (hs a rfl).post r st' e⟩

theorem post_attempt {m : CM α} {f : Option α → CM β} {Q : Option α → CSt → Prop} (h : Post m st Q)
    (hs : ∀ a st', Q a st' → Post (f a) st' P) : Post (attempt m >>= f) st P := by
  refine post_bind (Q := fun r st' => ∃ a, r = some a ∧ Q a st') ⟨fun r st' e => ?_⟩ ?_ ?_
  · simp only [attempt] at e
    cases em : m st with
    | ok x =>
      rw [em] at e
      cases e
      exact ⟨_, rfl, h.post _ _ em⟩
    | panic => rw [em] at e; cases e
    | timeout => rw [em] at e; cases e
  · rintro st' ⟨_, h, _⟩; cases h
  · rintro a st' ⟨_, h, h'⟩; cases h; exact hs a st' h'

theorem still_ofOption {x : Option α} : Still (ofOption x) := ⟨fun st r st' e => by cases e; rfl⟩

theorem still_lift {x : Comp α} : Still (lift x) :=
  ⟨fun st r st' e => by cases x <;> cases e; rfl⟩

theorem still_upd {c : Convert} {r : Range} : Still (c.upd r) := still_lift

theorem still_sub {c c' : Convert} : Still (c.sub c') := still_lift

theorem still_pure {a : α} : Still (Pure.pure a : CM α) := ⟨fun st r st' e => by cases e; rfl⟩

theorem still_err : Still (CM.err : CM α) := ⟨fun st r st' e => by cases e; rfl⟩

theorem still_timeout : Still (CM.timeout : CM α) := ⟨fun st r st' e => by cases e⟩

theorem Still.bind {m : CM α} {f : α → CM β} (h : Still m) (hf : ∀ a, Still (f a)) : Still (m >>= f) :=
  ⟨fun _ r st' e => (post_still h rfl fun a => (hf a).post fun _ => rfl : Post _ _ fun _ st' => st' = _).post r st' e⟩

/-- The end of a reader. -/
theorem post_finish {start c : Convert} {f : Nat → Rule} {i : Nat} {l : List Nat} (hi : i ≤ st.id)
    (hf : ∀ id, Rule.ids (f id) = l ++ [id]) (hl : Fresh i st.id l) :
    Post (do let id ← nextId; return (← c.sub start, f id) : CM (Range × Rule)) st
      (Grow i fun x j => Fresh i j (Rule.ids x.2)) := by
  refine post_bind (Q := fun r st' => ∃ a, r = some a ∧ a = st.id + 1 ∧ st'.id = st.id + 1) ⟨?_⟩ ?_ ?_
  · intro r st' e
    simp only [nextId] at e
    split at e <;> cases e
    exact ⟨_, rfl, rfl, rfl⟩
  · rintro st' ⟨_, h, _⟩; cases h
  · rintro _ st' ⟨a, h, rfl, h'⟩
    cases h
    refine post_still still_sub ⟨by omega, by simp⟩ fun r => post_pure ⟨by omega, ?_⟩
    rintro _ ⟨⟩
    simp only [hf, h']
    exact hl.append (Fresh.one _) hi (by omega)

end

/-! ### Loops -/

/-- A body that keeps `J`, which holds for larger counters too. -/
structure Keeps {σ : Type} (J : Nat → σ → Prop) (B : Convert → σ → CM (Option (Range × σ))) : Prop where
  keeps : ∀ c s st, J st.id s →
    Post (B c s) st (Grow st.id fun x j => J j s ∧ ∀ r s', x = some (r, s') → J j s')

section
variable {α σ : Type} {J : Nat → σ → Prop}

theorem post_loop {nm : Str} {B : Convert → σ → CM (Option (Range × σ))} (hB : Keeps J B) :
    ∀ (n : Nat) (c : Convert) (s : σ) (st : CSt), J st.id s →
    Post (Convert.loop nm B n c s) st (Grow st.id fun x j => J j x.2)
  | 0, _, _, _, _ => ⟨fun _ _ e => by cases e⟩
  | n + 1, c, s, st, hJ => by
    simp only [Convert.loop]
    split
    · exact post_still still_upd ⟨Nat.le_refl _, by simp⟩ fun c => post_pure ⟨Nat.le_refl _, by
        rintro _ ⟨⟩; exact hJ⟩
    · refine post_bind (hB.keeps c s st hJ) ?_ ?_
      · rintro st' ⟨h, _⟩; exact ⟨h, by simp⟩
      · rintro x st' ⟨h, hx⟩
        obtain ⟨h₁, h₂⟩ := hx x rfl
        cases x with
        | some y =>
          obtain ⟨r, s'⟩ := y
          refine post_still still_upd ⟨h, by simp⟩ fun c => ?_
          refine (post_loop hB n c s' st' (h₂ _ _ rfl)).mono ?_
          rintro r st'' ⟨h₃, h₄⟩
          exact ⟨by omega, h₄⟩
        | none =>
          refine post_still still_lift ⟨h, by simp⟩ fun r => ?_
          refine post_still still_upd ⟨h, by simp⟩ fun c => ?_
          refine post_bind (Q := fun _ st'' => st''.id = st'.id) ⟨fun _ _ e => by cases e; rfl⟩
            (fun st'' e => ⟨by omega, by simp⟩) ?_
          rintro _ st'' e
          refine (post_loop hB n c s st'' (by rw [e]; exact h₁)).mono ?_
          rintro r st'' ⟨h₃, h₄⟩
          exact ⟨by omega, h₄⟩

theorem keeps_none : Keeps J fun _ _ => noRead :=
  ⟨fun c s st h => post_pure ⟨Nat.le_refl _, by rintro _ ⟨⟩; exact ⟨h, by simp⟩⟩⟩

variable (hJ : ∀ i j s, J i s → i ≤ j → J j s)
include hJ

theorem keeps_read {f : Convert → CM (Range × α)} {put : σ → α → σ}
    {B : Convert → σ → CM (Option (Range × σ))}
    (hf : ∀ c s st, J st.id s → Post (f c) st (Grow st.id fun x j => J j (put s x.2))) (hB : Keeps J B) :
    Keeps J fun c s => tryRead (f c) (put s) (B c s) := by
  refine ⟨fun c s st h => post_attempt (hf c s st h) ?_⟩
  rintro x st' ⟨h₁, h₂⟩
  have h' := hJ _ _ _ h h₁
  cases x with
  | some x =>
    exact post_pure ⟨h₁, by rintro _ ⟨⟩; exact ⟨h', by rintro _ _ ⟨⟩; exact h₂ _ rfl⟩⟩
  | none =>
    refine (hB.keeps c s st' h').mono ?_
    rintro r st'' ⟨h₃, h₄⟩
    exact ⟨by omega, h₄⟩

/-- A reader without ids. -/
theorem keeps_still {f : Convert → CM (Range × α)} {put : σ → α → σ}
    {B : Convert → σ → CM (Option (Range × σ))} (hf : ∀ c, Still (f c))
    (hp : ∀ i s v, J i s → J i (put s v)) (hB : Keeps J B) :
    Keeps J fun c s => tryRead (f c) (put s) (B c s) :=
  keeps_read hJ (fun c _ _ h => (hf c).post fun _ => ⟨Nat.le_refl _, fun _ _ => hp _ _ _ h⟩) hB

end

theorem still_setLoop {p : Str} {strings : List (Str × Str)} : ∀ (n : Nat) (c : Convert) (t : Option Str),
    Still (setLoop p strings n c t)
  | 0, _, _ => still_timeout
  | n + 1, c, t => by
    simp only [setLoop]
    split
    · exact still_upd.bind fun _ => still_pure
    · split
      · exact still_upd.bind fun _ => still_setLoop n _ _
      · split
        · exact still_upd.bind fun _ => still_setLoop n _ _
        · exact still_err

theorem still_readSet {strings : List (Str × Str)} {n : Nat} {p : Str} (c : Convert) :
    Still (readSet strings n p c) :=
  still_ofOption.bind fun _ => still_upd.bind fun _ => (still_setLoop _ _ _).bind fun _ =>
    still_ofOption.bind fun _ => still_sub.bind fun _ => still_pure

/-! ### Readers -/

/-- Rules read have fresh ids. -/
def ReadsFresh (f : Convert → CM (Range × Rule)) : Prop :=
  ∀ c st, Post (f c) st (Grow st.id fun x j => Fresh st.id j (Rule.ids x.2))

theorem fresh_loop {σ : Type} {nm : Str} {n : Nat} {J : Nat → Nat → σ → Prop}
    {B : Convert → σ → CM (Option (Range × σ))} {s₀ : σ} {k : Convert → Convert × σ → CM (Range × Rule)}
    (hB : ∀ i, Keeps (fun j s => i ≤ j ∧ J i j s) B) (h₀ : ∀ i, J i i s₀)
    (hk : ∀ i start c s st, i ≤ st.id → J i st.id s →
      Post (k start (c, s)) st (Grow i fun x j => Fresh i j (Rule.ids x.2))) :
    ReadsFresh (fun c => do
      let r ← ofOption (c.startNode nm)
      let c' ← c.upd r
      let x ← Convert.loop nm B n c' s₀
      k c x) := by
  intro c st
  refine post_still still_ofOption ⟨Nat.le_refl _, by simp⟩ fun r => ?_
  refine post_still still_upd ⟨Nat.le_refl _, by simp⟩ fun c' => ?_
  refine post_bind (post_loop (hB st.id) n c' s₀ st ⟨Nat.le_refl _, h₀ _⟩) ?_ ?_
  · rintro st' ⟨h, _⟩; exact ⟨h, by simp⟩
  · rintro ⟨c'', s⟩ st' ⟨h, h'⟩
    obtain ⟨_, h₂⟩ := h' _ rfl
    exact hk _ _ _ _ _ h h₂

/-- A reader whose parts have no ids. -/
theorem fresh_leaf {σ : Type} {nm : Str} {n : Nat}
    {B : Convert → σ → CM (Option (Range × σ))} {s₀ : σ} {k : Convert → Convert × σ → CM (Range × Rule)}
    (hB : Keeps (fun _ _ => True) B)
    (hk : ∀ i start c s st, i ≤ st.id →
      Post (k start (c, s)) st (Grow i fun x j => Fresh i j (Rule.ids x.2))) :
    ReadsFresh (fun c => do
      let r ← ofOption (c.startNode nm)
      let c' ← c.upd r
      let x ← Convert.loop nm B n c' s₀
      k c x) := by
  intro c st
  refine post_still still_ofOption ⟨Nat.le_refl _, by simp⟩ fun r => ?_
  refine post_still still_upd ⟨Nat.le_refl _, by simp⟩ fun c' => ?_
  refine post_bind (post_loop hB n c' s₀ st trivial) ?_ ?_
  · rintro st' ⟨h, _⟩; exact ⟨h, by simp⟩
  · rintro ⟨c'', s⟩ st' ⟨h, h'⟩
    exact hk _ _ _ _ _ h

section
variable {strings : List (Str × Str)} {n : Nat}

theorem fresh_tag : ReadsFresh (readTag strings n) := by
  refine fresh_leaf (B := tagBody strings n) (s₀ := (none, none, none, none)) ?_ ?_
  · have h : ∀ (i j : Nat) (s : Option Str × Option Str × Option Bool × Option Bool), True → i ≤ j → True :=
      fun _ _ _ _ _ => trivial
    exact keeps_still h still_readSet (by intros; trivial) (keeps_still h still_readSet (by intros; trivial)
      (keeps_still h (fun _ => still_ofOption) (by intros; trivial)
        (keeps_still h (fun _ => still_ofOption) (by intros; trivial) keeps_none)))
  · rintro i start c ⟨s₁, s₂, s₃, s₄⟩ st hi
    exact post_still still_ofOption ⟨hi, by simp⟩ fun _ => post_finish (l := []) hi (by simp [Rule.ids]) .nil

theorem keeps_until : Keeps (fun _ _ => True) (untilBody strings n) := by
  have h : ∀ (i j : Nat) (s : Option Str × Option Bool × Option Str), True → i ≤ j → True :=
    fun _ _ _ _ _ => trivial
  exact keeps_still h still_readSet (by intros; trivial)
    (keeps_still h (fun _ => still_ofOption) (by intros; trivial)
      (keeps_still h still_readSet (by intros; trivial) keeps_none))

theorem fresh_untilAnyOrWs : ReadsFresh (readUntilAnyOrWs strings n) := by
  refine fresh_leaf (B := untilBody strings n) (s₀ := (none, none, none)) keeps_until ?_
  rintro i start c ⟨s₁, s₂, s₃⟩ st hi
  exact post_still still_ofOption ⟨hi, by simp⟩ fun _ => post_finish (l := []) hi (by simp [Rule.ids]) .nil

theorem fresh_untilAny : ReadsFresh (readUntilAny strings n) := by
  refine fresh_leaf (B := untilBody strings n) (s₀ := (none, none, none)) keeps_until ?_
  rintro i start c ⟨s₁, s₂, s₃⟩ st hi
  exact post_still still_ofOption ⟨hi, by simp⟩ fun _ => post_finish (l := []) hi (by simp [Rule.ids]) .nil

theorem fresh_text : ReadsFresh (readText strings n) := by
  refine fresh_leaf (B := textBody strings n) (s₀ := (none, none)) ?_ ?_
  · have h : ∀ (i j : Nat) (s : Option Bool × Option Str), True → i ≤ j → True :=
      fun _ _ _ _ _ => trivial
    exact keeps_still h (fun _ => still_ofOption) (by intros; trivial)
      (keeps_still h still_readSet (by intros; trivial) keeps_none)
  · rintro i start c ⟨s₁, s₂⟩ st hi
    exact post_finish (l := []) hi (by simp [Rule.ids]) .nil

theorem fresh_number : ReadsFresh (readNumber strings n) := by
  refine fresh_leaf (B := numberBody strings n) (s₀ := (none, none)) ?_ ?_
  · have h : ∀ (i j : Nat) (s : Option Str × Option Bool), True → i ≤ j → True :=
      fun _ _ _ _ _ => trivial
    exact keeps_still h still_readSet (by intros; trivial)
      (keeps_still h (fun _ => still_ofOption) (by intros; trivial) keeps_none)
  · rintro i start c ⟨s₁, s₂⟩ st hi
    exact post_finish (l := []) hi (by simp [Rule.ids]) .nil

theorem fresh_reference : ReadsFresh (readReference strings n) := by
  refine fresh_leaf (B := referenceBody strings n) (s₀ := (none, none)) ?_ ?_
  · have h : ∀ (i j : Nat) (s : Option Str × Option Str), True → i ≤ j → True :=
      fun _ _ _ _ _ => trivial
    exact keeps_still h (fun _ => still_ofOption) (by intros; trivial)
      (keeps_still h still_readSet (by intros; trivial) keeps_none)
  · rintro i start c ⟨s₁, s₂⟩ st hi
    exact post_still still_ofOption ⟨hi, by simp⟩ fun _ => post_finish (l := []) hi (by simp [Rule.ids]) .nil

theorem fresh_whitespace : ReadsFresh readWhitespace := by
  intro c st
  refine post_still still_ofOption ⟨Nat.le_refl _, by simp⟩ fun _ => ?_
  refine post_still still_upd ⟨Nat.le_refl _, by simp⟩ fun _ => ?_
  refine post_still still_ofOption ⟨Nat.le_refl _, by simp⟩ fun _ => ?_
  refine post_still still_upd ⟨Nat.le_refl _, by simp⟩ fun _ => ?_
  refine post_still still_ofOption ⟨Nat.le_refl _, by simp⟩ fun _ => ?_
  refine post_still still_upd ⟨Nat.le_refl _, by simp⟩ fun _ => ?_
  exact post_finish (l := []) (Nat.le_refl _) (by simp [Rule.ids]) .nil

end

theorem idsL_append (a b : List Rule) : Rule.idsL (a ++ b) = Rule.idsL a ++ Rule.idsL b := by
  induction a with
  | nil => rfl
  | cons r rs ih => simp [Rule.idsL, ih]

/-- The ids of a rule that may be missing. -/
def idsO : Option Rule → List Nat
  | none => []
  | some r => Rule.ids r

section
variable {rr : Str → Convert → CM (Range × Rule)} {n : Nat} (hrr : ∀ p, ReadsFresh (rr p))
include hrr

theorem keeps_args (i : Nat) : Keeps (fun j s => i ≤ j ∧ Fresh i j (Rule.idsL s)) (argsBody rr) := by
  have h : ∀ (j k : Nat) (s : List Rule), i ≤ j ∧ Fresh i j (Rule.idsL s) → j ≤ k →
      i ≤ k ∧ Fresh i k (Rule.idsL s) := fun j k s h hk => ⟨by omega, h.2.mono (Nat.le_refl _) hk⟩
  refine keeps_read h ?_ keeps_none
  rintro c s st ⟨h₁, h₂⟩
  refine (hrr _ c st).mono ?_
  rintro r st' ⟨h₃, h₄⟩
  refine ⟨h₃, fun x hx => ⟨by omega, ?_⟩⟩
  rw [idsL_append]
  simp only [Rule.idsL, List.append_nil]
  exact h₂.append (h₄ x hx) h₁ h₃

theorem fresh_sequence : ReadsFresh (readSequence rr n) := by
  refine fresh_loop (B := argsBody rr) (s₀ := []) (J := fun i j s => Fresh i j (Rule.idsL s)) (keeps_args hrr)
    (fun i => .nil) ?_
  intro i start c s st hi h
  exact post_finish (l := Rule.idsL s) hi (by simp [Rule.ids]) h

theorem fresh_select : ReadsFresh (readSelect rr n) := by
  refine fresh_loop (B := argsBody rr) (s₀ := []) (J := fun i j s => Fresh i j (Rule.idsL s)) (keeps_args hrr)
    (fun i => .nil) ?_
  intro i start c s st hi h
  exact post_finish (l := Rule.idsL s) hi (by simp [Rule.ids]) h

theorem fresh_repeat : ReadsFresh (readRepeat rr n) := by
  refine fresh_loop (B := repeatBody rr) (s₀ := (none, none)) (J := fun i j s => Fresh i j (idsO s.1))
    ?_ (fun i => .nil) ?_
  · intro i
    have h : ∀ (j k : Nat) (s : Option Rule × Option Bool), i ≤ j ∧ Fresh i j (idsO s.1) → j ≤ k →
        i ≤ k ∧ Fresh i k (idsO s.1) := fun j k s h hk => ⟨by omega, h.2.mono (Nat.le_refl _) hk⟩
    refine keeps_read h ?_ (keeps_still h (fun _ => still_ofOption) (fun _ _ _ h => h) keeps_none)
    rintro c s st ⟨h₁, h₂⟩
    refine (hrr _ c st).mono ?_
    rintro r st' ⟨h₃, h₄⟩
    exact ⟨h₃, fun x hx => ⟨by omega, (h₄ x hx).mono h₁ (Nat.le_refl _)⟩⟩
  · rintro i start c ⟨s, o⟩ st hi h
    refine post_need ⟨hi, by simp⟩ fun r hr => post_need ⟨hi, by simp⟩ fun o ho => ?_
    subst hr
    exact post_finish (l := Rule.ids r) hi (by simp [Rule.ids]) h

theorem fresh_separatedBy : ReadsFresh (readSeparatedBy rr n) := by
  refine fresh_loop (B := separatedBody rr) (s₀ := (none, none, none, none))
    (J := fun i j s => Fresh i j (idsO s.2.2.1 ++ idsO s.2.2.2)) ?_ (fun i => .nil) ?_
  · intro i
    have h : ∀ (j k : Nat) (s : Option Bool × Option Bool × Option Rule × Option Rule),
        i ≤ j ∧ Fresh i j (idsO s.2.2.1 ++ idsO s.2.2.2) → j ≤ k →
        i ≤ k ∧ Fresh i k (idsO s.2.2.1 ++ idsO s.2.2.2) :=
      fun j k s h hk => ⟨by omega, h.2.mono (Nat.le_refl _) hk⟩
    refine keeps_still h (fun _ => still_ofOption) (fun _ _ _ h => h) ?_
    refine keeps_still h (fun _ => still_ofOption) (fun _ _ _ h => h) ?_
    refine keeps_read h ?_ (keeps_read h ?_ keeps_none)
    · rintro c s st ⟨h₁, h₂⟩
      refine (hrr _ c st).mono ?_
      rintro r st' ⟨h₃, h₄⟩
      exact ⟨h₃, fun x hx => ⟨by omega, (h₂.right.append (h₄ x hx) h₁ h₃).swap⟩⟩
    · rintro c s st ⟨h₁, h₂⟩
      refine (hrr _ c st).mono ?_
      rintro r st' ⟨h₃, h₄⟩
      exact ⟨h₃, fun x hx => ⟨by omega, h₂.left.append (h₄ x hx) h₁ h₃⟩⟩
  · rintro i start c ⟨o, t, b, r⟩ st hi h
    refine post_need ⟨hi, by simp⟩ fun b' hb => post_need ⟨hi, by simp⟩ fun r' hr => ?_
    subst hb; subst hr
    exact post_finish (l := Rule.ids b' ++ Rule.ids r') hi (by simp [Rule.ids]) h

theorem post_oneRule {nm : Str} {c start : Convert} {st : CSt} {f : Nat → Rule → Rule}
    (hf : ∀ id r, Rule.ids (f id r) = Rule.ids r ++ [id]) :
    Post (do
      let (r, rule) ← rr c!"rule" c
      let c ← c.upd r
      let r ← ofOption (c.endNode nm)
      let c ← c.upd r
      let id ← nextId
      return (← c.sub start, f id rule) : CM (Range × Rule)) st
      (Grow st.id fun x j => Fresh st.id j (Rule.ids x.2)) := by
  refine post_bind (hrr _ c st) (fun st' h => ⟨h.1, by simp⟩) ?_
  rintro ⟨r, rule⟩ st' ⟨h₁, h₂⟩
  refine post_still still_upd ⟨h₁, by simp⟩ fun _ => ?_
  refine post_still still_ofOption ⟨h₁, by simp⟩ fun _ => ?_
  refine post_still still_upd ⟨h₁, by simp⟩ fun _ => ?_
  exact post_finish (l := Rule.ids rule) h₁ (fun id => hf id rule) (h₂ _ rfl)

theorem fresh_optional : ReadsFresh (readOptional rr) := by
  intro c st
  refine post_still still_ofOption ⟨Nat.le_refl _, by simp⟩ fun _ => ?_
  refine post_still still_upd ⟨Nat.le_refl _, by simp⟩ fun _ => ?_
  exact post_oneRule hrr (f := fun id r => .optional r id) (by simp [Rule.ids])

theorem fresh_not : ReadsFresh (readNot rr) := by
  intro c st
  refine post_still still_ofOption ⟨Nat.le_refl _, by simp⟩ fun _ => ?_
  refine post_still still_upd ⟨Nat.le_refl _, by simp⟩ fun _ => ?_
  exact post_oneRule hrr (f := fun id r => .not r id) (by simp [Rule.ids])

theorem fresh_lines : ReadsFresh (readLines rr) := by
  intro c st
  refine post_still still_ofOption ⟨Nat.le_refl _, by simp⟩ fun _ => ?_
  refine post_still still_upd ⟨Nat.le_refl _, by simp⟩ fun c => ?_
  have hi : Still (readIndent c) := by
    simp only [readIndent]
    split
    · exact still_upd.bind fun _ => still_pure
    · exact still_pure
  refine post_still hi ⟨Nat.le_refl _, by simp⟩ ?_
  rintro ⟨c, v⟩
  exact post_oneRule hrr (f := fun id r => .lines r v id) (by simp [Rule.ids])

theorem fresh_ruleStep {strings : List (Str × Str)} (p : Str) :
    ReadsFresh (readRuleStep strings rr n p) := by
  intro c st
  refine post_still still_ofOption ⟨Nat.le_refl _, by simp⟩ fun _ => ?_
  refine post_still still_upd ⟨Nat.le_refl _, by simp⟩ fun c => ?_
  have key : ∀ (l : List (CM (Range × Rule))) (st : CSt),
      (∀ m ∈ l, ∀ st, Post m st (Grow st.id fun x j => Fresh st.id j (Rule.ids x.2))) →
      Post (firstRule l) st (Grow st.id fun x j => Fresh st.id j (Rule.ids x.2)) := by
    intro l
    induction l with
    | nil => intro st _; exact ⟨fun r st' e => by cases e; exact ⟨Nat.le_refl _, by simp⟩⟩
    | cons m l ih =>
      intro st hl
      refine post_attempt (hl m (by simp) st) ?_
      rintro x st' ⟨h₁, h₂⟩
      cases x with
      | some x => exact post_pure ⟨h₁, h₂⟩
      | none =>
        refine (ih st' fun m hm => hl m (by simp [hm])).mono ?_
        rintro r st'' ⟨h₃, h₄⟩
        exact ⟨by omega, fun a ha => (h₄ a ha).mono h₁ (Nat.le_refl _)⟩
  refine post_bind (key _ st ?_) (fun st' h => ⟨h.1, by simp⟩) ?_
  · simp only [List.mem_cons, List.not_mem_nil, or_false]
    rintro m (rfl | rfl | rfl | rfl | rfl | rfl | rfl | rfl | rfl | rfl | rfl | rfl | rfl | rfl) st
    · exact fresh_sequence hrr c st
    · exact fresh_untilAnyOrWs c st
    · exact fresh_untilAny c st
    · exact fresh_tag c st
    · exact fresh_whitespace c st
    · exact fresh_text c st
    · exact fresh_number c st
    · exact fresh_reference c st
    · exact fresh_select hrr c st
    · exact fresh_optional hrr c st
    · exact fresh_not hrr c st
    · exact fresh_separatedBy hrr c st
    · exact fresh_lines hrr c st
    · exact fresh_repeat hrr c st
  · rintro ⟨r, rule⟩ st' ⟨h₁, h₂⟩
    refine post_still still_upd ⟨h₁, by simp⟩ fun _ => ?_
    refine post_still still_ofOption ⟨h₁, by simp⟩ fun _ => ?_
    refine post_still still_upd ⟨h₁, by simp⟩ fun _ => ?_
    exact post_still still_sub ⟨h₁, by simp⟩ fun _ => post_pure ⟨h₁, by rintro _ ⟨⟩; exact h₂ (r, rule) rfl⟩

end

/-- The ids in a rule read by `read_rule` are new and different, whatever the data. -/
theorem fresh_rule (strings : List (Str × Str)) : ∀ (n : Nat) (p : Str), ReadsFresh (readRule strings n p)
  | 0, _ => fun _ _ => ⟨fun _ _ e => by cases e⟩
  | n + 1, p => fresh_ruleStep (fresh_rule strings n) p

/-! ### Nodes -/

/-- What is known inside of `read_node`. -/
structure NodeInv (L : Nat) (data : List Tok) (s : Option Nat × Option Str × Option Rule) : Prop where
  fits : ∀ id, s.1 = some id → id * 1000 + L < 2 ^ 64
  num : ∀ id, s.1 = some id → ∃ t ∈ data, ∃ v, t.data = .f64 c!"id" v ∧ id = v.toUsize
  rule : ∀ r, s.2.2 = some r → NodeIds L data r

theorem nodeBody_ids {L n : Nat} (strings : List (Str × Str)) (hL : L < 2 ^ 64) (hn : L ≤ n)
    {data : List Tok} :
    ∀ (a rest : List Tok) (off : Nat) (s : Option Nat × Option Str × Option Rule) (st : CSt) (_ : Nat),
    Item a → a.length ≤ L → (∀ t ∈ a, IdFits L t ∧ t ∈ data) → NodeInv L data s →
    Ret (nodeBody strings (n + 1) ⟨a ++ rest, off⟩ s) st
      (Body off a.length (fun _ => NodeInv L data s) fun s' _ => NodeInv L data s') := by
  intro a rest off s st _ ha hl hq hs
  have ho : ∀ st', Ret (tryRead (ofOption (metaString ⟨a ++ rest, off⟩ c!"name"))
      (fun v => (s.1, some v, s.2.2)) <|
      tryRead (do setId (s.1.getD 0); readRule strings (n + 1) c!"rule" ⟨a ++ rest, off⟩)
        (fun v => (s.1, s.2.1, some v)) noRead) st'
      (Body off a.length (fun _ => NodeInv L data s) fun s' _ => NodeInv L data s') := by
    intro st'
    refine ret_tryRead (pure_metaString _ a rest off st' ha hl) (fun _ _ _ => ⟨hs.fits, hs.num, hs.rule⟩) ?_
    rintro st' -
    have hid : s.1.getD 0 * 1000 + L < 2 ^ 64 := by
      cases h : s.1 with
      | none => simpa using hL
      | some id => simpa using hs.fits id h
    obtain ⟨r, st'', e, hr⟩ := ((reader_rule strings n c!"rule").mono hn).item ha rest off
      { st' with id := s.1.getD 0 * 1000 } hl (by simp only; omega)
    have hfresh := (fresh_rule strings (n + 1) c!"rule" ⟨a ++ rest, off⟩
      { st' with id := s.1.getD 0 * 1000 }).post r st'' e
    have h' : s.1.getD 0 * 1000 < 2 ^ 64 := Nat.lt_of_le_of_lt (Nat.le_add_right _ _) hid
    have e' : (do setId (s.1.getD 0); readRule strings (n + 1) c!"rule" ⟨a ++ rest, off⟩ : CM _) st' =
        .ok (r, st'') := by
      refine (bind_some (a := ()) (st' := { st' with id := s.1.getD 0 * 1000 }) ?_).trans e
      simp [setId, h']
    cases r with
    | none =>
      rw [Ret, tryRead_none e']
      exact ret_noRead hs
    | some x =>
      obtain ⟨r, rule⟩ := x
      rw [Ret, tryRead_some e']
      refine ⟨_, _, rfl, _, rfl, by simp, ?_⟩
      rintro _ ⟨⟩
      refine ⟨hr.2 _ rfl, hs.fits, hs.num, ?_⟩
      rintro _ ⟨⟩
      have hf := hfresh.2 _ rfl
      refine ⟨s.1.getD 0, ?_, hf.nodup, fun x hx => ?_⟩
      · cases h : s.1 with
        | none => exact .inl rfl
        | some id => exact .inr (hs.num id h)
      · have h₁ := hf.gt x hx
        have h₂ := hf.le x hx
        have h₃ := hr.1
        simp only at h₁ h₃
        omega
  cases hm : metaF64 ⟨a ++ rest, off⟩ c!"id" with
  | none =>
    obtain ⟨r, st', e, h⟩ := ho st
    exact ⟨r, st', by simp only [nodeBody, hm]; exact e, h⟩
  | some x =>
    obtain ⟨r, ts, hd⟩ := metaF64_head hm
    have hx : x.1 = ⟨off, a.length⟩ := by
      obtain ⟨_, _, e, _, h'⟩ := pure_metaF64 (L := L) c!"id" a rest off st ha hl
      simp only [ofOption, hm, Comp.ok.injEq, Prod.mk.injEq] at e
      exact h' _ e.1.symm
    have hin : (⟨r, .f64 c!"id" x.2⟩ : Tok) ∈ a := by
      obtain ⟨t, ts', rfl, _⟩ := ha.head
      simp at hd
      simp [hd.1]
    refine ⟨some (some (x.1, some x.2.toUsize, s.2)), st, by simp only [nodeBody, hm]; rfl, _, rfl, by simp, ?_⟩
    rintro y hy
    cases hy
    refine ⟨hx, ?_, ?_, hs.rule⟩
    · rintro id hid
      cases hid
      exact (hq _ hin).1 _ rfl
    · rintro id hid
      cases hid
      exact ⟨_, (hq _ hin).2, _, rfl, rfl⟩

theorem readNode_ids {L : Nat} (strings : List (Str × Str)) (hL : L < 2 ^ 64) {data : List Tok}
    (a rest : List Tok) (off : Nat) (st : CSt) (ha : Item a) (hl : a.length ≤ L)
    (hq : ∀ t ∈ a, IdFits L t ∧ t ∈ data) :
    Ret (readNode strings (L + 1) ⟨a ++ rest, off⟩) st fun r _ =>
      ∀ x, r = some x → x.1 = ⟨off, a.length⟩ ∧ NodeIds L data x.2.2 := by
  rcases Item.start ha c!"node" with hs | ⟨r₁, r₂, body, rfl, hi⟩
  · refine ⟨none, st, ?_, by simp⟩
    show (ofOption _ >>= _) st = _
    exact bind_none (by simp [ofOption, hs])
  · simp only [List.cons_append, List.append_assoc, List.nil_append]
    refine ret_ofOption (by simp [startNode]) ?_
    intro a ha
    simp [startNode] at ha
    subst ha
    refine ret_bind_eq (upd_eq (by simp)) ?_
    have hl' : body.length + 2 ≤ L := by simpa using hl
    have := loop_ret (nm := c!"node") (B := nodeBody strings (L + 1)) (L := L)
      (Q := fun t => IdFits L t ∧ t ∈ data) (I := fun _ s _ => NodeInv L data s)
      (nodeBody_ids strings hL (Nat.le_refl L)) (fun _ _ _ _ h => h) hi (by omega)
      (fun t ht => hq t (by simp [ht])) (L + 1) (off + 1) (none, none, none) st r₂ rest 0 (by omega)
      ⟨by simp, by simp, by simp⟩
    refine ret_bind this (by simp) ?_
    rintro ⟨c, id, name, rule⟩ st' ⟨s', e, hinv⟩
    simp only [Option.some.injEq, Prod.mk.injEq] at e
    obtain ⟨rfl, rfl⟩ := e
    refine ret_ofOption (by simp) ?_
    intro name _
    refine ret_ofOption (by simp) ?_
    intro rule hr
    refine ret_bind_eq (sub_eq (by simp; omega)) (ret_pure ?_)
    rintro _ ⟨⟩
    exact ⟨by simp; omega, hinv.rule _ hr⟩

theorem nodesLoop_ids {L : Nat} (strings : List (Str × Str)) (hL : L < 2 ^ 64) {data : List Tok}
    {ts : List Tok} (hi : Items ts) : ∀ (k off : Nat) (res : Syntax) (st : CSt), ts.length ≤ L →
    ts.length < k → (∀ t ∈ ts, IdFits L t ∧ t ∈ data) → (∀ r ∈ res.rules, NodeIds L data r) →
    Ret (nodesLoop strings (L + 1) k ⟨ts, off⟩ res) st fun r _ =>
      ∀ syn, r = some syn → ∀ r ∈ syn.rules, NodeIds L data r := by
  refine Items.rec_items hi ?_ ?_
  · intro k off res st _ hk _ hres
    obtain ⟨k, rfl⟩ : ∃ m, k = m + 1 := ⟨k - 1, by omega⟩
    refine ⟨_, st, rfl, ?_⟩
    rintro _ ⟨⟩
    exact hres
  · intro a b ha hb ih k off res st hl hk hq hres
    obtain ⟨k, rfl⟩ : ∃ m, k = m + 1 := ⟨k - 1, by omega⟩
    simp only [List.length_append] at hl hk
    have hp := ha.pos
    refine ret_attempt (readNode_ids strings hL a b off st ha (by omega) fun t ht => hq t (by simp [ht])) ?_
    rintro x st' hx
    cases x with
    | none =>
      have : 0 < (a ++ b).length := by rw [List.length_append]; omega
      simp only [remaining, this, if_true]
      exact ⟨_, st', rfl, by simp⟩
    | some x =>
      obtain ⟨r, v⟩ := x
      obtain ⟨h₁, h₂⟩ := hx _ rfl
      simp only at h₁
      subst h₁
      refine ret_bind_eq (upd_eq (by simp)) ?_
      simp only [List.drop_left]
      refine ih k _ _ _ (by omega) (by omega) (fun t ht => hq t (by simp [ht])) ?_
      simp only [Syntax.push, List.mem_append, List.mem_singleton]
      rintro r (hr | rfl)
      · exact hres r hr
      · exact h₂

mutual
theorem ids_updateRefs (names : List Str) (r : Rule) : Rule.ids (Rule.updateRefs names r) = Rule.ids r := by
  cases r with
  | node n p i id => cases i <;> rfl
  | whitespace | tag | untilAny | untilAnyOrWs | text | number | fastSelect => rfl
  | select args id | sequence args id =>
    simp only [Rule.updateRefs, Rule.ids, ids_updateRefsL names args]
  | separateBy r b o t id => simp only [Rule.updateRefs, Rule.ids, ids_updateRefs names r, ids_updateRefs names b]
  | repeat_ r o id => simp only [Rule.updateRefs, Rule.ids, ids_updateRefs names r]
  | lines r o id => simp only [Rule.updateRefs, Rule.ids, ids_updateRefs names r]
  | optional r id => simp only [Rule.updateRefs, Rule.ids, ids_updateRefs names r]
  | not r id => simp only [Rule.updateRefs, Rule.ids, ids_updateRefs names r]
theorem ids_updateRefsL (names : List Str) (rs : List Rule) :
    Rule.idsL (Rule.updateRefsL names rs) = Rule.idsL rs := by
  cases rs with
  | nil => rfl
  | cons r rs => simp only [Rule.updateRefsL, Rule.idsL, ids_updateRefs names r, ids_updateRefsL names rs]
end

theorem convertM_ids {ts : List Tok} (hi : Items ts) (hL : ts.length < 2 ^ 64)
    (hq : ∀ t ∈ ts, IdFits ts.length t) (st : CSt) :
    Ret (convertM (ts.length + 1) ts) st fun r _ =>
      ∀ syn, r = some syn → ∀ r ∈ syn.rules, NodeIds ts.length ts r := by
  refine ret_bind (stringsLoop_ret hi (ts.length + 1) 0 [] st (by omega) (by omega)) (by simp) ?_
  rintro ⟨c, strings⟩ st' ⟨ts', off', strings', pre, e, h₂, h₃⟩
  cases e
  have hsub : ts'.length ≤ ts.length := by rw [h₂]; simp
  have hmem : ∀ t ∈ ts', t ∈ ts := fun t ht => by rw [h₂]; simp [ht]
  refine ret_bind (nodesLoop_ids strings hL (data := ts) h₃ (ts.length + 1) off' .new st' hsub (by omega)
    (fun t ht => ⟨hq t (hmem t ht), hmem t ht⟩) (by simp [Syntax.new])) (by simp) ?_
  intro res st'' hres
  refine ret_pure ?_
  rintro _ ⟨⟩ r hr
  simp only [Syntax.updateRefs, List.mem_map] at hr
  obtain ⟨r', hr', rfl⟩ := hr
  obtain ⟨k, hk⟩ := hres _ rfl r' hr'
  refine ⟨k, ?_⟩
  rw [ids_updateRefs]
  exact hk

end Verif
