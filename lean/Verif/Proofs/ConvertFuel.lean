import Verif.Proofs.Convert
/-
More fuel does not change what `convert` returns.
-/
namespace Verif
open CM Convert

/-- `m'` returns whatever `m` returns. -/
structure FLe {α : Type} (m m' : CM α) : Prop where
  eq : ∀ st, m st ≠ .timeout → m' st = m st

/-- The same for two lists of readers. -/
inductive FLes (c : Convert) : (l l' : List (Str × (Convert → CM (Range × Rule)))) → Prop
  | nil : FLes c [] []
  | cons {p q l l'} (h : FLe (p.2 c) (q.2 c)) (hs : FLes c l l') : FLes c (p :: l) (q :: l')

section
variable {α β σ : Type}

theorem FLe.refl (m : CM α) : FLe m m := ⟨fun _ _ => rfl⟩

theorem FLe.timeout (m : CM α) : FLe CM.timeout m := ⟨fun _ h => absurd rfl h⟩

theorem FLe.trans {a b c : CM α} (h : FLe a b) (h' : FLe b c) : FLe a c := by
  refine ⟨fun st hs => ?_⟩
  rw [h'.eq st (by rw [h.eq st hs]; exact hs), h.eq st hs]

theorem FLe.bind {m m' : CM α} {f f' : α → CM β} (h : FLe m m') (hf : ∀ a, FLe (f a) (f' a)) :
    FLe (m >>= f) (m' >>= f') := by
  refine ⟨fun st hs => ?_⟩
  have hm : m st ≠ .timeout := by
    intro e
    exact hs (by simp [Bind.bind, CM.bind, e])
  have e := h.eq st hm
  simp only [Bind.bind, CM.bind] at hs ⊢
  rw [e]
  cases hms : m st with
  | ok x =>
    obtain ⟨r, st'⟩ := x
    cases r with
    | none => rfl
    | some a =>
      rw [hms] at hs
      exact (hf a).eq st' hs
  | panic => rfl
  | timeout => exact absurd hms hm

theorem FLe.attempt {m m' : CM α} (h : FLe m m') : FLe (CM.attempt m) (CM.attempt m') := by
  refine ⟨fun st hs => ?_⟩
  have hm : m st ≠ .timeout := by
    intro e
    exact hs (by simp [CM.attempt, e])
  simp only [CM.attempt, h.eq st hm]

theorem FLe.tryRead {m m' : CM (Range × α)} {put : α → σ} {o o' : CM (Option (Range × σ))}
    (h : FLe m m') (ho : FLe o o') : FLe (Convert.tryRead m put o) (Convert.tryRead m' put o') := by
  refine h.attempt.bind ?_
  intro a
  cases a with
  | none => exact ho
  | some a => exact .refl _

theorem FLe.loop {nm : Str} {B B' : Convert → σ → CM (Option (Range × σ))}
    (hB : ∀ c s, FLe (B c s) (B' c s)) : ∀ {n m : Nat}, n ≤ m → ∀ c s,
    FLe (Convert.loop nm B n c s) (Convert.loop nm B' m c s)
  | 0, _, _, _, _ => .timeout _
  | n + 1, 0, h, _, _ => absurd h (by omega)
  | n + 1, m + 1, h, c, s => by
    simp only [Convert.loop]
    split
    · exact .refl _
    · refine (hB c s).bind ?_
      intro x
      cases x with
      | some x => exact (FLe.refl _).bind fun c => FLe.loop hB (by omega) c _
      | none =>
        exact (FLe.refl _).bind fun r => (FLe.refl _).bind fun c => (FLe.refl _).bind fun _ =>
          FLe.loop hB (by omega) c _

theorem FLe.stringLoop : ∀ {n m : Nat}, n ≤ m → ∀ c name text,
    FLe (Convert.stringLoop n c name text) (Convert.stringLoop m c name text)
  | 0, _, _, _, _, _ => .timeout _
  | n + 1, 0, h, _, _, _ => absurd h (by omega)
  | n + 1, m + 1, h, c, name, text => by
    simp only [Convert.stringLoop]
    split
    · exact (FLe.refl _).bind fun c => FLe.stringLoop (by omega) c _ _
    · split
      · exact (FLe.refl _).bind fun c => FLe.stringLoop (by omega) c _ _
      · exact .refl _

theorem FLe.setLoop {p : Str} {strings : List (Str × Str)} : ∀ {n m : Nat}, n ≤ m → ∀ c text,
    FLe (Convert.setLoop p strings n c text) (Convert.setLoop p strings m c text)
  | 0, _, _, _, _ => .timeout _
  | n + 1, 0, h, _, _ => absurd h (by omega)
  | n + 1, m + 1, h, c, text => by
    simp only [Convert.setLoop]
    split
    · exact .refl _
    · split
      · exact (FLe.refl _).bind fun c => FLe.setLoop (by omega) c _
      · split
        · exact (FLe.refl _).bind fun c => FLe.setLoop (by omega) c _
        · exact .refl _

theorem FLe.firstRule {c : Convert} : ∀ {l l' : List (Str × (Convert → CM (Range × Rule)))},
    FLes c l l' →
    FLe (Convert.firstRule (l.map fun p => p.2 c)) (Convert.firstRule (l'.map fun p => p.2 c))
  | _, _, .nil => .refl _
  | _, _, .cons h hs => by
    refine h.attempt.bind ?_
    intro a
    cases a with
    | none => exact FLe.firstRule hs
    | some a => exact .refl _

end

section
variable {n m : Nat} (h : n ≤ m)
include h

theorem fle_readString (c : Convert) : FLe (readString n c) (readString m c) :=
  (FLe.refl _).bind fun _ => (FLe.refl _).bind fun c => (FLe.stringLoop h c none none).bind fun _ => .refl _

theorem fle_readSet (strings : List (Str × Str)) (p : Str) (c : Convert) :
    FLe (readSet strings n p c) (readSet strings m p c) :=
  (FLe.refl _).bind fun _ => (FLe.refl _).bind fun c => (FLe.setLoop h c none).bind fun _ => .refl _

/-- The shape of the readers with a loop. -/
theorem fle_loop_reader {σ α : Type} {nm : Str} {B B' : Convert → σ → CM (Option (Range × σ))}
    (hB : ∀ c s, FLe (B c s) (B' c s)) {c : Convert} {s₀ : σ} {k : Convert × σ → CM α} :
    FLe (do
      let r ← ofOption (c.startNode nm)
      let c' ← c.upd r
      let x ← Convert.loop nm B n c' s₀
      k x) (do
      let r ← ofOption (c.startNode nm)
      let c' ← c.upd r
      let x ← Convert.loop nm B' m c' s₀
      k x) :=
  (FLe.refl _).bind fun _ => (FLe.refl _).bind fun c => (FLe.loop hB h c s₀).bind fun _ => .refl _

theorem fle_until (strings : List (Str × Str)) (c : Convert) (s) :
    FLe (untilBody strings n c s) (untilBody strings m c s) :=
  .tryRead (fle_readSet h ..) (.tryRead (.refl _) (.tryRead (fle_readSet h ..) (.refl _)))

theorem fle_rule_step {strings : List (Str × Str)} {rr rr' : Str → Convert → CM (Range × Rule)}
    (hrr : ∀ p c, FLe (rr p c) (rr' p c)) (p : Str) (c : Convert) :
    FLe (readRuleStep strings rr n p c) (readRuleStep strings rr' m p c) := by
  refine (FLe.refl _).bind fun _ => (FLe.refl _).bind fun c => FLe.bind ?_ fun _ => .refl _
  refine FLe.firstRule (l := ruleReaders strings rr n) (l' := ruleReaders strings rr' m) ?_
  refine .cons ?_ (.cons ?_ (.cons ?_ (.cons ?_ (.cons ?_ (.cons ?_ (.cons ?_ (.cons ?_ (.cons ?_
    (.cons ?_ (.cons ?_ (.cons ?_ (.cons ?_ (.cons ?_ .nil)))))))))))))
  · exact fle_loop_reader h fun c s => .tryRead (hrr ..) (.refl _)
  · exact fle_loop_reader h (fle_until h strings)
  · exact fle_loop_reader h (fle_until h strings)
  · exact fle_loop_reader h fun c s => .tryRead (fle_readSet h ..) (.tryRead (fle_readSet h ..) (.refl _))
  · exact .refl _
  · exact fle_loop_reader h fun c s => .tryRead (.refl _) (.tryRead (fle_readSet h ..) (.refl _))
  · exact fle_loop_reader h fun c s => .tryRead (fle_readSet h ..) (.refl _)
  · exact fle_loop_reader h fun c s => .tryRead (.refl _) (.tryRead (fle_readSet h ..) (.refl _))
  · exact fle_loop_reader h fun c s => .tryRead (hrr ..) (.refl _)
  · exact (FLe.refl _).bind fun _ => (FLe.refl _).bind fun _ => (hrr ..).bind fun _ => .refl _
  · exact (FLe.refl _).bind fun _ => (FLe.refl _).bind fun _ => (hrr ..).bind fun _ => .refl _
  · exact fle_loop_reader h fun c s => .tryRead (.refl _) (.tryRead (.refl _) (.tryRead (hrr ..)
      (.tryRead (hrr ..) (.refl _))))
  · exact (FLe.refl _).bind fun _ => (FLe.refl _).bind fun _ => (FLe.refl _).bind fun _ =>
      (hrr ..).bind fun _ => .refl _
  · exact fle_loop_reader h fun c s => .tryRead (hrr ..) (.refl _)

end

theorem fle_readRule {strings : List (Str × Str)} : ∀ {n m : Nat}, n ≤ m → ∀ p c,
    FLe (readRule strings n p c) (readRule strings m p c)
  | 0, _, _, _, _ => .timeout _
  | n + 1, 0, h, _, _ => absurd h (by omega)
  | n + 1, m + 1, h, p, c => fle_rule_step (by omega) (fle_readRule (by omega)) p c

theorem fle_readNode {n m : Nat} (h : n ≤ m) (strings : List (Str × Str)) (c : Convert) :
    FLe (readNode strings n c) (readNode strings m c) :=
  fle_loop_reader h fun _ _ => .tryRead (.refl _) (.tryRead (.refl _)
    (.tryRead ((FLe.refl _).bind fun _ => fle_readRule h ..) (.refl _)))

theorem fle_stringsLoop {n m : Nat} (h : n ≤ m) : ∀ {k l : Nat}, k ≤ l → ∀ c s,
    FLe (stringsLoop n k c s) (stringsLoop m l c s)
  | 0, _, _, _, _ => .timeout _
  | k + 1, 0, h, _, _ => absurd h (by omega)
  | k + 1, l + 1, hk, c, s => by
    refine (fle_readString h c).attempt.bind ?_
    intro a
    cases a with
    | none => exact .refl _
    | some a => exact (FLe.refl _).bind fun c => fle_stringsLoop h (by omega) c _

theorem fle_nodesLoop {n m : Nat} (h : n ≤ m) {strings : List (Str × Str)} : ∀ {k l : Nat}, k ≤ l →
    ∀ c s, FLe (nodesLoop strings n k c s) (nodesLoop strings m l c s)
  | 0, _, _, _, _ => .timeout _
  | k + 1, 0, h, _, _ => absurd h (by omega)
  | k + 1, l + 1, hk, c, s => by
    refine (fle_readNode h strings c).attempt.bind ?_
    intro a
    cases a with
    | none => exact .refl _
    | some a => exact (FLe.refl _).bind fun c => fle_nodesLoop h (by omega) c _

theorem fle_convertM {n m : Nat} (h : n ≤ m) (data : List Tok) :
    FLe (convertM n data) (convertM m data) :=
  (fle_stringsLoop h h _ _).bind fun _ => (fle_nodesLoop h h _ _).bind fun _ => .refl _

/-- More fuel does not change what `convert` returns. -/
theorem convert_mono {n m : Nat} (h : n ≤ m) {data : List Tok} {ignored : List Range}
    (hs : convert n data ignored ≠ .timeout) : convert m data ignored = convert n data ignored := by
  have hn : convertM n data ⟨0, ignored⟩ ≠ .timeout := by
    intro e
    exact hs (by simp [convert, e])
  simp only [convert, (fle_convertM h data).eq _ hn]

end Verif
