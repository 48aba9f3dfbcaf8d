import Verif.Model.RefsCalls
/-
More fuel does not change the number of `convert` (Model/ConvertCalls.lean): Proofs/ConvertFuel.lean once more.
-/
namespace Verif
open CCM Counted

/-- `m'` returns whatever `m` returns. -/
structure GLe {α : Type} (m m' : CCM α) : Prop where
  eq : ∀ st, m st ≠ .timeout → m' st = m st

/-- The same for two lists of readers. -/
inductive GLes : (l l' : List (CCM (Range × Rule))) → Prop
  | nil : GLes [] []
  | cons {p q l l'} (h : GLe p q) (hs : GLes l l') : GLes (p :: l) (q :: l')

section
variable {α β σ : Type}

theorem GLe.refl (m : CCM α) : GLe m m := ⟨fun _ _ => rfl⟩

theorem GLe.timeout (m : CCM α) : GLe CCM.timeout m := ⟨fun _ h => absurd rfl h⟩

theorem GLe.trans {a b c : CCM α} (h : GLe a b) (h' : GLe b c) : GLe a c := by
  refine ⟨fun st hs => ?_⟩
  rw [h'.eq st (by rw [h.eq st hs]; exact hs), h.eq st hs]

theorem GLe.bind {m m' : CCM α} {f f' : α → CCM β} (h : GLe m m') (hf : ∀ a, GLe (f a) (f' a)) :
    GLe (m >>= f) (m' >>= f') := by
  refine ⟨fun st hs => ?_⟩
  have hm : m st ≠ .timeout := by
    intro e
    exact hs (by simp [Bind.bind, CCM.bind, e])
  have e := h.eq st hm
  simp only [Bind.bind, CCM.bind] at hs ⊢
  rw [e]
  cases hms : m st with
  | ok x =>
    obtain ⟨r, st', k⟩ := x
    cases r with
    | none => rfl
    | some a =>
      rw [hms] at hs
      have hf' : f a st' ≠ .timeout := by
        intro e
        exact hs (by simp [e])
      simp only [(hf a).eq st' hf']
  | panic => rfl
  | timeout => exact absurd hms hm

theorem GLe.attempt {m m' : CCM α} (h : GLe m m') : GLe (CCM.attempt m) (CCM.attempt m') := by
  refine ⟨fun st hs => ?_⟩
  have hm : m st ≠ .timeout := by
    intro e
    exact hs (by simp [CCM.attempt, e])
  simp only [CCM.attempt, h.eq st hm]

theorem GLe.tryRead {m m' : CCM (Range × α)} {put : α → σ} {o o' : CCM (Option (Range × σ))}
    (h : GLe m m') (ho : GLe o o') : GLe (Counted.tryRead m put o) (Counted.tryRead m' put o') := by
  refine h.attempt.bind ?_
  intro a
  cases a with
  | none => exact ho
  | some a => exact .refl _

theorem GLe.loop {nm : Str} {B B' : Convert → σ → CCM (Option (Range × σ))}
    (hB : ∀ c s, GLe (B c s) (B' c s)) : ∀ {n m : Nat}, n ≤ m → ∀ c s,
    GLe (Counted.loop nm B n c s) (Counted.loop nm B' m c s)
  | 0, _, _, _, _ => .timeout _
  | n + 1, 0, h, _, _ => absurd h (by omega)
  | n + 1, m + 1, h, c, s => by
    refine (GLe.refl _).bind fun x => ?_
    cases x with
    | some _ => exact .refl _
    | none =>
      refine (hB c s).bind fun x => ?_
      cases x with
      | some x => exact (GLe.refl _).bind fun c => GLe.loop hB (by omega) c _
      | none =>
        exact (GLe.refl _).bind fun r => (GLe.refl _).bind fun c => (GLe.refl _).bind fun _ =>
          GLe.loop hB (by omega) c _

theorem GLe.stringLoop : ∀ {n m : Nat}, n ≤ m → ∀ c name text,
    GLe (Counted.stringLoop n c name text) (Counted.stringLoop m c name text)
  | 0, _, _, _, _, _ => .timeout _
  | n + 1, 0, h, _, _, _ => absurd h (by omega)
  | n + 1, m + 1, h, c, name, text => by
    refine (GLe.refl _).bind fun x => ?_
    cases x with
    | some _ => exact (GLe.refl _).bind fun c => GLe.stringLoop (by omega) c _ _
    | none =>
      refine (GLe.refl _).bind fun x => ?_
      cases x with
      | some _ => exact (GLe.refl _).bind fun c => GLe.stringLoop (by omega) c _ _
      | none => exact .refl _

theorem GLe.setLoop {p : Str} {strings : List (Str × Str)} : ∀ {n m : Nat}, n ≤ m → ∀ c text,
    GLe (Counted.setLoop p strings n c text) (Counted.setLoop p strings m c text)
  | 0, _, _, _, _ => .timeout _
  | n + 1, 0, h, _, _ => absurd h (by omega)
  | n + 1, m + 1, h, c, text => by
    refine (GLe.refl _).bind fun x => ?_
    cases x with
    | some _ => exact .refl _
    | none =>
      refine (GLe.refl _).bind fun x => ?_
      cases x with
      | some _ => exact (GLe.refl _).bind fun c => (GLe.refl _).bind fun _ => GLe.setLoop (by omega) c _
      | none =>
        refine (GLe.refl _).bind fun x => ?_
        cases x with
        | some _ => exact (GLe.refl _).bind fun c => GLe.setLoop (by omega) c _
        | none => exact .refl _

theorem GLe.firstRule : ∀ {l l' : List (CCM (Range × Rule))}, GLes l l' →
    GLe (Counted.firstRule l) (Counted.firstRule l')
  | _, _, .nil => .refl _
  | _, _, .cons h hs => by
    refine h.attempt.bind ?_
    intro a
    cases a with
    | none => exact GLe.firstRule hs
    | some a => exact .refl _

end

section
variable {n m : Nat} (h : n ≤ m)
include h

theorem gle_readString (c : Convert) : GLe (readString n c) (readString m c) :=
  (GLe.refl _).bind fun _ => (GLe.refl _).bind fun c => (GLe.stringLoop h c none none).bind fun _ => .refl _

theorem gle_readSet (strings : List (Str × Str)) (p : Str) (c : Convert) :
    GLe (readSet strings n p c) (readSet strings m p c) :=
  (GLe.refl _).bind fun _ => (GLe.refl _).bind fun c => (GLe.setLoop h c none).bind fun _ => .refl _

/-- The shape of the readers with a loop. -/
theorem gle_loop_reader {σ α : Type} {nm : Str} {B B' : Convert → σ → CCM (Option (Range × σ))}
    (hB : ∀ c s, GLe (B c s) (B' c s)) {c : Convert} {s₀ : σ} {k : Convert × σ → CCM α} :
    GLe (do
      let r ← call (c.startNode nm)
      let c' ← upd c r
      let x ← Counted.loop nm B n c' s₀
      k x) (do
      let r ← call (c.startNode nm)
      let c' ← upd c r
      let x ← Counted.loop nm B' m c' s₀
      k x) :=
  (GLe.refl _).bind fun _ => (GLe.refl _).bind fun c => (GLe.loop hB h c s₀).bind fun _ => .refl _

theorem gle_until (strings : List (Str × Str)) (c : Convert) (s) :
    GLe (untilBody strings n c s) (untilBody strings m c s) :=
  .tryRead (gle_readSet h ..) (.tryRead (.refl _) (.tryRead (gle_readSet h ..) (.refl _)))

theorem gle_rule_step {strings : List (Str × Str)} {rr rr' : Str → Convert → CCM (Range × Rule)}
    (hrr : ∀ p c, GLe (rr p c) (rr' p c)) (p : Str) (c : Convert) :
    GLe (readRuleStep strings rr n p c) (readRuleStep strings rr' m p c) := by
  refine (GLe.refl _).bind fun _ => (GLe.refl _).bind fun c => GLe.bind ?_ fun _ => .refl _
  refine GLe.firstRule ?_
  refine .cons ?_ (.cons ?_ (.cons ?_ (.cons ?_ (.cons ?_ (.cons ?_ (.cons ?_ (.cons ?_ (.cons ?_
    (.cons ?_ (.cons ?_ (.cons ?_ (.cons ?_ (.cons ?_ .nil)))))))))))))
  · exact gle_loop_reader h fun c s => .tryRead (hrr ..) (.refl _)
  · exact gle_loop_reader h (gle_until h strings)
  · exact gle_loop_reader h (gle_until h strings)
  · exact gle_loop_reader h fun c s => .tryRead (gle_readSet h ..) (.tryRead (gle_readSet h ..) (.refl _))
  · exact .refl _
  · exact gle_loop_reader h fun c s => .tryRead (.refl _) (.tryRead (gle_readSet h ..) (.refl _))
  · exact gle_loop_reader h fun c s => .tryRead (gle_readSet h ..) (.refl _)
  · exact gle_loop_reader h fun c s => .tryRead (.refl _) (.tryRead (gle_readSet h ..) (.refl _))
  · exact gle_loop_reader h fun c s => .tryRead (hrr ..) (.refl _)
  · exact (GLe.refl _).bind fun _ => (GLe.refl _).bind fun _ => (hrr ..).bind fun _ => .refl _
  · exact (GLe.refl _).bind fun _ => (GLe.refl _).bind fun _ => (hrr ..).bind fun _ => .refl _
  · exact gle_loop_reader h fun c s => .tryRead (.refl _) (.tryRead (.refl _) (.tryRead (hrr ..)
      (.tryRead (hrr ..) (.refl _))))
  · exact (GLe.refl _).bind fun _ => (GLe.refl _).bind fun _ => (GLe.refl _).bind fun _ =>
      (hrr ..).bind fun _ => .refl _
  · exact gle_loop_reader h fun c s => .tryRead (hrr ..) (.refl _)

end

theorem gle_readRule {strings : List (Str × Str)} : ∀ {n m : Nat}, n ≤ m → ∀ p c,
    GLe (readRule strings n p c) (readRule strings m p c)
  | 0, _, _, _, _ => .timeout _
  | n + 1, 0, h, _, _ => absurd h (by omega)
  | n + 1, m + 1, h, p, c => gle_rule_step (by omega) (gle_readRule (by omega)) p c

theorem gle_readNode {n m : Nat} (h : n ≤ m) (strings : List (Str × Str)) (c : Convert) :
    GLe (readNode strings n c) (readNode strings m c) :=
  gle_loop_reader h fun _ _ => .tryRead (.refl _) (.tryRead (.refl _)
    (.tryRead ((GLe.refl _).bind fun _ => gle_readRule h ..) (.refl _)))

theorem gle_stringsLoop {n m : Nat} (h : n ≤ m) : ∀ {k l : Nat}, k ≤ l → ∀ c s,
    GLe (stringsLoop n k c s) (stringsLoop m l c s)
  | 0, _, _, _, _ => .timeout _
  | k + 1, 0, h, _, _ => absurd h (by omega)
  | k + 1, l + 1, hk, c, s => by
    refine (gle_readString h c).attempt.bind ?_
    intro a
    cases a with
    | none => exact .refl _
    | some a => exact (GLe.refl _).bind fun c => gle_stringsLoop h (by omega) c _

theorem gle_nodesLoop {n m : Nat} (h : n ≤ m) {strings : List (Str × Str)} : ∀ {k l : Nat}, k ≤ l →
    ∀ c s, GLe (nodesLoop strings n k c s) (nodesLoop strings m l c s)
  | 0, _, _, _, _ => .timeout _
  | k + 1, 0, h, _, _ => absurd h (by omega)
  | k + 1, l + 1, hk, c, s => by
    refine (gle_readNode h strings c).attempt.bind ?_
    intro a
    cases a with
    | none => exact .refl _
    | some a => exact (GLe.refl _).bind fun c => gle_nodesLoop h (by omega) c _

theorem gle_rawM {n m : Nat} (h : n ≤ m) (data : List Tok) : GLe (rawM n data) (rawM m data) :=
  (gle_stringsLoop h h _ _).bind fun _ => gle_nodesLoop h h _ _

/-- More fuel does not change the numbers of `convert`. -/
theorem convertAll_mono {n m : Nat} (h : n ≤ m) {data : List Tok} {ignored : List Range}
    (hs : convertAll n data ignored ≠ .timeout) : convertAll m data ignored = convertAll n data ignored := by
  have hn : rawM n data ⟨0, ignored⟩ ≠ .timeout := by
    intro e
    exact hs (by simp [convertAll, e])
  simp only [convertAll, (gle_rawM h data).eq _ hn]

end Verif
