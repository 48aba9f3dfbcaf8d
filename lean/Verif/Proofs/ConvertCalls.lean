import Verif.Proofs.Convert
import Verif.Model.ConvertCalls
/-
The counting readers return what the readers return.
-/
namespace Verif
open Spec

/-- `m'` is `m` with numbers. -/
structure CountsFor {α : Type} (m' : CCM α) (m : CM α) : Prop where
  eq : ∀ st, (do let (r, st', _) ← m' st; return (r, st')) = m st

/-- The same for two lists of readers. -/
inductive CountsForAll : List (CCM (Range × Rule)) → List (CM (Range × Rule)) → Prop
  | nil : CountsForAll [] []
  | cons {m' m l' l} (h : CountsFor m' m) (hs : CountsForAll l' l) : CountsForAll (m' :: l') (m :: l)

namespace CountsFor
variable {α β σ : Type}

theorem costs (k : Nat) (m : CM α) : CountsFor (CCM.costs k m) m := by
  refine ⟨fun st => ?_⟩
  simp only [CCM.costs]
  cases m st <;> rfl

theorem pure (a : α) : CountsFor (Pure.pure a : CCM α) (Pure.pure a) := ⟨fun _ => rfl⟩

theorem bind {m' : CCM α} {m : CM α} {f' : α → CCM β} {f : α → CM β} (h : CountsFor m' m)
    (hf : ∀ a, CountsFor (f' a) (f a)) : CountsFor (m' >>= f') (m >>= f) := by
  refine ⟨fun st => ?_⟩
  have := h.eq st
  simp only [Bind.bind, CM.bind, CCM.bind, Comp.bind] at this ⊢
  rw [← this]
  cases hm : m' st with
  | panic => rfl
  | timeout => rfl
  | ok x =>
    obtain ⟨r, st', k⟩ := x
    cases r with
    | none => rfl
    | some a =>
      have h' := (hf a).eq st'
      simp only [Bind.bind, Comp.bind] at h'
      simp only [Pure.pure]
      rw [← h']
      cases f' a st' <;> rfl

theorem ask {x : α} {f' : α → CCM β} {m : CM β} (hf : CountsFor (f' x) m) : CountsFor (CCM.ask x >>= f') m := by
  refine ⟨fun st => ?_⟩
  have := hf.eq st
  simp only [Bind.bind, CCM.bind, CCM.ask, CCM.costs, CM.pure, Comp.bind] at this ⊢
  rw [← this]
  cases f' x st <;> rfl

theorem attempt {m' : CCM α} {m : CM α} (h : CountsFor m' m) : CountsFor (CCM.attempt m') (CM.attempt m) := by
  refine ⟨fun st => ?_⟩
  have := h.eq st
  simp only [CM.attempt, CCM.attempt, ← this]
  cases m' st <;> rfl

theorem tryRead {m' : CCM (Range × α)} {m : CM (Range × α)} {put : α → σ} {o' : CCM (Option (Range × σ))}
    {o : CM (Option (Range × σ))} (h : CountsFor m' m) (ho : CountsFor o' o) :
    CountsFor (Counted.tryRead m' put o') (Convert.tryRead m put o) := by
  refine h.attempt.bind ?_
  intro a
  cases a with
  | none => exact ho
  | some a => exact .pure _

theorem ignore (c : Convert) : CountsFor (Counted.ignore c) (CM.lift c.ignore) := by
  refine ⟨fun st => ?_⟩
  simp only [Counted.ignore, CM.lift]
  cases c.ignore <;> rfl

theorem loop {nm : Str} {B' : Convert → σ → CCM (Option (Range × σ))} {B : Convert → σ → CM (Option (Range × σ))}
    (hB : ∀ c s, CountsFor (B' c s) (B c s)) : ∀ (n : Nat) c s,
    CountsFor (Counted.loop nm B' n c s) (Convert.loop nm B n c s)
  | 0, _, _ => costs 0 CM.timeout
  | n + 1, c, s => by
    simp only [Counted.loop, Convert.loop]
    refine ask ?_
    cases c.endNode nm with
    | some r => exact (costs 1 _).bind fun _ => .pure _
    | none =>
      refine (hB c s).bind ?_
      intro x
      cases x with
      | some x => exact (costs 1 _).bind fun c => loop hB n c _
      | none => exact (ignore c).bind fun r => (costs 1 _).bind fun c => (costs 0 _).bind fun _ => loop hB n c _

theorem stringLoop : ∀ (n : Nat) c name text,
    CountsFor (Counted.stringLoop n c name text) (Convert.stringLoop n c name text)
  | 0, _, _, _ => costs 0 CM.timeout
  | n + 1, c, name, text => by
    simp only [Counted.stringLoop, Convert.stringLoop]
    refine ask ?_
    cases c.metaString c!"name" with
    | some x => exact (costs 1 _).bind fun c => stringLoop n c _ _
    | none =>
      refine ask ?_
      cases c.metaString c!"text" with
      | some x => exact (costs 1 _).bind fun c => stringLoop n c _ _
      | none =>
        refine ask ?_
        cases c.endNode c!"string" with
        | some r => exact (costs 1 _).bind fun _ => .pure _
        | none => exact costs 0 _

theorem find {val : Str} {strings : List (Str × Str)} {f' : Option Str → CCM β} {m : CM β}
    (hf : CountsFor (f' (Convert.findString val strings)) m) :
    CountsFor (Counted.findString val strings >>= f') m := by
  refine ⟨fun st => ?_⟩
  have := hf.eq st
  simp only [Bind.bind, CCM.bind, Counted.findString, CCM.costs, CM.pure, Comp.bind] at this ⊢
  rw [← this]
  cases f' (Convert.findString val strings) st <;> rfl

theorem setLoop {p : Str} {strings : List (Str × Str)} : ∀ (n : Nat) c text,
    CountsFor (Counted.setLoop p strings n c text) (Convert.setLoop p strings n c text)
  | 0, _, _ => costs 0 CM.timeout
  | n + 1, c, text => by
    simp only [Counted.setLoop, Convert.setLoop]
    refine ask ?_
    cases c.endNode p with
    | some r => exact (costs 1 _).bind fun _ => .pure _
    | none =>
      refine ask ?_
      cases c.metaString c!"ref" with
      | some x => exact (costs 1 _).bind fun c => find (setLoop n c _)
      | none =>
        refine ask ?_
        cases c.metaString c!"value" with
        | some x => exact (costs 1 _).bind fun c => setLoop n c _
        | none => exact costs 0 _

theorem firstRule : ∀ {l' : List (CCM (Range × Rule))} {l : List (CM (Range × Rule))},
    CountsForAll l' l → CountsFor (Counted.firstRule l') (Convert.firstRule l)
  | _, _, .nil => costs 0 CM.err
  | _, _, .cons h hs => by
    refine h.attempt.bind ?_
    intro a
    cases a with
    | none => exact firstRule hs
    | some a => exact .pure _

end CountsFor

section
open CountsFor

/-- Nothing to be said about the end of a reader. -/
local macro "rest" : tactic => `(tactic| repeat' (first | exact CountsFor.pure _ | exact costs _ _ |
  (refine CountsFor.bind (costs _ _) fun _ => ?_)))

theorem counts_readString (n : Nat) (c : Convert) : CountsFor (Counted.readString n c) (Convert.readString n c) := by
  refine (costs _ _).bind fun _ => (costs _ _).bind fun c => (stringLoop n c none none).bind fun _ => ?_
  rest

theorem counts_readSet (strings : List (Str × Str)) (n : Nat) (p : Str) (c : Convert) :
    CountsFor (Counted.readSet strings n p c) (Convert.readSet strings n p c) := by
  refine (costs _ _).bind fun _ => (costs _ _).bind fun c => (setLoop n c none).bind fun _ => ?_
  rest

/-- The shape of the readers with a loop. -/
theorem counts_loop {σ α : Type} {nm : Str} {B' : Convert → σ → CCM (Option (Range × σ))}
    {B : Convert → σ → CM (Option (Range × σ))} {n : Nat}
    (hB : ∀ c s, CountsFor (B' c s) (B c s)) {c : Convert} {s₀ : σ} {k' : Convert × σ → CCM α}
    {k : Convert × σ → CM α} (hk : ∀ x, CountsFor (k' x) (k x)) :
    CountsFor (do
      let r ← CCM.call (c.startNode nm)
      let c' ← Counted.upd c r
      let x ← Counted.loop nm B' n c' s₀
      k' x) (do
      let r ← CM.ofOption (c.startNode nm)
      let c' ← c.upd r
      let x ← Convert.loop nm B n c' s₀
      k x) :=
  (costs _ _).bind fun _ => (costs _ _).bind fun c => (loop hB n c s₀).bind hk

theorem counts_until (strings : List (Str × Str)) (n : Nat) (c : Convert) (s) :
    CountsFor (Counted.untilBody strings n c s) (Convert.untilBody strings n c s) :=
  .tryRead (counts_readSet ..) (.tryRead (costs _ _) (.tryRead (counts_readSet ..) (.pure _)))

theorem counts_rule_step {strings : List (Str × Str)} {rr' : Str → Convert → CCM (Range × Rule)}
    {rr : Str → Convert → CM (Range × Rule)} (hrr : ∀ p c, CountsFor (rr' p c) (rr p c)) (n : Nat) (p : Str) (c : Convert) :
    CountsFor (Counted.readRuleStep strings rr' n p c) (Convert.readRuleStep strings rr n p c) := by
  refine (costs _ _).bind fun _ => (costs _ _).bind fun c => CountsFor.bind ?_ fun x => ?_
  rotate_left
  · rest
  refine CountsFor.firstRule ?_
  refine .cons ?_ (.cons ?_ (.cons ?_ (.cons ?_ (.cons ?_ (.cons ?_ (.cons ?_ (.cons ?_ (.cons ?_
    (.cons ?_ (.cons ?_ (.cons ?_ (.cons ?_ (.cons ?_ .nil)))))))))))))
  · refine counts_loop (fun c s => .tryRead (hrr ..) (.pure _)) fun x => ?_
    rest
  · refine counts_loop (counts_until strings n) fun x => ?_
    rest
  · refine counts_loop (counts_until strings n) fun x => ?_
    rest
  · refine counts_loop (fun c s => .tryRead (counts_readSet ..) (.tryRead (counts_readSet ..)
      (.tryRead (costs _ _) (.tryRead (costs _ _) (.pure _))))) fun x => ?_
    rest
  · unfold Counted.readWhitespace Convert.readWhitespace
    rest
  · refine counts_loop (fun c s => .tryRead (costs _ _) (.tryRead (counts_readSet ..) (.pure _))) fun x => ?_
    rest
  · refine counts_loop (fun c s => .tryRead (counts_readSet ..) (.tryRead (costs _ _) (.pure _))) fun x => ?_
    rest
  · refine counts_loop (fun c s => .tryRead (costs _ _) (.tryRead (counts_readSet ..) (.pure _))) fun x => ?_
    rest
  · refine counts_loop (fun c s => .tryRead (hrr ..) (.pure _)) fun x => ?_
    rest
  · refine (costs _ _).bind fun _ => (costs _ _).bind fun _ => (hrr ..).bind fun _ => ?_
    rest
  · refine (costs _ _).bind fun _ => (costs _ _).bind fun _ => (hrr ..).bind fun _ => ?_
    rest
  · refine counts_loop (fun c s => .tryRead (costs _ _) (.tryRead (costs _ _) (.tryRead (hrr ..)
      (.tryRead (hrr ..) (.pure _))))) fun x => ?_
    rest
  · refine (costs _ _).bind fun _ => (costs _ _).bind fun c => CountsFor.bind ?_ fun _ =>
      (hrr ..).bind fun _ => ?_
    · unfold Counted.readIndent Convert.readIndent
      refine ask ?_
      cases c.metaBool c!"indent" with
      | none => exact .pure _
      | some x => exact (costs _ _).bind fun _ => .pure _
    · rest
  · refine counts_loop (fun c s => .tryRead (hrr ..) (.tryRead (costs _ _) (.pure _))) fun x => ?_
    rest

theorem counts_readRule {strings : List (Str × Str)} : ∀ (n : Nat) p c,
    CountsFor (Counted.readRule strings n p c) (Convert.readRule strings n p c)
  | 0, _, _ => costs 0 CM.timeout
  | n + 1, p, c => counts_rule_step (counts_readRule n) n p c

theorem counts_readNode (strings : List (Str × Str)) (n : Nat) (c : Convert) :
    CountsFor (Counted.readNode strings n c) (Convert.readNode strings n c) := by
  refine counts_loop (fun _ _ => .tryRead (costs _ _) (.tryRead (costs _ _)
    (.tryRead ((costs _ _).bind fun _ => counts_readRule ..) (.pure _)))) fun x => ?_
  rest

theorem counts_stringsLoop (n : Nat) : ∀ (k : Nat) c s,
    CountsFor (Counted.stringsLoop n k c s) (Convert.stringsLoop n k c s)
  | 0, _, _ => costs 0 CM.timeout
  | k + 1, c, s => by
    refine (counts_readString n c).attempt.bind ?_
    intro a
    cases a with
    | none => exact .pure _
    | some a => exact (costs _ _).bind fun c => counts_stringsLoop n k c _

theorem counts_nodesLoop {strings : List (Str × Str)} (n : Nat) : ∀ (k : Nat) c s,
    CountsFor (Counted.nodesLoop strings n k c s) (Convert.nodesLoop strings n k c s)
  | 0, _, _ => costs 0 CM.timeout
  | k + 1, c, s => by
    refine (counts_readNode strings n c).attempt.bind ?_
    intro a
    cases a with
    | none =>
      refine ask ?_
      by_cases h : 0 < c.remaining
      · simp only [h, if_true]; exact costs _ _
      · simp only [h, if_false]; exact .pure _
    | some a => exact (costs _ _).bind fun c => counts_nodesLoop n k c _

theorem counts_convertM (n : Nat) (data : List Tok) : CountsFor (Counted.convertM n data) (convertM n data) :=
  (counts_stringsLoop n n _ _).bind fun _ => (counts_nodesLoop n n _ _).bind fun _ => .pure _

end
end Verif
