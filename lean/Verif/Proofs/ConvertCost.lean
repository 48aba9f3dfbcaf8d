import Verif.Proofs.ConvertCalls
import Verif.Spec.ConvertCost
/-
How much work the readers of `convert` do.
-/
namespace Verif
open Spec

/-! ### Data up to a depth -/

namespace Spec

/-- One item of data up to a depth. -/
inductive ItemTo : Nat → List Tok → Prop
  | value {d t} (h : ¬ IsNode t.data) : ItemTo (d + 1) [t]
  | node {d r₁ r₂ name body} (hb : NestedTo d body) :
      ItemTo (d + 1) (⟨r₁, .startNode name⟩ :: body ++ [⟨r₂, .endNode name⟩])

theorem NestedTo.items {d : Nat} {ts : List Tok} (h : NestedTo d ts) : Items ts := by
  induction h with
  | nil => exact .nil
  | value h _ ih => exact .value h ih
  | node _ _ ih₁ ih₂ => exact .node ih₁ ih₂

theorem ItemTo.item {d : Nat} {a : List Tok} (h : ItemTo d a) : Item a := by
  cases h with
  | value h => exact .value h
  | node hb => exact .node hb.items

theorem NestedTo.mono {d d' : Nat} {ts : List Tok} (h : NestedTo d ts) (hd : d ≤ d') : NestedTo d' ts := by
  induction h generalizing d' with
  | nil => exact .nil
  | value h _ ih =>
    obtain ⟨e, rfl⟩ : ∃ e, d' = e + 1 := ⟨d' - 1, by omega⟩
    exact .value h (ih hd)
  | node _ _ ih₁ ih₂ =>
    obtain ⟨e, rfl⟩ : ∃ e, d' = e + 1 := ⟨d' - 1, by omega⟩
    exact .node (ih₁ (by omega)) (ih₂ hd)

theorem Items.nestedTo {ts : List Tok} (h : Items ts) : NestedTo ts.length ts := by
  induction h with
  | nil => exact .nil
  | value h _ ih => exact .value h (ih.mono (by simp))
  | @node r₁ r₂ name body rest _ _ ih₁ ih₂ =>
    refine (NestedTo.node (d := body.length + rest.length) (ih₁.mono (by omega)) (ih₂.mono (by omega))).mono ?_
    simp

theorem NestedTo.cases {d : Nat} {ts : List Tok} (h : NestedTo d ts) :
    ts = [] ∨ ∃ a b, ts = a ++ b ∧ ItemTo d a ∧ NestedTo d b := by
  cases h with
  | nil => exact .inl rfl
  | value h hr => exact .inr ⟨[_], _, rfl, .value h, hr⟩
  | @node d r₁ r₂ name body rest hb hr =>
    exact .inr ⟨⟨r₁, .startNode name⟩ :: body ++ [⟨r₂, .endNode name⟩], rest, by simp, .node hb, hr⟩

@[elab_as_elim] theorem NestedTo.rec_items {d : Nat} {P : List Tok → Prop} {ts : List Tok} (h : NestedTo d ts)
    (hn : P []) (hc : ∀ a b, ItemTo d a → NestedTo d b → P b → P (a ++ b)) : P ts := by
  generalize hk : ts.length = k
  induction k using Nat.strongRecOn generalizing ts with
  | ind k ih =>
    rcases h.cases with rfl | ⟨a, b, rfl, ha, hb⟩
    · exact hn
    · have := ha.item.pos
      exact hc _ _ ha hb (ih b.length (by simp at hk; omega) hb rfl)

theorem ItemTo.start {d : Nat} {a : List Tok} (h : ItemTo d a) (nm : Str) :
    (∀ rest off, Convert.startNode ⟨a ++ rest, off⟩ nm = none) ∨
    ∃ e r₁ r₂ body, d = e + 1 ∧ a = ⟨r₁, .startNode nm⟩ :: (body ++ [⟨r₂, .endNode nm⟩]) ∧ NestedTo e body := by
  cases h with
  | @value d t h =>
    obtain ⟨r, d⟩ := t
    left; intros; cases d <;> simp_all [Convert.startNode, IsNode]
  | @node d r₁ r₂ name body h =>
    by_cases e : name = nm
    · subst e; exact .inr ⟨d, r₁, r₂, body, rfl, by simp, h⟩
    · left; intros; simp [Convert.startNode, e]

theorem totalLength_append (l l' : List Range) : totalLength (l ++ l') = totalLength l + totalLength l' := by
  simp [totalLength]

end Spec

/-! ### What a reader takes -/

/-- If `m` returns, then the result, the total length of what it has ignored, and its number are as `P` says. -/
def Spends {α : Type} (m : CCM α) (P : Option α → Nat → Nat → Prop) : Prop :=
  ∀ st r st' k, m st = .ok (r, st', k) → ∃ l, st'.ignored = st.ignored ++ l ∧ P r (totalLength l) k

namespace Spends
variable {α β σ : Type}

theorem mono {m : CCM α} {P Q : Option α → Nat → Nat → Prop} (h : Spends m P) (hpq : ∀ r g k, P r g k → Q r g k) :
    Spends m Q := by
  intro st r st' k e
  obtain ⟨l, hl, hp⟩ := h st r st' k e
  exact ⟨l, hl, hpq _ _ _ hp⟩

theorem bind {m : CCM α} {f : α → CCM β} {P : Option α → Nat → Nat → Prop} {Q : Option β → Nat → Nat → Prop}
    (h : Spends m P) (hn : ∀ g k, P none g k → Q none g k)
    (hs : ∀ a g k, P (some a) g k → Spends (f a) fun r g' k' => Q r (g + g') (k + k')) : Spends (m >>= f) Q := by
  intro st r st' k e
  simp only [Bind.bind, CCM.bind] at e
  split at e
  · next a st₁ k₁ e₁ =>
    split at e
    · next r₂ st₂ k₂ e₂ =>
      simp only [Comp.ok.injEq, Prod.mk.injEq] at e
      obtain ⟨rfl, rfl, rfl⟩ := e
      obtain ⟨l, hl, hp⟩ := h _ _ _ _ e₁
      obtain ⟨l', hl', hq⟩ := hs _ _ _ hp _ _ _ _ e₂
      exact ⟨l ++ l', by rw [hl', hl, List.append_assoc], by rw [totalLength_append]; exact hq⟩
    · cases e
    · cases e
  · next st₁ k₁ e₁ =>
    simp only [Comp.ok.injEq, Prod.mk.injEq] at e
    obtain ⟨rfl, rfl, rfl⟩ := e
    obtain ⟨l, hl, hp⟩ := h _ _ _ _ e₁
    exact ⟨l, hl, hn _ _ hp⟩
  · cases e
  · cases e

theorem attempt {m : CCM α} {P : Option α → Nat → Nat → Prop} (h : Spends m P) :
    Spends (CCM.attempt m) fun r g k => ∃ x, r = some x ∧ P x g k := by
  intro st r st' k e
  simp only [CCM.attempt] at e
  split at e
  · next r₁ st₁ k₁ e₁ =>
    simp only [Comp.ok.injEq, Prod.mk.injEq] at e
    obtain ⟨rfl, rfl, rfl⟩ := e
    obtain ⟨l, hl, hp⟩ := h _ _ _ _ e₁
    exact ⟨l, hl, _, rfl, hp⟩
  · cases e
  · cases e

theorem ret {P : Option α → Nat → Nat → Prop} {a : α} (h : P (some a) 0 0) : Spends (Pure.pure a : CCM α) P := by
  intro st r st' k e
  simp only [Pure.pure, CCM.pure, Comp.ok.injEq, Prod.mk.injEq] at e
  obtain ⟨rfl, rfl, rfl⟩ := e
  exact ⟨[], by simp, h⟩

theorem timeout {P : Option α → Nat → Nat → Prop} : Spends (CCM.timeout : CCM α) P := by
  intro st r st' k e
  simp [CCM.timeout, CCM.costs, CM.timeout] at e

theorem err {P : Option α → Nat → Nat → Prop} (h : P none 0 0) : Spends (CCM.err : CCM α) P := by
  intro st r st' k e
  simp only [CCM.err, CCM.costs, CM.err, Comp.ok.injEq, Prod.mk.injEq] at e
  obtain ⟨rfl, rfl, rfl⟩ := e
  exact ⟨[], by simp, h⟩

theorem costs_option {j : Nat} {x : Option α} {P : Option α → Nat → Nat → Prop} (h : P x 0 j) :
    Spends (CCM.costs j (CM.ofOption x)) P := by
  intro st r st' k e
  simp only [CCM.costs, CM.ofOption, Comp.ok.injEq, Prod.mk.injEq] at e
  obtain ⟨rfl, rfl, rfl⟩ := e
  exact ⟨[], by simp, h⟩

/-- Look at an option that is there, with `?`. -/
theorem option {j : Nat} {x : Option α} {f : α → CCM β} {Q : Option β → Nat → Nat → Prop} (hn : x = none → Q none 0 j)
    (hs : ∀ a, x = some a → Spends (f a) fun r g k => Q r g (j + k)) :
    Spends (CCM.costs j (CM.ofOption x) >>= f) Q := by
  refine (costs_option (P := fun r g k => r = x ∧ g = 0 ∧ k = j) ⟨rfl, rfl, rfl⟩).bind ?_ ?_
  · rintro g k ⟨e, rfl, rfl⟩; exact hn e.symm
  · rintro a g k ⟨e, rfl, rfl⟩
    simpa using hs a e.symm

theorem ask {x : α} {f : α → CCM β} {Q : Option β → Nat → Nat → Prop}
    (hs : Spends (f x) fun r g k => Q r g (1 + k)) : Spends (CCM.ask x >>= f) Q := by
  refine option (j := 1) (x := some x) (by simp) ?_
  rintro a ⟨⟩
  exact hs

theorem find {val : Str} {strings : List (Str × Str)} {f : Option Str → CCM β} {Q : Option β → Nat → Nat → Prop}
    (hs : ∀ j ≤ strings.length, Spends (f (Convert.findString val strings)) fun r g k => Q r g (j + k)) :
    Spends (Counted.findString val strings >>= f) Q := by
  refine option (j := min strings.length (strings.findIdx (fun s => s.1 = val) + 1))
    (x := some (Convert.findString val strings)) (by simp) ?_
  rintro a ⟨⟩
  exact hs _ (Nat.min_le_left _ _)

/-- Moving on over what is there. -/
theorem upd {c : Convert} {k : Nat} {f : Convert → CCM β} {Q : Option β → Nat → Nat → Prop} (hk : k ≤ c.data.length)
    (hs : Spends (f ⟨c.data.drop k, c.off + k⟩) fun r g j => Q r g (1 + j)) :
    Spends (Counted.upd c ⟨c.off, k⟩ >>= f) Q := by
  have e : Counted.upd c ⟨c.off, k⟩ = CCM.costs 1 (CM.ofOption (some ⟨c.data.drop k, c.off + k⟩)) := by
    funext st
    simp only [Counted.upd, CCM.costs]
    rw [upd_eq hk]
    rfl
  rw [e]
  refine option (by simp) ?_
  rintro a ⟨⟩
  exact hs

theorem sub {c start : Convert} {f : Range → CCM β} {Q : Option β → Nat → Nat → Prop} (h : start.off ≤ c.off)
    (hs : Spends (f ⟨start.off, c.off - start.off⟩) fun r g j => Q r g (1 + j)) :
    Spends (Counted.sub c start >>= f) Q := by
  have e : Counted.sub c start = CCM.costs 1 (CM.ofOption (some ⟨start.off, c.off - start.off⟩)) := by
    funext st
    simp only [Counted.sub, CCM.costs]
    rw [sub_eq h]
    rfl
  rw [e]
  refine option (by simp) ?_
  rintro a ⟨⟩
  exact hs

theorem nextId {f : Nat → CCM β} {Q : Option β → Nat → Nat → Prop} (hs : ∀ id, Spends (f id) Q) :
    Spends (CCM.nextId >>= f) Q := by
  refine bind (P := fun r g k => r ≠ none ∧ g = 0 ∧ k = 0) ?_ (by simp) ?_
  · intro st r st' k e
    simp only [CCM.nextId, CCM.costs, CM.nextId] at e
    split at e
    · next e' =>
      split at e'
      · simp only [Comp.ok.injEq, Prod.mk.injEq] at e e'
        obtain ⟨rfl, rfl, rfl⟩ := e
        obtain ⟨rfl, rfl⟩ := e'
        exact ⟨[], by simp, by simp [totalLength]⟩
      · cases e'
    · cases e
    · cases e
  · rintro a g k ⟨_, rfl, rfl⟩
    simpa using hs a

theorem setId {i : Nat} {f : Unit → CCM β} {Q : Option β → Nat → Nat → Prop} (hs : Spends (f ()) Q) :
    Spends (CCM.setId i >>= f) Q := by
  refine bind (P := fun r g k => r ≠ none ∧ g = 0 ∧ k = 0) ?_ (by simp) ?_
  · intro st r st' k e
    simp only [CCM.setId, CCM.costs, CM.setId] at e
    split at e
    · next e' =>
      split at e'
      · simp only [Comp.ok.injEq, Prod.mk.injEq] at e e'
        obtain ⟨rfl, rfl, rfl⟩ := e
        obtain ⟨rfl, rfl⟩ := e'
        exact ⟨[], by simp, by simp [totalLength]⟩
      · cases e'
    · cases e
    · cases e
  · rintro ⟨⟩ g k ⟨_, rfl, rfl⟩
    simpa using hs

theorem push {x : Range} {f : Unit → CCM β} {Q : Option β → Nat → Nat → Prop}
    (hs : Spends (f ()) fun r g k => Q r (x.length + g) k) : Spends (CCM.push x >>= f) Q := by
  refine bind (P := fun r g k => r ≠ none ∧ g = x.length ∧ k = 0) ?_ (by simp) ?_
  · intro st r st' k e
    simp only [CCM.push, CCM.costs, CM.push, Comp.ok.injEq, Prod.mk.injEq] at e
    obtain ⟨rfl, rfl, rfl⟩ := e
    exact ⟨[x], rfl, by simp [totalLength]⟩
  · rintro ⟨⟩ g k ⟨_, rfl, rfl⟩
    simpa using hs

theorem ignore {a rest : List Tok} {off : Nat} (ha : Item a) {f : Range → CCM β} {Q : Option β → Nat → Nat → Prop}
    (hs : Spends (f ⟨off, a.length⟩) fun r g k => Q r g (1 + a.length + k)) :
    Spends (Counted.ignore ⟨a ++ rest, off⟩ >>= f) Q := by
  have e : Counted.ignore ⟨a ++ rest, off⟩ = CCM.costs (1 + a.length) (CM.ofOption (some ⟨off, a.length⟩)) := by
    funext st
    simp only [Counted.ignore, ignore_item ha]
    rfl
  rw [e]
  refine option (by simp) ?_
  rintro a ⟨⟩
  exact hs

end Spends

/-! ### Readers -/

/-- What a reader has done with a node that has `len` tokens inside, `d` deep: what is ignored is not more than once for
each level, and what is done besides is at most `K` for each token but one. -/
def NodeTook {α : Type} (K d off len : Nat) (r : Option (Range × α)) (g k : Nat) : Prop :=
  g ≤ k ∧ g ≤ len * d ∧ k ≤ K * (len + 1) + g ∧ ∀ x, r = some x → x.1 = ⟨off, len + 2⟩

/-- The reader with name `nm` does at most `K` for each token. -/
structure Modest {α : Type} (K : Nat) (nm : Str) (f : Convert → CCM (Range × α)) : Prop where
  other : ∀ c, c.startNode nm = none → Spends (f c) fun r g k => r = none ∧ g = 0 ∧ k ≤ 1
  node : ∀ d r₁ r₂ body rest off, NestedTo d body →
    Spends (f ⟨⟨r₁, .startNode nm⟩ :: (body ++ ⟨r₂, .endNode nm⟩ :: rest), off⟩) (NodeTook K d off body.length)

/-- What is done with an item: the same, or a single call. -/
def ItemTook {α : Type} (K d off len : Nat) (r : Option (Range × α)) (g k : Nat) : Prop :=
  g ≤ k ∧ g + len ≤ len * d ∧ k ≤ K * (len - 1) + 1 + g ∧ ∀ x, r = some x → x.1 = ⟨off, len⟩

theorem NodeTook.item {α : Type} {K d off len : Nat} {r : Option (Range × α)} {g k : Nat}
    (h : NodeTook K d off len r g k) : ItemTook K (d + 1) off (len + 2) r g k := by
  obtain ⟨h₁, h₂, h₃, h₄⟩ := h
  refine ⟨h₁, ?_, ?_, h₄⟩
  · rw [Nat.mul_add, Nat.add_mul]; omega
  · show k ≤ K * (len + 1) + 1 + g
    omega

theorem ItemTo.len {d : Nat} {a : List Tok} (h : ItemTo d a) : a.length ≤ a.length * d := by
  obtain ⟨e, rfl⟩ : ∃ e, d = e + 1 := by cases h <;> exact ⟨_, rfl⟩
  exact Nat.le_mul_of_pos_right _ (by omega)

theorem Modest.item {α : Type} {K : Nat} {nm : Str} {f : Convert → CCM (Range × α)} (h : Modest K nm f) {d : Nat}
    {a : List Tok} (ha : ItemTo d a) (rest : List Tok) (off : Nat) :
    Spends (f ⟨a ++ rest, off⟩) (ItemTook K d off a.length) := by
  rcases ha.start nm with hs | ⟨e, r₁, r₂, body, rfl, rfl, hb⟩
  · refine (h.other _ (hs rest off)).mono ?_
    rintro r g k ⟨rfl, rfl, hk⟩
    have := ItemTo.len ha
    exact ⟨by omega, by omega, by omega, by simp⟩
  · have := h.node e r₁ r₂ body rest off hb
    simp only [List.cons_append, List.append_assoc, List.nil_append]
    refine this.mono ?_
    intro r g k h
    simpa using h.item

theorem modest_of {α : Type} {K : Nat} {nm : Str} {g : Convert → Convert → CCM (Range × α)}
    (h : ∀ d r₁ r₂ body rest off, NestedTo d body →
      Spends (g ⟨⟨r₁, .startNode nm⟩ :: (body ++ ⟨r₂, .endNode nm⟩ :: rest), off⟩
        ⟨body ++ ⟨r₂, .endNode nm⟩ :: rest, off + 1⟩) fun r g k => NodeTook K d off body.length r g (2 + k)) :
    Modest K nm fun c => do
      let r ← CCM.call (c.startNode nm)
      let c' ← Counted.upd c r
      g c c' where
  other := by
    intro c e
    refine Spends.option (fun _ => ⟨rfl, rfl, by omega⟩) ?_
    intro a ha
    rw [e] at ha; cases ha
  node := by
    intro d r₁ r₂ body rest off hb
    refine Spends.option (by simp [Convert.startNode]) ?_
    intro a ha
    simp [Convert.startNode] at ha
    subst ha
    refine Spends.upd (c := ⟨_, off⟩) (by simp) ?_
    refine (h d r₁ r₂ body rest off hb).mono ?_
    intro r g k h
    rw [← Nat.add_assoc]
    exact h

/-! ### Loop bodies -/

/-- What the body of a loop does with an item; `e` is for what is tried in vain. -/
def BodyTook {σ : Type} (K e d off len : Nat) (r : Option (Option (Range × σ))) (g k : Nat) : Prop :=
  ∃ x, r = some x ∧ (∀ y, x = some y → y.1 = ⟨off, len⟩) ∧ g ≤ k ∧ g + len ≤ len * d ∧ k ≤ K * (len - 1) + e + g

/-- A body of a loop. -/
def ModestBody {σ : Type} (K e : Nat) (B : Convert → σ → CCM (Option (Range × σ))) : Prop :=
  ∀ d a rest off s, ItemTo d a → Spends (B ⟨a ++ rest, off⟩ s) (BodyTook K e d off a.length)

/-- A body of a loop does nothing with a node `nm`. -/
def Passes {σ : Type} (nm : Str) (e : Nat) (B : Convert → σ → CCM (Option (Range × σ))) : Prop :=
  ∀ c s, c.startNode nm ≠ none → Spends (B c s) fun r g k => r = some none ∧ g = 0 ∧ k ≤ e

section
variable {α σ : Type} {K e : Nat} {nm nm' : Str} {B : Convert → σ → CCM (Option (Range × σ))}

theorem modest_noRead : ModestBody (σ := σ) K 0 fun _ _ => Counted.noRead := by
  intro d a rest off s ha
  have := ItemTo.len ha
  exact Spends.ret ⟨none, rfl, by simp, by omega, by omega, by omega⟩

theorem passes_noRead : Passes (σ := σ) nm 0 fun _ _ => Counted.noRead := by
  intro c s _
  exact Spends.ret ⟨rfl, rfl, by omega⟩

/-- A reader of a node, then others. -/
theorem modest_try {f : Convert → CCM (Range × α)} (hf : Modest K nm f) {put : σ → α → σ} (hB : ModestBody K e B)
    (hp : Passes nm e B) : ModestBody K (e + 1) fun c s => Counted.tryRead (f c) (put s) (B c s) := by
  intro d a rest off s ha
  by_cases hs : Convert.startNode ⟨a ++ rest, off⟩ nm = none
  · refine (hf.other _ hs).attempt.bind (by simp) ?_
    rintro x g k ⟨_, e, rfl, rfl, hk⟩
    cases e
    refine (hB d a rest off s ha).mono ?_
    rintro r g k' ⟨x, rfl, h₁, h₂, h₃, h₄⟩
    exact ⟨x, rfl, h₁, by omega, by omega, by omega⟩
  · refine (hf.item ha rest off).attempt.bind (by simp) ?_
    rintro x g k ⟨_, e, h₁, h₂, h₃, h₄⟩
    cases e
    cases x with
    | some x => exact Spends.ret ⟨_, rfl, by simpa using h₄ _ rfl, by omega, by omega, by omega⟩
    | none =>
      refine (hp _ s hs).mono ?_
      rintro r g' k' ⟨rfl, rfl, hk⟩
      exact ⟨_, rfl, by simp, by omega, by omega, by omega⟩

theorem passes_try {f : Convert → CCM (Range × α)} (hf : Modest K nm f) {put : σ → α → σ} (hne : nm' ≠ nm)
    (hp : Passes nm' e B) : Passes nm' (e + 1) fun c s => Counted.tryRead (f c) (put s) (B c s) := by
  intro c s hs
  refine (hf.other _ (startNode_ne hs hne)).attempt.bind (by simp) ?_
  rintro x g k ⟨_, e, rfl, rfl, hk⟩
  cases e
  refine (hp c s hs).mono ?_
  rintro r g k' ⟨rfl, rfl, hk'⟩
  exact ⟨rfl, rfl, by omega⟩

/-- A method that reads one token, then others. -/
theorem modest_call {f : Convert → Option (Range × α)} (hf : ∀ a rest off x, Item a → f ⟨a ++ rest, off⟩ = some x →
    x.1 = ⟨off, a.length⟩) {put : σ → α → σ} (hB : ModestBody K e B) :
    ModestBody K (e + 1) fun c s => Counted.tryRead (CCM.call (f c)) (put s) (B c s) := by
  intro d a rest off s ha
  refine (Spends.costs_option (P := fun r g k => r = f ⟨a ++ rest, off⟩ ∧ g = 0 ∧ k = 1) ⟨rfl, rfl, rfl⟩).attempt.bind
    (by simp) ?_
  rintro x g k ⟨_, e, rfl, rfl, rfl⟩
  cases e
  cases h : f ⟨a ++ rest, off⟩ with
  | some x =>
    have := ItemTo.len ha
    exact Spends.ret ⟨_, rfl, by simpa using hf a rest off x ha.item h, by omega, by omega, by omega⟩
  | none =>
    refine (hB d a rest off s ha).mono ?_
    rintro r g k' ⟨x, rfl, h₁, h₂, h₃, h₄⟩
    exact ⟨x, rfl, h₁, by omega, by omega, by omega⟩

theorem passes_call {f : Convert → Option (Range × α)} (hf : ∀ c, c.startNode nm ≠ none → f c = none)
    {put : σ → α → σ} (hp : Passes nm e B) :
    Passes nm (e + 1) fun c s => Counted.tryRead (CCM.call (f c)) (put s) (B c s) := by
  intro c s hs
  refine (Spends.costs_option (P := fun r g k => r = f c ∧ g = 0 ∧ k = 1) ⟨rfl, rfl, rfl⟩).attempt.bind (by simp) ?_
  rintro x g k ⟨_, e, rfl, rfl, rfl⟩
  cases e
  simp only [hf c hs]
  refine (hp c s hs).mono ?_
  rintro r g k' ⟨rfl, rfl, hk'⟩
  exact ⟨rfl, rfl, by omega⟩

theorem ModestBody.mono {e' : Nat} (hB : ModestBody K e B) (h : e ≤ e') : ModestBody K e' B := by
  intro d a rest off s ha
  refine (hB d a rest off s ha).mono ?_
  rintro r g k ⟨x, h₀, h₁, h₂, h₃, h₄⟩
  exact ⟨x, h₀, h₁, h₂, h₃, by omega⟩

/-- The loop does at most `K` for each token. -/
theorem ModestBody.loop (hB : ModestBody K e B) (he : e + 3 ≤ K) {d : Nat} {body : List Tok} (hb : NestedTo d body) :
    ∀ (n off : Nat) (s : σ) (r₂ : Range) (rest : List Tok),
    Spends (Counted.loop nm B n ⟨body ++ ⟨r₂, .endNode nm⟩ :: rest, off⟩ s) fun r g k =>
      g ≤ k ∧ g ≤ body.length * d ∧ k ≤ K * body.length + 2 + g ∧
      ∀ x, r = some x → x.1 = ⟨rest, off + body.length + 1⟩ := by
  refine NestedTo.rec_items hb ?_ ?_
  · intro n off s r₂ rest
    cases n with
    | zero => exact Spends.timeout
    | succ n =>
      simp only [Counted.loop, List.nil_append, Convert.endNode, if_true]
      refine Spends.ask ?_
      refine Spends.upd (c := ⟨_, off⟩) (by simp) (Spends.ret ?_)
      simp
  · intro a b ha hb ih n off s r₂ rest
    cases n with
    | zero => exact Spends.timeout
    | succ n =>
      have hend : Convert.endNode ⟨a ++ b ++ ⟨r₂, .endNode nm⟩ :: rest, off⟩ nm = none := by
        rw [List.append_assoc]; exact endNode_item ha.item _ _
      have hd : (a ++ b ++ ⟨r₂, .endNode nm⟩ :: rest).drop a.length = b ++ ⟨r₂, .endNode nm⟩ :: rest := by
        rw [List.append_assoc, List.drop_left]
      have hoff : off + a.length + b.length + 1 = off + (a ++ b).length + 1 := by
        simp [Nat.add_assoc]
      have hlen : (a ++ b).length = a.length + b.length := by simp
      have hm : K * (a.length + b.length) = K * (a.length - 1) + K + K * b.length := by
        obtain ⟨m, hm⟩ : ∃ m, a.length = m + 1 := ⟨a.length - 1, by have := ha.item.pos; omega⟩
        rw [hm, Nat.mul_add, Nat.mul_add]
        simp
      have hm' : (a.length + b.length) * d = a.length * d + b.length * d := Nat.add_mul ..
      simp only [Counted.loop]
      refine Spends.ask ?_
      simp only [hend]
      have hB' := hB d a (b ++ ⟨r₂, .endNode nm⟩ :: rest) off s ha
      rw [← List.append_assoc] at hB'
      refine hB'.bind (by rintro g k ⟨x, e, _⟩; cases e) ?_
      rintro x g k ⟨_, e, h₁, h₂, h₃, h₄⟩
      cases e
      cases x with
      | some y =>
        obtain ⟨r, s'⟩ := y
        have := h₁ _ rfl
        simp only at this
        subst this
        simp only
        refine Spends.upd (c := ⟨_, off⟩) (by simp) ?_
        simp only [hd]
        refine (ih n (off + a.length) s' r₂ rest).mono ?_
        rintro r g' k' ⟨i₁, i₂, i₃, i₄⟩
        rw [hlen, hm, hm', ← hlen]
        refine ⟨by omega, by omega, by omega, ?_⟩
        rw [← hoff]; exact i₄
      | none =>
        simp only
        rw [List.append_assoc]
        refine Spends.ignore ha.item ?_
        refine Spends.upd (c := ⟨_, off⟩) (by simp) ?_
        refine Spends.push ?_
        rw [← List.append_assoc]
        simp only [hd]
        refine (ih n (off + a.length) s r₂ rest).mono ?_
        rintro r g' k' ⟨i₁, i₂, i₃, i₄⟩
        rw [hlen, hm, hm', ← hlen]
        refine ⟨by omega, by omega, by omega, ?_⟩
        rw [← hoff]; exact i₄

/-- A reader that runs a loop; its end makes at most one call. -/
theorem modest_loop {α : Type} (hB : ModestBody K e B) (he : e + 5 ≤ K) {n : Nat} {s₀ : σ}
    {k : Convert → Convert × σ → CCM (Range × α)}
    (hk : ∀ start c s, start.off ≤ c.off → Spends (k start (c, s)) fun r g k => g = 0 ∧ k ≤ 1 ∧
      ∀ x, r = some x → x.1 = ⟨start.off, c.off - start.off⟩) :
    Modest K nm (fun c => do
      let r ← CCM.call (c.startNode nm)
      let c' ← Counted.upd c r
      let x ← Counted.loop nm B n c' s₀
      k c x) := by
  refine modest_of (g := fun start c => do
      let x ← Counted.loop nm B n c s₀
      k start x) ?_
  intro d r₁ r₂ body rest off hb
  have hm : K * (body.length + 1) = K * body.length + K := by rw [Nat.mul_add]; simp
  refine (hB.loop (by omega) hb n (off + 1) s₀ r₂ rest).bind ?_ ?_
  · rintro g k ⟨h₁, h₂, h₃, _⟩
    exact ⟨by omega, h₂, by omega, by simp⟩
  · rintro ⟨c, s⟩ g k ⟨h₁, h₂, h₃, h₄⟩
    have := h₄ _ rfl
    simp only at this
    subst this
    refine (hk _ _ s (by simp; omega)).mono ?_
    rintro r g' k' ⟨rfl, i₂, i₃⟩
    refine ⟨by omega, by omega, by omega, fun x hx => ?_⟩
    rw [i₃ x hx]
    simp; omega

/-- The end of a reader. -/
theorem spends_finish {start c : Convert} {f : Nat → Rule} (h : start.off ≤ c.off) :
    Spends (do let id ← CCM.nextId; return (← Counted.sub c start, f id)) fun r g k => g = 0 ∧ k ≤ 1 ∧
      ∀ x, r = some x → x.1 = ⟨start.off, c.off - start.off⟩ :=
  Spends.nextId fun _ => Spends.sub h (Spends.ret ⟨rfl, by omega, by simp⟩)

theorem spends_need {start c : Convert} {x : Option β} {f : β → CCM (Range × α)}
    (hf : ∀ a, Spends (f a) fun r g k => g = 0 ∧ k ≤ 1 ∧ ∀ x, r = some x → x.1 = ⟨start.off, c.off - start.off⟩) :
    Spends (CCM.ofOption x >>= f) fun r g k => g = 0 ∧ k ≤ 1 ∧
      ∀ x, r = some x → x.1 = ⟨start.off, c.off - start.off⟩ := by
  refine Spends.option (fun _ => ⟨rfl, by omega, by simp⟩) ?_
  intro a _
  simpa using hf a

end

/-! ### The readers, one by one -/

section
variable {α β σ : Type} {K : Nat} {strings : List (Str × Str)}

theorem metaString_reads {nm : Str} (a rest : List Tok) (off : Nat) (x : Range × Str) (ha : Item a)
    (h : Convert.metaString ⟨a ++ rest, off⟩ nm = some x) : x.1 = ⟨off, a.length⟩ :=
  metaString_item ha (v := x.2) h

theorem metaBool_reads {nm : Str} (a rest : List Tok) (off : Nat) (x : Range × Bool) (ha : Item a)
    (h : Convert.metaBool ⟨a ++ rest, off⟩ nm = some x) : x.1 = ⟨off, a.length⟩ := by
  obtain ⟨_, _, e, _, h'⟩ := pure_metaBool (L := a.length) nm a rest off ⟨0, []⟩ ha (Nat.le_refl _)
  simp only [CM.ofOption, h, Comp.ok.injEq, Prod.mk.injEq] at e
  exact h' _ e.1.symm

theorem metaF64_reads {nm : Str} (a rest : List Tok) (off : Nat) (x : Range × F64) (ha : Item a)
    (h : Convert.metaF64 ⟨a ++ rest, off⟩ nm = some x) : x.1 = ⟨off, a.length⟩ := by
  obtain ⟨_, _, e, _, h'⟩ := pure_metaF64 (L := a.length) nm a rest off ⟨0, []⟩ ha (Nat.le_refl _)
  simp only [CM.ofOption, h, Comp.ok.injEq, Prod.mk.injEq] at e
  exact h' _ e.1.symm

theorem metaBool_node {nm nm' : Str} (c : Convert) (h : c.startNode nm ≠ none) : c.metaBool nm' = none := by
  obtain ⟨data, off⟩ := c
  simp only [Convert.startNode, Convert.metaBool] at h ⊢
  split at h <;> simp_all

theorem metaString_node {nm nm' : Str} (c : Convert) (h : c.startNode nm ≠ none) : c.metaString nm' = none := by
  obtain ⟨data, off⟩ := c
  simp only [Convert.startNode, Convert.metaString] at h ⊢
  split at h <;> simp_all

theorem spends_setLoop {property : Str} {body : List Tok} (hb : Items body) :
    ∀ (n off : Nat) (text : Option Str) (r₂ : Range) (rest : List Tok),
    Spends (Counted.setLoop property strings n ⟨body ++ ⟨r₂, .endNode property⟩ :: rest, off⟩ text) fun r g k =>
      g = 0 ∧ k ≤ (strings.length + 4) * body.length + 2 ∧ ∀ x, r = some x → x.1 = ⟨rest, off + body.length + 1⟩ := by
  refine Items.rec_items hb ?_ ?_
  · intro n off text r₂ rest
    cases n with
    | zero => exact Spends.timeout
    | succ n =>
      simp only [Counted.setLoop, List.nil_append, Convert.endNode, if_true]
      refine Spends.ask ?_
      refine Spends.upd (c := ⟨_, off⟩) (by simp) (Spends.ret ?_)
      simp
  · intro a b ha hb ih n off text r₂ rest
    cases n with
    | zero => exact Spends.timeout
    | succ n =>
      have hend : Convert.endNode ⟨a ++ b ++ ⟨r₂, .endNode property⟩ :: rest, off⟩ property = none := by
        rw [List.append_assoc]; exact endNode_item ha _ _
      have hd : (a ++ b ++ ⟨r₂, .endNode property⟩ :: rest).drop a.length = b ++ ⟨r₂, .endNode property⟩ :: rest := by
        rw [List.append_assoc, List.drop_left]
      have hoff : off + a.length + b.length + 1 = off + (a ++ b).length + 1 := by
        simp [Nat.add_assoc]
      have hlen : (a ++ b).length = a.length + b.length := by simp
      have hm : (strings.length + 4) * (a.length + b.length) ≥
          strings.length + 4 + (strings.length + 4) * b.length := by
        obtain ⟨m, hm⟩ : ∃ m, a.length = m + 1 := ⟨a.length - 1, by have := ha.pos; omega⟩
        rw [hm, Nat.mul_add, Nat.mul_add]
        omega
      simp only [Counted.setLoop]
      refine Spends.ask ?_
      simp only [hend]
      refine Spends.ask ?_
      cases h : Convert.metaString ⟨a ++ b ++ ⟨r₂, .endNode property⟩ :: rest, off⟩ c!"ref" with
      | some x =>
        obtain ⟨r, val⟩ := x
        obtain rfl := metaString_item ha (rest := b ++ _) (by rw [← List.append_assoc]; exact h)
        refine Spends.upd (c := ⟨_, off⟩) (by simp) ?_
        refine Spends.find fun j hj => ?_
        simp only [hd]
        refine (ih n (off + a.length) _ r₂ rest).mono ?_
        rintro r g' k' ⟨i₁, i₂, i₃⟩
        rw [hlen]
        refine ⟨by omega, by omega, ?_⟩
        rw [← hlen, ← hoff]; exact i₃
      | none =>
        refine Spends.ask ?_
        cases h : Convert.metaString ⟨a ++ b ++ ⟨r₂, .endNode property⟩ :: rest, off⟩ c!"value" with
        | some x =>
          obtain ⟨r, val⟩ := x
          obtain rfl := metaString_item ha (rest := b ++ _) (by rw [← List.append_assoc]; exact h)
          refine Spends.upd (c := ⟨_, off⟩) (by simp) ?_
          simp only [hd]
          refine (ih n (off + a.length) _ r₂ rest).mono ?_
          rintro r g' k' ⟨i₁, i₂, i₃⟩
          rw [hlen]
          refine ⟨by omega, by omega, ?_⟩
          rw [← hlen, ← hoff]; exact i₃
        | none =>
          refine Spends.err ⟨rfl, ?_, by simp⟩
          rw [hlen]
          omega

variable (hK : strings.length + 20 ≤ K)
include hK

theorem modest_readSet (n : Nat) (property : Str) : Modest K property (Counted.readSet strings n property) := by
  refine modest_of (g := fun start c => do
    let (c, text) ← Counted.setLoop property strings n c none
    let text ← CCM.ofOption text
    return (← Counted.sub c start, text)) ?_
  intro d r₁ r₂ body rest off hb
  have hm : (strings.length + 4) * body.length ≤ K * body.length := Nat.mul_le_mul_right _ (by omega)
  have hm' : K * (body.length + 1) = K * body.length + K := by rw [Nat.mul_add]; simp
  refine (spends_setLoop hb.items n (off + 1) none r₂ rest).bind ?_ ?_
  · rintro g k ⟨rfl, h₂, _⟩
    exact ⟨by omega, by omega, by omega, by simp⟩
  · rintro ⟨c, text⟩ g k ⟨rfl, h₂, h₃⟩
    have := h₃ _ rfl
    simp only at this
    subst this
    refine Spends.option (fun _ => ⟨by omega, by omega, by omega, by simp⟩) ?_
    intro text _
    refine Spends.sub (by simp; omega) (Spends.ret ⟨by omega, by omega, by omega, ?_⟩)
    simp; omega

theorem modest_tag (n : Nat) : Modest K c!"tag" (Counted.readTag strings n) := by
  refine modest_loop (B := Counted.tagBody strings n) (e := 4) ?_ (by omega) ?_
  · exact modest_try (modest_readSet hK n _) (modest_try (modest_readSet hK n _)
      (modest_call metaBool_reads (modest_call metaBool_reads modest_noRead))
      (passes_call metaBool_node (passes_call metaBool_node passes_noRead)))
      (passes_try (modest_readSet hK n _) (by decide +kernel)
        (passes_call metaBool_node (passes_call metaBool_node passes_noRead)))
  · rintro start c ⟨_, _, _, _⟩ h
    exact spends_need fun _ => spends_finish h

theorem modest_untilBody (n : Nat) : ModestBody K 3 (Counted.untilBody strings n) :=
  modest_try (modest_readSet hK n _) (modest_call metaBool_reads
    (modest_try (modest_readSet hK n _) modest_noRead passes_noRead))
    (passes_call metaBool_node (passes_try (modest_readSet hK n _) (by decide +kernel) passes_noRead))

theorem modest_untilAnyOrWs (n : Nat) :
    Modest K c!"until_any_or_whitespace" (Counted.readUntilAnyOrWs strings n) := by
  refine modest_loop (modest_untilBody hK n) (by omega) ?_
  rintro start c ⟨_, _, _⟩ h
  exact spends_need fun _ => spends_finish h

theorem modest_untilAny (n : Nat) : Modest K c!"until_any" (Counted.readUntilAny strings n) := by
  refine modest_loop (modest_untilBody hK n) (by omega) ?_
  rintro start c ⟨_, _, _⟩ h
  exact spends_need fun _ => spends_finish h

theorem modest_text (n : Nat) : Modest K c!"text" (Counted.readText strings n) := by
  refine modest_loop (B := Counted.textBody strings n) (e := 2) ?_ (by omega) ?_
  · exact modest_call metaBool_reads (modest_try (modest_readSet hK n _) modest_noRead passes_noRead)
  · rintro start c ⟨_, _⟩ h
    exact spends_finish h

theorem modest_number (n : Nat) : Modest K c!"number" (Counted.readNumber strings n) := by
  refine modest_loop (B := Counted.numberBody strings n) (e := 2) ?_ (by omega) ?_
  · exact modest_try (modest_readSet hK n _) (modest_call metaBool_reads modest_noRead)
      (passes_call metaBool_node passes_noRead)
  · rintro start c ⟨_, _⟩ h
    exact spends_finish h

theorem modest_reference (n : Nat) : Modest K c!"reference" (Counted.readReference strings n) := by
  refine modest_loop (B := Counted.referenceBody strings n) (e := 2) ?_ (by omega) ?_
  · exact modest_call metaString_reads (modest_try (modest_readSet hK n _) modest_noRead passes_noRead)
  · rintro start c ⟨_, _⟩ h
    exact spends_need fun _ => spends_finish h

omit hK

variable {rr : Str → Convert → CCM (Range × Rule)} (hrr : ∀ p, Modest K p (rr p)) (hK' : 20 ≤ K)
include hrr hK'

theorem modest_sequence (n : Nat) : Modest K c!"sequence" (Counted.readSequence rr n) := by
  refine modest_loop (B := Counted.argsBody rr) (e := 1) ?_ (by omega) ?_
  · exact modest_try (hrr _) modest_noRead passes_noRead
  · intro start c _ h
    exact spends_finish h

theorem modest_select (n : Nat) : Modest K c!"select" (Counted.readSelect rr n) := by
  refine modest_loop (B := Counted.argsBody rr) (e := 1) ?_ (by omega) ?_
  · exact modest_try (hrr _) modest_noRead passes_noRead
  · intro start c _ h
    exact spends_finish h

theorem modest_repeat (n : Nat) : Modest K c!"repeat" (Counted.readRepeat rr n) := by
  refine modest_loop (B := Counted.repeatBody rr) (e := 2) ?_ (by omega) ?_
  · exact modest_try (hrr _) (modest_call metaBool_reads modest_noRead) (passes_call metaBool_node passes_noRead)
  · rintro start c ⟨_, _⟩ h
    exact spends_need fun _ => spends_need fun _ => spends_finish h

theorem modest_separatedBy (n : Nat) : Modest K c!"separated_by" (Counted.readSeparatedBy rr n) := by
  refine modest_loop (B := Counted.separatedBody rr) (e := 4) ?_ (by omega) ?_
  · exact modest_call metaBool_reads (modest_call metaBool_reads (modest_try (hrr _)
      (modest_try (hrr _) modest_noRead passes_noRead)
      (passes_try (hrr _) (by decide +kernel) passes_noRead)))
  · rintro start c ⟨_, _, _, _⟩ h
    exact spends_need fun _ => spends_need fun _ => spends_finish h

/-- Read one rule and the end of the node: `e` calls have been made before. -/
theorem spends_oneRule {nm : Str} {d e : Nat} {body : List Tok} (hb : NestedTo d body) (he : e ≤ 4) {start : Convert}
    {r₂ : Range} {rest : List Tok} {off : Nat} {f : Nat → Rule → Rule} (hoff : start.off ≤ off) :
    Spends (do
      let (r, rule) ← rr c!"rule" ⟨body ++ ⟨r₂, .endNode nm⟩ :: rest, off⟩
      let c ← Counted.upd ⟨body ++ ⟨r₂, .endNode nm⟩ :: rest, off⟩ r
      let r ← CCM.call (c.endNode nm)
      let c ← Counted.upd c r
      let id ← CCM.nextId
      return (← Counted.sub c start, f id rule)) fun r g k =>
      g ≤ e + k ∧ g ≤ body.length * d ∧ e + k ≤ K * (body.length + 1) + g ∧
        ∀ x, r = some x → x.1 = ⟨start.off, off + body.length + 1 - start.off⟩ := by
  have hm' : K * (body.length + 1) = K * body.length + K := by rw [Nat.mul_add]; simp
  rcases hb.cases with rfl | ⟨a, b, rfl, ha, hi'⟩
  · refine ((hrr _).other _ rfl).bind ?_ ?_
    · rintro g k ⟨_, rfl, hk⟩
      exact ⟨by omega, by omega, by omega, by simp⟩
    · rintro x g k ⟨e, _⟩
      cases e
  · rw [List.append_assoc]
    have hl : K * (a.length - 1) ≤ K * (a ++ b).length := Nat.mul_le_mul_left _ (by simp; omega)
    have hl' : a.length * d ≤ (a ++ b).length * d := Nat.mul_le_mul_right _ (by simp)
    refine ((hrr _).item ha _ off).bind ?_ ?_
    · rintro g k ⟨h₁, h₂, h₃, _⟩
      exact ⟨by omega, by omega, by omega, by simp⟩
    · rintro ⟨r, rule⟩ g k ⟨h₁, h₂, h₃, h₄⟩
      have := h₄ _ rfl
      simp only at this
      subst this
      simp only
      refine Spends.upd (c := ⟨_, off⟩) (by simp) ?_
      simp only [List.drop_left]
      rcases hi'.cases with rfl | ⟨a', b', rfl, ha', _⟩
      · refine Spends.option (by simp [Convert.endNode]) ?_
        intro r hr
        simp [Convert.endNode] at hr
        subst hr
        refine Spends.upd (c := ⟨_, off + a.length⟩) (by simp) ?_
        refine (spends_finish (by simp; omega)).mono ?_
        rintro r g' k' ⟨rfl, i₂, i₃⟩
        refine ⟨by omega, by omega, by omega, fun x hx => ?_⟩
        rw [i₃ x hx]
        simp
      · refine Spends.option (fun _ => ⟨by omega, by omega, by omega, by simp⟩) ?_
        intro r hr
        rw [List.append_assoc, endNode_item ha'.item] at hr
        cases hr

theorem modest_optional : Modest K c!"optional" (Counted.readOptional rr) := by
  refine modest_of ?_
  intro d r₁ r₂ body rest off hb
  refine (spends_oneRule hrr hK' (f := fun id rule => .optional rule id) hb (e := 2) (by omega) (by simp)).mono ?_
  rintro r g k ⟨h₁, h₂, h₃, h₄⟩
  refine ⟨h₁, h₂, h₃, fun x hx => ?_⟩
  rw [h₄ x hx]
  simp; omega

theorem modest_not : Modest K c!"not" (Counted.readNot rr) := by
  refine modest_of ?_
  intro d r₁ r₂ body rest off hb
  refine (spends_oneRule hrr hK' (f := fun id rule => .not rule id) hb (e := 2) (by omega) (by simp)).mono ?_
  rintro r g k ⟨h₁, h₂, h₃, h₄⟩
  refine ⟨h₁, h₂, h₃, fun x hx => ?_⟩
  rw [h₄ x hx]
  simp; omega

theorem modest_lines : Modest K c!"lines" (Counted.readLines rr) := by
  refine modest_of ?_
  intro d r₁ r₂ body rest off hb
  cases hm : Convert.metaBool ⟨body ++ ⟨r₂, .endNode c!"lines"⟩ :: rest, off + 1⟩ c!"indent" with
  | some x =>
    obtain ⟨r, v⟩ := x
    obtain ⟨t, body', rfl, hb', hr⟩ : ∃ t b, body = t :: b ∧ NestedTo d b ∧ r = ⟨off + 1, 1⟩ := by
      cases hb with
      | nil => simp [Convert.metaBool] at hm
      | @value d t b h hr =>
        refine ⟨t, b, rfl, hr, ?_⟩
        obtain ⟨r', d⟩ := t
        cases d <;> simp_all [Convert.metaBool]
      | node hb hr => simp [Convert.metaBool] at hm
    subst hr
    have hm₂ : K * (body'.length + 1 + 1) = K * (body'.length + 1) + K := by rw [Nat.mul_add]; simp
    have hm₃ : (body'.length + 1) * d = body'.length * d + d := by rw [Nat.add_mul]; simp
    refine Spends.bind (P := fun r g k => r = some (⟨body' ++ ⟨r₂, .endNode c!"lines"⟩ :: rest, off + 2⟩, v) ∧ g = 0 ∧
      k = 2) ?_ (by simp) ?_
    · simp only [Counted.readIndent]
      refine Spends.ask ?_
      simp only [hm]
      exact Spends.upd (c := ⟨_, off + 1⟩) (by simp) (Spends.ret ⟨rfl, rfl, rfl⟩)
    · rintro x g k ⟨e, rfl, rfl⟩
      cases e
      refine (spends_oneRule hrr hK' (f := fun id rule => .lines rule v id) hb' (e := 4) (by omega) (by simp)).mono ?_
      rintro r g k ⟨h₁, h₂, h₃, h₄⟩
      simp only [List.length_cons]
      refine ⟨by omega, by omega, by omega, fun x hx => ?_⟩
      rw [h₄ x hx]
      simp; omega
  | none =>
    refine Spends.bind (P := fun r g k => r = some (⟨body ++ ⟨r₂, .endNode c!"lines"⟩ :: rest, off + 1⟩, false) ∧ g = 0 ∧
      k = 1) ?_ (by simp) ?_
    · simp only [Counted.readIndent]
      refine Spends.ask ?_
      simp only [hm]
      exact Spends.ret ⟨rfl, rfl, rfl⟩
    · rintro x g k ⟨e, rfl, rfl⟩
      cases e
      refine (spends_oneRule hrr hK' (f := fun id rule => .lines rule false id) hb (e := 3) (by omega) (by simp)).mono ?_
      rintro r g k ⟨h₁, h₂, h₃, h₄⟩
      refine ⟨by omega, by omega, by omega, fun x hx => ?_⟩
      rw [h₄ x hx]
      simp; omega

end

theorem modest_whitespace {K : Nat} (hK : 20 ≤ K) : Modest K c!"whitespace" Counted.readWhitespace := by
  refine modest_of ?_
  intro d r₁ r₂ body rest off hb
  have hm' : K * (body.length + 1) = K * body.length + K := by rw [Nat.mul_add]; simp
  refine Spends.option (fun _ => ⟨by omega, by omega, by omega, by simp⟩) ?_
  rintro ⟨r, v⟩ hm
  obtain ⟨t, body', rfl, hb', hr⟩ : ∃ t b, body = t :: b ∧ NestedTo d b ∧ r = ⟨off + 1, 1⟩ := by
    cases hb with
    | nil => simp [Convert.metaBool] at hm
    | @value d t b h hr =>
      refine ⟨t, b, rfl, hr, ?_⟩
      obtain ⟨r', d⟩ := t
      cases d <;> simp_all [Convert.metaBool]
    | node hb hr => simp [Convert.metaBool] at hm
  subst hr
  refine Spends.upd (c := ⟨_, off + 1⟩) (by simp) ?_
  rcases hb'.cases with rfl | ⟨a', b', rfl, ha', _⟩
  · refine Spends.option (by simp [Convert.endNode]) ?_
    intro r hr
    simp [Convert.endNode] at hr
    subst hr
    refine Spends.upd (c := ⟨_, off + 2⟩) (by simp) ?_
    refine (spends_finish (by simp; omega)).mono ?_
    rintro r g' k' ⟨rfl, i₂, i₃⟩
    refine ⟨by omega, by omega, by omega, fun x hx => ?_⟩
    rw [i₃ x hx]
    simp; omega
  · refine Spends.option (fun _ => ⟨by omega, by omega, by omega, by simp⟩) ?_
    intro r hr
    simp [endNode_item ha'.item] at hr

/-! ### `read_rule` -/

theorem spends_firstRule_none {K : Nat} {c : Convert} {nm : Str} : ∀ (l : List (Str × (Convert → CCM (Range × Rule)))),
    (∀ p ∈ l, Modest K p.1 p.2) → (∀ p ∈ l, c.startNode p.1 = none) →
    Spends (Counted.firstRule (l.map fun p => p.2 c)) fun r g k => r = none ∧ g = 0 ∧ k ≤ l.length
  | [], _, _ => Spends.err ⟨rfl, rfl, by simp⟩
  | p :: l, hl, h => by
    refine ((hl p (by simp)).other c (h p (by simp))).attempt.bind (by simp) ?_
    rintro x g k ⟨_, e, rfl, rfl, hk⟩
    cases e
    refine (spends_firstRule_none (nm := nm) l (fun p hp => hl p (by simp [hp])) (fun p hp => h p (by simp [hp]))).mono ?_
    rintro r g k' ⟨rfl, rfl, hk'⟩
    exact ⟨rfl, rfl, by simp; omega⟩

theorem spends_firstRule {K d : Nat} {a rest : List Tok} {off : Nat} (ha : ItemTo d a) :
    ∀ (l : List (Str × (Convert → CCM (Range × Rule)))), (∀ p ∈ l, Modest K p.1 p.2) → (l.map (·.1)).Nodup →
    Spends (Counted.firstRule (l.map fun p => p.2 ⟨a ++ rest, off⟩)) fun r g k =>
      g ≤ k ∧ g + a.length ≤ a.length * d ∧ k ≤ K * (a.length - 1) + l.length + g ∧
      ∀ x, r = some x → x.1 = ⟨off, a.length⟩
  | [], _, _ => by
    have := ItemTo.len ha
    exact Spends.err ⟨by omega, by omega, by omega, by simp⟩
  | p :: l, hl, hd => by
    have hp := hl p (by simp)
    simp only [List.map_cons, List.nodup_cons] at hd
    by_cases hs : Convert.startNode ⟨a ++ rest, off⟩ p.1 = none
    · refine (hp.other _ hs).attempt.bind (by simp) ?_
      rintro x g k ⟨_, e, rfl, rfl, hk⟩
      cases e
      refine (spends_firstRule ha l (fun p hp => hl p (by simp [hp])) hd.2).mono ?_
      rintro r g k' ⟨h₁, h₂, h₃, h₄⟩
      exact ⟨by omega, by omega, by simp; omega, h₄⟩
    · refine (hp.item ha rest off).attempt.bind (by simp) ?_
      rintro x g k ⟨_, e, h₁, h₂, h₃, h₄⟩
      cases e
      cases x with
      | some x => exact Spends.ret ⟨by omega, by omega, by simp; omega, h₄⟩
      | none =>
        refine (spends_firstRule_none (nm := p.1) l (fun p hp => hl p (by simp [hp])) ?_).mono ?_
        · intro q hq
          refine startNode_ne hs ?_
          intro e
          exact hd.1 (List.mem_map.2 ⟨q, hq, e.symm⟩)
        · rintro r g' k' ⟨rfl, rfl, hk'⟩
          exact ⟨by omega, by omega, by simp; omega, by simp⟩

/-- The readers tried by `read_rule`, with the names of their nodes. -/
def countedReaders (strings : List (Str × Str)) (rr : Str → Convert → CCM (Range × Rule)) (n : Nat) :
    List (Str × (Convert → CCM (Range × Rule))) :=
  [(c!"sequence", Counted.readSequence rr n),
   (c!"until_any_or_whitespace", Counted.readUntilAnyOrWs strings n),
   (c!"until_any", Counted.readUntilAny strings n),
   (c!"tag", Counted.readTag strings n),
   (c!"whitespace", Counted.readWhitespace),
   (c!"text", Counted.readText strings n),
   (c!"number", Counted.readNumber strings n),
   (c!"reference", Counted.readReference strings n),
   (c!"select", Counted.readSelect rr n),
   (c!"optional", Counted.readOptional rr),
   (c!"not", Counted.readNot rr),
   (c!"separated_by", Counted.readSeparatedBy rr n),
   (c!"lines", Counted.readLines rr),
   (c!"repeat", Counted.readRepeat rr n)]

section
variable {K : Nat} {strings : List (Str × Str)} (hK : strings.length + 20 ≤ K)
include hK

theorem countedReaders_modest {rr : Str → Convert → CCM (Range × Rule)} (hrr : ∀ p, Modest K p (rr p)) (n : Nat) :
    ∀ p ∈ countedReaders strings rr n, Modest K p.1 p.2 := by
  have hK' : 20 ≤ K := by omega
  simp only [countedReaders, List.mem_cons, List.not_mem_nil, or_false]
  rintro p (rfl | rfl | rfl | rfl | rfl | rfl | rfl | rfl | rfl | rfl | rfl | rfl | rfl | rfl)
  · exact modest_sequence hrr hK' n
  · exact modest_untilAnyOrWs hK n
  · exact modest_untilAny hK n
  · exact modest_tag hK n
  · exact modest_whitespace hK'
  · exact modest_text hK n
  · exact modest_number hK n
  · exact modest_reference hK n
  · exact modest_select hrr hK' n
  · exact modest_optional hrr hK'
  · exact modest_not hrr hK'
  · exact modest_separatedBy hrr hK' n
  · exact modest_lines hrr hK'
  · exact modest_repeat hrr hK' n

theorem modest_ruleStep {rr : Str → Convert → CCM (Range × Rule)} (hrr : ∀ p, Modest K p (rr p)) (n : Nat)
    (property : Str) : Modest K property (Counted.readRuleStep strings rr n property) := by
  have hR := countedReaders_modest hK hrr n
  have hN : ((countedReaders strings rr n).map (·.1)).Nodup := by
    simp only [countedReaders, List.map_cons, List.map_nil]
    decide +kernel
  have hL : (countedReaders strings rr n).length = 14 := rfl
  refine modest_of (g := fun start c => do
    let (r, rule) ← Counted.firstRule ((countedReaders strings rr n).map fun p => p.2 c)
    let c ← Counted.upd c r
    let r ← CCM.call (c.endNode property)
    let c ← Counted.upd c r
    return (← Counted.sub c start, rule)) ?_
  intro d r₁ r₂ body rest off hb
  have hm' : K * (body.length + 1) = K * body.length + K := by rw [Nat.mul_add]; simp
  rcases hb.cases with rfl | ⟨a, b, rfl, ha, hi'⟩
  · refine (spends_firstRule_none (nm := property) _ hR fun _ _ => rfl).bind ?_ ?_
    · rintro g k ⟨_, rfl, hk⟩
      exact ⟨by omega, by omega, by omega, by simp⟩
    · rintro x g k ⟨e, _⟩
      cases e
  · rw [List.append_assoc]
    have hl : K * (a.length - 1) ≤ K * (a ++ b).length := Nat.mul_le_mul_left _ (by simp; omega)
    have hl' : a.length * d ≤ (a ++ b).length * d := Nat.mul_le_mul_right _ (by simp)
    have hl'' : K * (a.length - 1) + K ≤ K * (a ++ b).length := by
      have : K * (a.length - 1) + K = K * (a.length - 1 + 1) := by rw [Nat.mul_add]; simp
      rw [this]
      exact Nat.mul_le_mul_left _ (by have := ha.item.pos; simp; omega)
    refine (spends_firstRule ha _ hR hN).bind ?_ ?_
    · rintro g k ⟨h₁, h₂, h₃, _⟩
      exact ⟨by omega, by omega, by omega, by simp⟩
    · rintro ⟨r, rule⟩ g k ⟨h₁, h₂, h₃, h₄⟩
      have := h₄ _ rfl
      simp only at this
      subst this
      simp only
      refine Spends.upd (c := ⟨_, off + 1⟩) (by simp) ?_
      simp only [List.drop_left]
      rcases hi'.cases with rfl | ⟨a', b', rfl, ha', _⟩
      · refine Spends.option (by simp [Convert.endNode]) ?_
        intro r hr
        simp [Convert.endNode] at hr
        subst hr
        refine Spends.upd (c := ⟨_, off + 1 + a.length⟩) (by simp) ?_
        refine Spends.sub (by simp; omega) (Spends.ret ⟨by omega, by omega, by omega, ?_⟩)
        simp; omega
      · refine Spends.option (fun _ => ⟨by omega, by omega, by omega, by simp⟩) ?_
        intro r hr
        rw [List.append_assoc, endNode_item ha'.item] at hr
        cases hr

theorem modest_readRule : ∀ (n : Nat) (property : Str), Modest K property (Counted.readRule strings n property)
  | 0, _ => ⟨fun _ _ => Spends.timeout, fun _ _ _ _ _ _ _ => Spends.timeout⟩
  | n + 1, property => modest_ruleStep hK (modest_readRule n) n property

theorem modest_readNode (n : Nat) : Modest K c!"node" (Counted.readNode strings n) := by
  refine modest_loop (B := Counted.nodeBody strings n) (e := 3) ?_ (by omega) ?_
  · refine modest_call metaF64_reads (modest_call metaString_reads ?_)
    intro d a rest off s ha
    refine modest_try (put := fun s v => (s.1, s.2.1, some v)) (f := fun c => do
      CCM.setId (s.1.getD 0)
      Counted.readRule strings n c!"rule" c) (nm := c!"rule") ⟨?_, ?_⟩ modest_noRead passes_noRead d a rest off s ha
    · intro c h
      exact Spends.setId ((modest_readRule hK n _).other c h)
    · intro d r₁ r₂ body rest off hb
      exact Spends.setId ((modest_readRule hK n _).node d r₁ r₂ body rest off hb)
  · rintro start c ⟨_, _, _⟩ h
    refine spends_need fun _ => spends_need fun _ => ?_
    exact Spends.sub h (Spends.ret ⟨rfl, by omega, by simp⟩)

end

/-! ### Strings and the whole -/

theorem spends_stringLoop {body : List Tok} (hb : Items body) :
    ∀ (n off : Nat) (name text : Option Str) (r₂ : Range) (rest : List Tok),
    Spends (Counted.stringLoop n ⟨body ++ ⟨r₂, .endNode c!"string"⟩ :: rest, off⟩ name text) fun r g k =>
      g = 0 ∧ k ≤ 4 * body.length + 4 ∧ ∀ x, r = some x → x.1 = ⟨rest, off + body.length + 1⟩ := by
  refine Items.rec_items hb ?_ ?_
  · intro n off name text r₂ rest
    cases n with
    | zero => exact Spends.timeout
    | succ n =>
      simp only [Counted.stringLoop, List.nil_append, Convert.metaString, Convert.endNode, if_true]
      refine Spends.ask (Spends.ask (Spends.ask ?_))
      refine Spends.upd (c := ⟨_, off⟩) (by simp) (Spends.ret ?_)
      simp
  · intro a b ha hb ih n off name text r₂ rest
    cases n with
    | zero => exact Spends.timeout
    | succ n =>
      have hend : Convert.endNode ⟨a ++ b ++ ⟨r₂, .endNode c!"string"⟩ :: rest, off⟩ c!"string" = none := by
        rw [List.append_assoc]; exact endNode_item ha _ _
      have hd : (a ++ b ++ ⟨r₂, .endNode c!"string"⟩ :: rest).drop a.length =
          b ++ ⟨r₂, .endNode c!"string"⟩ :: rest := by
        rw [List.append_assoc, List.drop_left]
      have hoff : off + a.length + b.length + 1 = off + (a ++ b).length + 1 := by
        simp [Nat.add_assoc]
      have hlen : (a ++ b).length = a.length + b.length := by simp
      have hpos := ha.pos
      have done : ∀ (j : Nat) (name text : Option Str), j ≤ 4 →
          Spends (Counted.stringLoop n ⟨b ++ ⟨r₂, .endNode c!"string"⟩ :: rest, off + a.length⟩ name text) fun r g k =>
          g = 0 ∧ j + k ≤ 4 * (a ++ b).length + 4 ∧ ∀ x, r = some x → x.1 = ⟨rest, off + (a ++ b).length + 1⟩ := by
        intro j name text hj
        refine (ih n (off + a.length) name text r₂ rest).mono ?_
        rintro r g' k' ⟨i₁, i₂, i₃⟩
        rw [hlen]
        refine ⟨by omega, by omega, ?_⟩
        rw [← hlen, ← hoff]; exact i₃
      simp only [Counted.stringLoop]
      refine Spends.ask ?_
      cases h : Convert.metaString ⟨a ++ b ++ ⟨r₂, .endNode c!"string"⟩ :: rest, off⟩ c!"name" with
      | some x =>
        obtain ⟨r, val⟩ := x
        obtain rfl := metaString_item ha (rest := b ++ _) (by rw [← List.append_assoc]; exact h)
        refine Spends.upd (c := ⟨_, off⟩) (by simp) ?_
        simp only [hd, ← Nat.add_assoc]
        exact done (1 + 1) _ _ (by omega)
      | none =>
        refine Spends.ask ?_
        cases h : Convert.metaString ⟨a ++ b ++ ⟨r₂, .endNode c!"string"⟩ :: rest, off⟩ c!"text" with
        | some x =>
          obtain ⟨r, val⟩ := x
          obtain rfl := metaString_item ha (rest := b ++ _) (by rw [← List.append_assoc]; exact h)
          refine Spends.upd (c := ⟨_, off⟩) (by simp) ?_
          simp only [hd, ← Nat.add_assoc]
          exact done (1 + 1 + 1) _ _ (by omega)
        | none =>
          refine Spends.ask ?_
          simp only [hend]
          refine Spends.err ⟨rfl, ?_, by simp⟩
          rw [hlen]
          omega

theorem modest_readString (n : Nat) : Modest 20 c!"string" (Counted.readString n) := by
  refine modest_of (g := fun start c => do
    let (c, name, text) ← Counted.stringLoop n c none none
    let name ← CCM.ofOption name
    let text ← CCM.ofOption text
    return (← Counted.sub c start, name, text)) ?_
  intro d r₁ r₂ body rest off hb
  refine (spends_stringLoop hb.items n (off + 1) none none r₂ rest).bind ?_ ?_
  · rintro g k ⟨rfl, h₂, _⟩
    exact ⟨by omega, by omega, by omega, by simp⟩
  · rintro ⟨c, name, text⟩ g k ⟨rfl, h₂, h₃⟩
    have := h₃ _ rfl
    simp only at this
    subst this
    refine Spends.option (fun _ => ⟨by omega, by omega, by omega, by simp⟩) ?_
    intro name _
    refine Spends.option (fun _ => ⟨by omega, by omega, by omega, by simp⟩) ?_
    intro text _
    refine Spends.sub (by simp; omega) (Spends.ret ⟨by omega, by omega, by omega, ?_⟩)
    simp; omega

/-- `read_string` ignores nothing. -/
theorem readString_keeps (n : Nat) {d : Nat} {a : List Tok} (ha : ItemTo d a) (rest : List Tok) (off : Nat) :
    Spends (Counted.readString n ⟨a ++ rest, off⟩) fun r g k => g = 0 ∧ k ≤ 20 * (a.length - 1) + 1 ∧
      ∀ x, r = some x → x.1 = ⟨off, a.length⟩ := by
  rcases ha.start c!"string" with hs | ⟨e, r₁, r₂, body, rfl, rfl, hb⟩
  · refine ((modest_readString n).other _ (hs rest off)).mono ?_
    rintro r g k ⟨rfl, rfl, hk⟩
    exact ⟨rfl, by omega, by simp⟩
  · simp only [List.cons_append, List.append_assoc, List.nil_append]
    refine Spends.option (by simp [Convert.startNode]) ?_
    intro a ha
    simp [Convert.startNode] at ha
    subst ha
    refine Spends.upd (c := ⟨_, off⟩) (by simp) ?_
    refine (spends_stringLoop hb.items n (off + 1) none none r₂ rest).bind ?_ ?_
    · rintro g k ⟨rfl, h₂, _⟩
      exact ⟨rfl, by simp; omega, by simp⟩
    · rintro ⟨c, name, text⟩ g k ⟨rfl, h₂, h₃⟩
      have := h₃ _ rfl
      simp only at this
      subst this
      refine Spends.option (fun _ => ⟨rfl, by simp; omega, by simp⟩) ?_
      intro name _
      refine Spends.option (fun _ => ⟨rfl, by simp; omega, by simp⟩) ?_
      intro text _
      refine Spends.sub (by simp; omega) (Spends.ret ⟨rfl, by simp; omega, ?_⟩)
      simp; omega

theorem spends_stringsLoop (n : Nat) {d : Nat} : ∀ (k : Nat) {ts : List Tok}, NestedTo d ts → ∀ (off : Nat)
    (ss : List (Str × Str)), Spends (Counted.stringsLoop n k ⟨ts, off⟩ ss) fun r g j => g = 0 ∧
      ∃ x, r = some x ∧ ∃ a b, ts = a ++ b ∧ x.1 = ⟨b, off + a.length⟩ ∧ NestedTo d b ∧
        x.2.length ≤ ss.length + stringNodes a ∧
        (j ≤ 20 * a.length + 1 ∨ Convert.startNode x.1 c!"string" ≠ none ∧ j ≤ 20 * ts.length + 1)
  | 0, _, _, _, _ => Spends.timeout
  | k + 1, ts, hts, off, ss => by
    simp only [Counted.stringsLoop]
    rcases hts.cases with rfl | ⟨a, b, rfl, ha, hb⟩
    · refine ((modest_readString n).other _ rfl).attempt.bind (by simp) ?_
      rintro x g j ⟨_, e, rfl, rfl, hj⟩
      cases e
      refine Spends.ret ⟨rfl, _, rfl, [], [], rfl, rfl, .nil, by simp, .inl ?_⟩
      simp; omega
    · by_cases hs : Convert.startNode ⟨a ++ b, off⟩ c!"string" = none
      · refine ((modest_readString n).other _ hs).attempt.bind (by simp) ?_
        rintro x g j ⟨_, e, rfl, rfl, hj⟩
        cases e
        refine Spends.ret ⟨rfl, _, rfl, [], a ++ b, rfl, rfl, hts, by simp, .inl ?_⟩
        simp; omega
      · refine (readString_keeps n ha b off).attempt.bind (by simp) ?_
        rintro x g j ⟨_, e, rfl, hj, hx⟩
        cases e
        have hpos := ha.item.pos
        cases x with
        | none =>
          refine Spends.ret ⟨rfl, _, rfl, [], a ++ b, rfl, rfl, hts, by simp, .inr ⟨hs, ?_⟩⟩
          simp; omega
        | some x =>
          obtain ⟨r, val⟩ := x
          have := hx _ rfl
          simp only at this
          subst this
          simp only
          refine Spends.upd (c := ⟨a ++ b, off⟩) (by simp) ?_
          simp only [List.drop_left]
          refine (spends_stringsLoop n k hb (off + a.length) (ss ++ [val])).mono ?_
          rintro r g j' ⟨rfl, ⟨c, ss'⟩, rfl, a', b', rfl, h₁, h₂, h₃, h₄⟩
          simp only at h₁ h₃ h₄
          subst h₁
          have hn : 1 ≤ stringNodes a := by
            rcases ha.start c!"string" with h | ⟨e, r₁, r₂, body, _, rfl, _⟩
            · exact absurd (h _ _) hs
            · simp [stringNodes, isStringNode]
          refine ⟨rfl, _, rfl, a ++ a', b', by simp, by simp [Nat.add_assoc], h₂, ?_, ?_⟩
          · simp only [stringNodes, List.countP_append] at hn h₃ ⊢
            simp at h₃
            omega
          · simp only [List.length_append, Nat.add_assoc] at h₄ ⊢
            rcases h₄ with h₄ | ⟨h₄, h₅⟩
            · exact .inl (by omega)
            · exact .inr ⟨h₄, by omega⟩

theorem spends_nodesLoop {K : Nat} {strings : List (Str × Str)} (hK : strings.length + 20 ≤ K) (n : Nat) {d : Nat} :
    ∀ (k : Nat) {ts : List Tok}, NestedTo d ts → ∀ (off : Nat) (syn : Syntax),
    Spends (Counted.nodesLoop strings n k ⟨ts, off⟩ syn) fun _ g j => g ≤ j ∧ g ≤ ts.length * d ∧
      j ≤ K * ts.length + 2 + g
  | 0, _, _, _, _ => Spends.timeout
  | k + 1, ts, hts, off, syn => by
    have last : ∀ (j g : Nat) (c : Convert), g ≤ j → g ≤ ts.length * d → j ≤ K * ts.length + 1 + g →
        Spends (do
          let left ← CCM.ask c.remaining
          if 0 < left then CCM.err else return syn) fun _ g' j' => g + g' ≤ j + j' ∧ g + g' ≤ ts.length * d ∧
            j + j' ≤ K * ts.length + 2 + (g + g') := by
      intro j g c h₁ h₂ h₃
      refine Spends.ask ?_
      split
      · exact Spends.err ⟨by omega, by omega, by omega⟩
      · exact Spends.ret ⟨by omega, by omega, by omega⟩
    simp only [Counted.nodesLoop]
    rcases hts.cases with rfl | ⟨a, b, rfl, ha, hb⟩
    · refine ((modest_readNode hK n).other _ rfl).attempt.bind (by simp) ?_
      rintro x g j ⟨_, e, rfl, rfl, hj⟩
      cases e
      exact last j 0 _ (by omega) (by omega) (by omega)
    · refine ((modest_readNode hK n).item ha b off).attempt.bind (by simp) ?_
      rintro x g j ⟨_, e, h₁, h₂, h₃, h₄⟩
      cases e
      have hl : K * (a.length - 1) + K + K * b.length = K * (a ++ b).length := by
        obtain ⟨m, hm⟩ : ∃ m, a.length = m + 1 := ⟨a.length - 1, by have := ha.item.pos; omega⟩
        rw [List.length_append, hm, Nat.mul_add, Nat.mul_add]
        simp
      have hl' : a.length * d + b.length * d = (a ++ b).length * d := by rw [List.length_append, Nat.add_mul]
      cases x with
      | none => exact last j g _ (by omega) (by omega) (by omega)
      | some x =>
        obtain ⟨r, val⟩ := x
        have := h₄ _ rfl
        simp only at this
        subst this
        simp only
        refine Spends.upd (c := ⟨a ++ b, off⟩) (by simp) ?_
        simp only [List.drop_left]
        refine (spends_nodesLoop hK n k hb (off + a.length) _).mono ?_
        rintro r g' j' ⟨i₁, i₂, i₃⟩
        exact ⟨by omega, by omega, by omega⟩

theorem spends_convertM (n : Nat) {d : Nat} {ts : List Tok} (hts : NestedTo d ts) :
    Spends (Counted.convertM n ts) fun _ g j => g ≤ j ∧ g ≤ ts.length * d ∧
      j ≤ (stringNodes ts + 20) * ts.length + 3 + g := by
  simp only [Counted.convertM]
  refine (spends_stringsLoop n n hts 0 []).bind (by rintro g k ⟨_, x, e, _⟩; cases e) ?_
  rintro x g k ⟨rfl, _, e, a, b, rfl, h₁, h₂, h₃, h₄⟩
  cases e
  obtain ⟨c, strings⟩ := x
  simp only at h₁ h₃ h₄
  subst h₁
  have hS : strings.length + 20 ≤ stringNodes (a ++ b) + 20 := by
    simp only [stringNodes, List.countP_append, List.length_nil] at h₃ ⊢
    omega
  have hm : (stringNodes (a ++ b) + 20) * (a ++ b).length =
      (stringNodes (a ++ b) + 20) * a.length + (stringNodes (a ++ b) + 20) * b.length := by
    rw [List.length_append, Nat.mul_add]
  have hm' : (a ++ b).length * d = a.length * d + b.length * d := by rw [List.length_append, Nat.add_mul]
  have hm₂ : 20 * a.length ≤ (stringNodes (a ++ b) + 20) * a.length := Nat.mul_le_mul_right _ (by omega)
  have hm₃ : 20 * (a ++ b).length ≤ (stringNodes (a ++ b) + 20) * (a ++ b).length := Nat.mul_le_mul_right _ (by omega)
  rcases h₄ with h₄ | ⟨hs, h₄⟩
  · refine (spends_nodesLoop hS n n h₂ _ _).bind ?_ ?_
    · rintro g j ⟨i₁, i₂, i₃⟩
      exact ⟨by omega, by omega, by omega⟩
    · rintro syn g j ⟨i₁, i₂, i₃⟩
      exact Spends.ret ⟨by omega, by omega, by omega⟩
  · cases n with
    | zero => exact (Spends.timeout (P := fun _ _ _ => False)).bind (by simp) (by simp)
    | succ n =>
      simp only [Counted.nodesLoop]
      refine Spends.bind (P := fun _ g j => g = 0 ∧ j ≤ 2) ?_ ?_ ?_
      · refine ((modest_readNode hS (n + 1)).other _ (startNode_ne hs (by decide +kernel))).attempt.bind (by simp) ?_
        rintro x g j ⟨_, e, rfl, rfl, hj⟩
        cases e
        refine Spends.ask ?_
        split
        · exact Spends.err ⟨by omega, by omega⟩
        · exact Spends.ret ⟨by omega, by omega⟩
      · rintro g j ⟨rfl, hj⟩
        exact ⟨by omega, by omega, by omega⟩
      · rintro syn g j ⟨rfl, hj⟩
        exact Spends.ret ⟨by omega, by omega, by omega⟩

end Verif
