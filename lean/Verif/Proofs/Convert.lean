import Verif.Model.Convert
import Verif.Proofs.Items
/-
The readers of `convert` return on well nested data.
-/
namespace Verif
open Spec CM Convert

/-- The reader returns, with a result and a state that satisfy `P`. -/
def Ret {α : Type} (m : CM α) (st : CSt) (P : Option α → CSt → Prop) : Prop :=
  ∃ r st', m st = .ok (r, st') ∧ P r st'

section
variable {α β : Type} {st : CSt} {P : Option β → CSt → Prop}

theorem Ret.mono {m : CM β} {Q : Option β → CSt → Prop} (h : Ret m st Q)
    (hq : ∀ r st', Q r st' → P r st') : Ret m st P := by
  obtain ⟨r, st', e, h⟩ := h
  exact ⟨r, st', e, hq _ _ h⟩

theorem ret_bind {m : CM α} {f : α → CM β} {Q : Option α → CSt → Prop} (h : Ret m st Q)
    (hn : ∀ st', Q none st' → P none st') (hs : ∀ a st', Q (some a) st' → Ret (f a) st' P) :
    Ret (m >>= f) st P := by
  obtain ⟨r, st', e, h⟩ := h
  cases r with
  | none => exact ⟨none, st', by simp [Bind.bind, CM.bind, e], hn _ h⟩
  | some a =>
    obtain ⟨r, st'', e', h'⟩ := hs a st' h
    exact ⟨r, st'', by simp only [Bind.bind, CM.bind, e]; exact e', h'⟩

theorem ret_pure {a : β} (h : P (some a) st) : Ret (Pure.pure a) st P := ⟨_, _, rfl, h⟩

theorem bind_some {m : CM α} {f : α → CM β} {a : α} {st' : CSt} (h : m st = .ok (some a, st')) :
    (m >>= f) st = f a st' := by
  simp [Bind.bind, CM.bind, h]

theorem bind_none {m : CM α} {f : α → CM β} {st' : CSt} (h : m st = .ok (none, st')) :
    (m >>= f) st = .ok (none, st') := by
  simp [Bind.bind, CM.bind, h]

theorem ret_bind_eq {m : CM α} {f : α → CM β} {a : α} {st' : CSt} (h : m st = .ok (some a, st'))
    (hr : Ret (f a) st' P) : Ret (m >>= f) st P := by
  obtain ⟨r, st'', e, h'⟩ := hr
  exact ⟨r, st'', by rw [bind_some h]; exact e, h'⟩

theorem ret_ofOption {x : Option α} {f : α → CM β} (hn : x = none → P none st)
    (hs : ∀ a, x = some a → Ret (f a) st P) : Ret (ofOption x >>= f) st P := by
  cases x with
  | none => exact ⟨none, st, rfl, hn rfl⟩
  | some a => exact ret_bind_eq (st' := st) rfl (hs a rfl)

theorem ret_attempt {m : CM α} {f : Option α → CM β} {Q : Option α → CSt → Prop} (h : Ret m st Q)
    (hs : ∀ a st', Q a st' → Ret (f a) st' P) : Ret (attempt m >>= f) st P := by
  obtain ⟨r, st', e, h⟩ := h
  exact ret_bind_eq (a := r) (st' := st') (by simp [attempt, e]) (hs _ _ h)

theorem ret_nextId {f : Nat → CM β} (hb : st.id + 1 < 2 ^ 64)
    (hs : Ret (f (st.id + 1)) { st with id := st.id + 1 } P) : Ret (nextId >>= f) st P :=
  ret_bind_eq (a := st.id + 1) (st' := { st with id := st.id + 1 }) (by simp [nextId, hb]) hs

end

theorem upd_eq {c : Convert} {k : Nat} {st : CSt} (h : k ≤ c.data.length) :
    c.upd ⟨c.off, k⟩ st = .ok (some ⟨c.data.drop k, c.off + k⟩, st) := by
  have : ¬ c.data.length < k := by omega
  have h' : ¬ c.off + k < c.off := by omega
  simp [upd, update, Range.next, lift, this, h']

theorem sub_eq {c start : Convert} {st : CSt} (h : start.off ≤ c.off) :
    c.sub start st = .ok (some ⟨start.off, c.off - start.off⟩, st) := by
  have : ¬ c.off < start.off := by omega
  simp [sub, subtract, lift, this]

/-! ### `ignore` -/

theorem ignoreLoop_items {ts : List Tok} (h : Items ts) : ∀ (rest : List Tok) (acc len : Nat),
    ignoreLoop (ts ++ rest) (acc + 1) len = ignoreLoop rest (acc + 1) (len + ts.length) := by
  induction h with
  | nil => intros; rfl
  | @value t rest h _ ih =>
    intro rest' acc len
    obtain ⟨r, d⟩ := t
    cases d <;> simp_all [ignoreLoop, IsNode] <;> congr 1 <;> omega
  | node _ _ ih₁ ih₂ =>
    intro rest' acc len
    simp only [List.cons_append, List.append_assoc, ignoreLoop, ih₁]
    rw [if_neg (by omega), if_neg (by omega)]
    simp only [Nat.add_sub_cancel, ih₂]
    congr 1; simp; omega

theorem ignore_item {a rest : List Tok} (h : Item a) (off : Nat) :
    ignore ⟨a ++ rest, off⟩ = .ok ⟨off, a.length⟩ := by
  cases h with
  | @value t h =>
    obtain ⟨r, d⟩ := t
    cases d <;> simp_all [ignore, ignoreLoop, IsNode, Bind.bind, Comp.bind, Pure.pure]
  | node h =>
    simp only [ignore, List.cons_append, List.append_assoc, ignoreLoop, ignoreLoop_items h]
    simp [Bind.bind, Comp.bind, Pure.pure, Nat.add_comm]

/-! ### The loop -/

theorem endNode_item {a rest : List Tok} (h : Item a) (off : Nat) (nm : Str) :
    endNode ⟨a ++ rest, off⟩ nm = none := by
  obtain ⟨⟨r, d⟩, ts, rfl, h⟩ := h.head
  cases d <;> simp_all [endNode]

/-- The loop returns at the end of the node.  `I` is kept: it speaks about the number of tokens
left in the node, the variables and the state. -/
theorem loop_ret {σ : Type} {nm : Str} {B : Convert → σ → CM (Option (Range × σ))}
    {L : Nat} {Q : Tok → Prop} {I : Nat → σ → CSt → Prop}
    (hB : ∀ a rest off s st k, Item a → a.length ≤ L → (∀ t ∈ a, Q t) → I (a.length + k) s st →
      Ret (B ⟨a ++ rest, off⟩ s) st fun r st' => ∃ x, r = some x ∧ (x = none → I k s st') ∧
        ∀ y, x = some y → y.1 = ⟨off, a.length⟩ ∧ I k y.2 st')
    (hI : ∀ k s st r, I k s st → I k s { st with ignored := st.ignored ++ [r] }) :
    ∀ {body : List Tok}, Items body → body.length ≤ L → (∀ t ∈ body, Q t) →
    ∀ (n off : Nat) (s : σ) (st : CSt) (e : Range) (rest : List Tok) (k : Nat), body.length < n →
    I (body.length + k) s st →
    Ret (loop nm B n ⟨body ++ ⟨e, .endNode nm⟩ :: rest, off⟩ s) st fun r st' =>
      ∃ s', r = some (⟨rest, off + body.length + 1⟩, s') ∧ I k s' st' := by
  intro body hb
  refine Items.rec_items hb ?_ ?_
  · intro _ _ n off s st e rest k hn hI
    obtain ⟨n, rfl⟩ : ∃ m, n = m + 1 := ⟨n - 1, by simp at hn; omega⟩
    simp only [loop, List.nil_append, endNode, if_true]
    refine ret_bind_eq (upd_eq (by simp)) (ret_pure ?_)
    simpa using hI
  · intro a b ha hb ih hl hq n off s st e rest k hn hi
    have hp := ha.pos
    obtain ⟨n, rfl⟩ : ∃ m, n = m + 1 := ⟨n - 1, by simp at hn; omega⟩
    simp only [List.length_append] at hl hn
    have he : endNode ⟨a ++ b ++ ⟨e, .endNode nm⟩ :: rest, off⟩ nm = none := by
      rw [List.append_assoc]; exact endNode_item ha _ _
    have hd : (a ++ b ++ ⟨e, .endNode nm⟩ :: rest).drop a.length = b ++ ⟨e, .endNode nm⟩ :: rest := by
      rw [List.append_assoc, List.drop_left]
    simp only [loop, he]
    have hB' := hB a (b ++ ⟨e, .endNode nm⟩ :: rest) off s st (b.length + k) ha (by omega)
      (fun t ht => hq t (by simp [ht])) (by simpa [Nat.add_assoc] using hi)
    rw [← List.append_assoc] at hB'
    have ih' := fun s st => ih (by omega) (fun t ht => hq t (by simp [ht])) n (off + a.length) s st e rest k
      (by omega)
    have hoff : off + a.length + b.length + 1 = off + (a ++ b).length + 1 := by
      simp [Nat.add_assoc]
    refine ret_bind hB' (by simp) ?_
    rintro x st' ⟨x', hx, hnone, hsome⟩
    cases hx
    cases x with
    | none =>
      simp only
      refine ret_bind_eq (a := ⟨off, a.length⟩) (st' := st') ?_ ?_
      · rw [List.append_assoc, ignore_item ha]; rfl
      · refine ret_bind_eq (upd_eq (by simp)) ?_
        refine ret_bind_eq (a := ()) (st' := { st' with ignored := st'.ignored ++ [⟨off, a.length⟩] })
          rfl ?_
        simp only [hd]
        rw [← hoff]
        exact ih' s _ (hI _ _ _ _ (hnone rfl))
    | some y =>
      obtain ⟨r, s'⟩ := y
      obtain ⟨h₁, h₂⟩ := hsome _ rfl
      simp only at h₁
      subst h₁
      simp only
      refine ret_bind_eq (upd_eq (by simp)) ?_
      simp only [hd]
      rw [← hoff]
      exact ih' s' _ h₂

/-! ### Readers -/

/-- The reader with name `nm` returns on a node and leaves the rest alone; data up to length `L`. -/
structure Reader {α : Type} (L : Nat) (nm : Str) (f : Convert → CM (Range × α)) : Prop where
  other : ∀ c st, c.startNode nm = none → f c st = .ok (none, st)
  node : ∀ r₁ r₂ body rest off st, Items body → body.length + 2 ≤ L →
    st.id + body.length + 2 < 2 ^ 64 →
    Ret (f ⟨⟨r₁, .startNode nm⟩ :: (body ++ ⟨r₂, .endNode nm⟩ :: rest), off⟩) st fun r st' =>
      st'.id ≤ st.id + body.length + 2 ∧ ∀ x, r = some x → x.1 = ⟨off, body.length + 2⟩

/-- What a reader leaves behind an item. -/
def Read {α : Type} (off len : Nat) (Q : CSt → Prop) (r : Option (Range × α)) (st : CSt) : Prop :=
  Q st ∧ ∀ x, r = some x → x.1 = ⟨off, len⟩

/-- A reader that changes nothing. -/
def PureReader {α : Type} (L : Nat) (f : Convert → CM (Range × α)) : Prop :=
  ∀ a rest off st, Item a → a.length ≤ L → Ret (f ⟨a ++ rest, off⟩) st (Read off a.length (· = st))

theorem Item.start {a : List Tok} (h : Item a) (nm : Str) :
    (∀ rest off, startNode ⟨a ++ rest, off⟩ nm = none) ∨
    ∃ r₁ r₂ body, a = ⟨r₁, .startNode nm⟩ :: (body ++ [⟨r₂, .endNode nm⟩]) ∧ Items body := by
  cases h with
  | @value t h =>
    obtain ⟨r, d⟩ := t
    left; intros; cases d <;> simp_all [startNode, IsNode]
  | @node r₁ r₂ name body h =>
    by_cases e : name = nm
    · subst e; exact .inr ⟨r₁, r₂, body, by simp, h⟩
    · left; intros; simp [startNode, e]

theorem Reader.item {α : Type} {L : Nat} {nm : Str} {f : Convert → CM (Range × α)}
    (h : Reader L nm f) {a : List Tok} (ha : Item a) (rest : List Tok) (off : Nat) (st : CSt)
    (hl : a.length ≤ L) (hb : st.id + a.length < 2 ^ 64) :
    Ret (f ⟨a ++ rest, off⟩) st (Read off a.length fun st' => st'.id ≤ st.id + a.length) := by
  rcases Item.start ha nm with hs | ⟨r₁, r₂, body, rfl, hi⟩
  · exact ⟨_, _, h.other _ _ (hs rest off), by simp, by simp⟩
  · have := h.node r₁ r₂ body rest off st hi (by simpa using hl) (by simp at hb; omega)
    simp only [List.cons_append, List.append_assoc, List.nil_append]
    refine this.mono ?_
    rintro r st' ⟨h₁, h₂⟩
    exact ⟨by simpa [Nat.add_assoc] using h₁, by simpa [Nat.add_assoc] using h₂⟩

theorem Reader.no_item {α : Type} {L : Nat} {nm : Str} {f : Convert → CM (Range × α)}
    (h : Reader L nm f) (r : Range) (n : Str) (rest : List Tok) (off : Nat) (st : CSt) :
    f ⟨⟨r, .endNode n⟩ :: rest, off⟩ st = .ok (none, st) := h.other _ _ rfl

theorem reader_of {α : Type} {L : Nat} {nm : Str} {g : Convert → Convert → CM (Range × α)}
    (h : ∀ r₁ r₂ body rest off st, Items body → body.length + 2 ≤ L →
      st.id + body.length + 2 < 2 ^ 64 →
      Ret (g ⟨⟨r₁, .startNode nm⟩ :: (body ++ ⟨r₂, .endNode nm⟩ :: rest), off⟩
        ⟨body ++ ⟨r₂, .endNode nm⟩ :: rest, off + 1⟩) st fun r st' =>
      st'.id ≤ st.id + body.length + 2 ∧ ∀ x, r = some x → x.1 = ⟨off, body.length + 2⟩) :
    Reader L nm fun c => do
      let r ← ofOption (c.startNode nm)
      let c' ← c.upd r
      g c c' where
  other := by
    intro c st e
    simp only [e]
    exact bind_none rfl
  node := by
    intro r₁ r₂ body rest off st hi hl hb
    refine ret_ofOption (by simp [startNode]) ?_
    intro a ha
    simp [startNode] at ha
    subst ha
    exact ret_bind_eq (upd_eq (by simp)) (h r₁ r₂ body rest off st hi hl hb)

/-! ### The loop bodies -/

/-- What a loop body leaves behind an item. -/
def Body {σ : Type} (off len : Nat) (P₀ : CSt → Prop) (P : σ → CSt → Prop)
    (r : Option (Option (Range × σ))) (st : CSt) : Prop :=
  ∃ x, r = some x ∧ (x = none → P₀ st) ∧ ∀ y, x = some y → y.1 = ⟨off, len⟩ ∧ P y.2 st

section
variable {α σ : Type} {off len : Nat} {P₀ : CSt → Prop} {P : σ → CSt → Prop} {st : CSt}

theorem ret_noRead (h : P₀ st) : Ret noRead st (Body (σ := σ) off len P₀ P) :=
  ret_pure ⟨none, rfl, fun _ => h, by simp⟩

theorem ret_tryRead {m : CM (Range × α)} {put : α → σ} {other : CM (Option (Range × σ))}
    {Q : CSt → Prop} (h : Ret m st (Read off len Q)) (hp : ∀ v st', Q st' → P (put v) st')
    (ho : ∀ st', Q st' → Ret other st' (Body off len P₀ P)) :
    Ret (tryRead m put other) st (Body off len P₀ P) := by
  refine ret_attempt h ?_
  rintro a st' ⟨h₁, h₂⟩
  cases a with
  | none => exact ho _ h₁
  | some a => exact ret_pure ⟨_, rfl, by simp, by simpa using ⟨h₂ _ rfl, hp _ _ h₁⟩⟩

end

theorem pure_metaBool {L : Nat} (nm : Str) :
    PureReader L fun c => ofOption (c.metaBool nm) := by
  intro a rest off st ha hl
  refine ⟨_, _, rfl, rfl, ?_⟩
  rintro ⟨r, v⟩ e
  cases ha with
  | @value t h =>
    obtain ⟨r', d⟩ := t
    cases d <;> simp_all [metaBool]
  | node h => simp [metaBool] at e

theorem pure_metaString {L : Nat} (nm : Str) :
    PureReader L fun c => ofOption (c.metaString nm) := by
  intro a rest off st ha hl
  refine ⟨_, _, rfl, rfl, ?_⟩
  rintro ⟨r, v⟩ e
  cases ha with
  | @value t h =>
    obtain ⟨r', d⟩ := t
    cases d <;> simp_all [metaString]
  | node h => simp [metaString] at e

theorem pure_metaF64 {L : Nat} (nm : Str) :
    PureReader L fun c => ofOption (c.metaF64 nm) := by
  intro a rest off st ha hl
  refine ⟨_, _, rfl, rfl, ?_⟩
  rintro ⟨r, v⟩ e
  cases ha with
  | @value t h =>
    obtain ⟨r', d⟩ := t
    cases d <;> simp_all [metaF64]
  | node h => simp [metaF64] at e

theorem metaString_item {a rest : List Tok} (ha : Item a) {off : Nat} {nm : Str} {r : Range} {v : Str}
    (h : metaString ⟨a ++ rest, off⟩ nm = some (r, v)) : r = ⟨off, a.length⟩ := by
  obtain ⟨_, _, e, _, h'⟩ := pure_metaString (L := a.length) nm a rest off ⟨0, []⟩ ha (Nat.le_refl _)
  simp only [ofOption, h, Comp.ok.injEq, Prod.mk.injEq] at e
  exact h' _ e.1.symm

theorem setLoop_ret {property : Str} {strings : List (Str × Str)} {body : List Tok}
    (hb : Items body) : ∀ (n off : Nat) (text : Option Str) (st : CSt) (e : Range) (rest : List Tok),
    body.length < n →
    Ret (setLoop property strings n ⟨body ++ ⟨e, .endNode property⟩ :: rest, off⟩ text) st
      fun r st' => st' = st ∧ ∀ x, r = some x → x.1 = ⟨rest, off + body.length + 1⟩ := by
  refine Items.rec_items hb ?_ ?_
  · intro n off text st e rest hn
    obtain ⟨n, rfl⟩ : ∃ m, n = m + 1 := ⟨n - 1, by simp at hn; omega⟩
    simp only [setLoop, List.nil_append, endNode, if_true]
    refine ret_bind_eq (upd_eq (by simp)) (ret_pure ?_)
    simp
  · intro a b ha hb ih n off text st e rest hn
    have hp := ha.pos
    obtain ⟨n, rfl⟩ : ∃ m, n = m + 1 := ⟨n - 1, by simp at hn; omega⟩
    simp only [List.length_append] at hn
    have he : endNode ⟨a ++ b ++ ⟨e, .endNode property⟩ :: rest, off⟩ property = none := by
      rw [List.append_assoc]; exact endNode_item ha _ _
    have hd : (a ++ b ++ ⟨e, .endNode property⟩ :: rest).drop a.length =
        b ++ ⟨e, .endNode property⟩ :: rest := by
      rw [List.append_assoc, List.drop_left]
    have hoff : off + a.length + b.length + 1 = off + (a ++ b).length + 1 := by
      simp [Nat.add_assoc]
    simp only [setLoop, he]
    split
    · next r val h =>
      obtain rfl := metaString_item ha (rest := b ++ _) (by rw [← List.append_assoc]; exact h)
      refine ret_bind_eq (upd_eq (by simp)) ?_
      simp only [hd, ← hoff]
      exact ih n _ _ _ _ _ (by omega)
    · split
      · next r val h =>
        obtain rfl := metaString_item ha (rest := b ++ _) (by rw [← List.append_assoc]; exact h)
        refine ret_bind_eq (upd_eq (by simp)) ?_
        simp only [hd, ← hoff]
        exact ih n _ _ _ _ _ (by omega)
      · exact ⟨none, st, rfl, rfl, by simp⟩

/-- The pure readers of a node. -/
theorem pure_node {α : Type} {L : Nat} {nm : Str} {g : Convert → Convert → CM (Range × α)}
    (h : ∀ r₁ r₂ body rest off st, Items body → body.length + 2 ≤ L →
      Ret (g ⟨⟨r₁, .startNode nm⟩ :: (body ++ ⟨r₂, .endNode nm⟩ :: rest), off⟩
        ⟨body ++ ⟨r₂, .endNode nm⟩ :: rest, off + 1⟩) st
        (Read off (body.length + 2) (· = st))) :
    PureReader L (fun c => do
      let r ← ofOption (c.startNode nm)
      let c' ← c.upd r
      g c c') := by
  intro a rest off st ha hl
  rcases Item.start ha nm with hs | ⟨r₁, r₂, body, rfl, hi⟩
  · refine ⟨none, st, ?_, rfl, by simp⟩
    simp only [hs]
    exact bind_none rfl
  · simp only [List.cons_append, List.append_assoc, List.nil_append]
    refine ret_ofOption (by simp [startNode]) ?_
    intro a ha
    simp [startNode] at ha
    subst ha
    refine ret_bind_eq (upd_eq (by simp)) ?_
    simpa [Nat.add_assoc] using h r₁ r₂ body rest off st hi (by simpa using hl)

theorem pure_readSet {L n : Nat} (hn : L ≤ n + 1) (strings : List (Str × Str)) (property : Str) :
    PureReader L (readSet strings n property) := by
  refine pure_node (g := fun start c => do
    let (c, text) ← setLoop property strings n c none
    let text ← ofOption text
    return (← c.sub start, text)) ?_
  intro r₁ r₂ body rest off st hi hl
  refine ret_bind (setLoop_ret hi n _ _ _ _ _ (by omega)) (by rintro st' ⟨rfl, _⟩; exact ⟨rfl, by simp⟩) ?_
  rintro ⟨c, text⟩ st' ⟨rfl, hx⟩
  have := hx _ rfl
  simp only at this
  subst this
  refine ret_ofOption (fun _ => ⟨rfl, by simp⟩) ?_
  intro text _
  refine ret_bind_eq (sub_eq (by simp; omega)) (ret_pure ⟨rfl, ?_⟩)
  simp; omega

/-! ### Loops of rule readers -/

/-- A loop body that respects the bound of the counter. -/
def BodyReader {σ : Type} (L : Nat) (B : Convert → σ → CM (Option (Range × σ))) : Prop :=
  ∀ a rest off s st k M, Item a → a.length ≤ L → M < 2 ^ 64 → st.id + a.length + k ≤ M →
    Ret (B ⟨a ++ rest, off⟩ s) st
      (Body off a.length (fun st' => st'.id + k ≤ M) fun _ st' => st'.id + k ≤ M)

theorem BodyReader.loop {σ : Type} {L n : Nat} {B : Convert → σ → CM (Option (Range × σ))}
    (hB : BodyReader L B) {nm : Str} {body : List Tok} (hi : Items body) (hl : body.length ≤ L)
    (hn : body.length < n) (off : Nat) (s : σ) (st : CSt) (e : Range) (rest : List Tok)
    (hb : st.id + body.length < 2 ^ 64) :
    Ret (loop nm B n ⟨body ++ ⟨e, .endNode nm⟩ :: rest, off⟩ s) st fun r st' =>
      ∃ s', r = some (⟨rest, off + body.length + 1⟩, s') ∧ st'.id ≤ st.id + body.length := by
  have := loop_ret (nm := nm) (B := B) (L := L) (Q := fun _ => True)
    (I := fun k _ st' => st'.id + k ≤ st.id + body.length) ?_ (by intros; assumption) hi hl
    (by intros; trivial) n off s st e rest 0 hn (by simp)
  · simpa using this
  · intro a rest off s st' k ha hla _ h
    exact hB a rest off s st' k (st.id + body.length) ha hla hb (by omega)

theorem body_pure {α σ : Type} {L : Nat} {f : Convert → CM (Range × α)} (hf : PureReader L f)
    {put : σ → α → σ} {B : Convert → σ → CM (Option (Range × σ))} (hB : BodyReader L B) :
    BodyReader L fun c s => tryRead (f c) (put s) (B c s) := by
  intro a rest off s st k M ha hl hM hb
  refine ret_tryRead (hf a rest off st ha hl) ?_ ?_
  · rintro v st' rfl; omega
  · rintro st' rfl; exact hB a rest off s st' k M ha hl hM hb

theorem body_none {σ : Type} {L : Nat} : BodyReader (σ := σ) L fun _ _ => noRead := by
  intro a rest off s st k M ha hl hM hb
  exact ret_noRead (by omega)

/-- A reader of rules, then pure readers. -/
theorem body_rule {α σ : Type} {L : Nat} {nm : Str} {f : Convert → CM (Range × α)} (hf : Reader L nm f)
    {put : σ → α → σ} {B : Convert → σ → CM (Option (Range × σ))}
    (hB : ∀ a rest off s st k M, Item a → a.length ≤ L → M < 2 ^ 64 → st.id + k ≤ M →
      (startNode ⟨a ++ rest, off⟩ nm = none → st.id + a.length + k ≤ M) →
      Ret (B ⟨a ++ rest, off⟩ s) st
        (Body off a.length (fun st' => st'.id + k ≤ M) fun _ st' => st'.id + k ≤ M)) :
    BodyReader L fun c s => tryRead (f c) (put s) (B c s) := by
  intro a rest off s st k M ha hl hM hb
  by_cases hs : startNode ⟨a ++ rest, off⟩ nm = none
  · refine ret_tryRead (Q := (· = st)) ⟨_, _, hf.other _ _ hs, rfl, by simp⟩ ?_ ?_
    · rintro v st' rfl; omega
    · rintro st' rfl
      exact hB a rest off s st' k M ha hl hM (by omega) (fun _ => hb)
  · refine ret_tryRead (hf.item ha rest off st hl (by omega)) ?_ ?_
    · intro v st' h; omega
    · intro st' h
      exact hB a rest off s st' k M ha hl hM (by omega) (fun h => absurd h hs)

theorem body_rule_none {α σ : Type} {L : Nat} {nm : Str} {f : Convert → CM (Range × α)}
    (hf : Reader L nm f) {put : σ → α → σ} :
    BodyReader L fun c s => tryRead (f c) (put s) noRead :=
  body_rule hf fun _ _ _ _ _ _ _ _ _ _ h _ => ret_noRead h

/-- A reader that runs a loop and then needs at most one id. -/
theorem loop_reader {σ : Type} {L n : Nat} (hn : L ≤ n + 1) {nm : Str}
    {B : Convert → σ → CM (Option (Range × σ))} (hB : BodyReader L B) {s₀ : σ}
    {k : Convert → Convert × σ → CM (Range × Rule)}
    (hk : ∀ start c s st, start.off ≤ c.off → st.id + 1 < 2 ^ 64 → Ret (k start (c, s)) st
      (Read start.off (c.off - start.off) fun st' => st'.id ≤ st.id + 1)) :
    Reader L nm (fun c => do
      let r ← ofOption (c.startNode nm)
      let c' ← c.upd r
      let x ← Convert.loop nm B n c' s₀
      k c x) := by
  refine reader_of (g := fun start c => do
      let x ← Convert.loop nm B n c s₀
      k start x) ?_
  intro r₁ r₂ body rest off st hi hl hb
  refine ret_bind (hB.loop hi (by omega) (by omega) (off + 1) s₀ st r₂ rest (by omega)) (by simp) ?_
  rintro ⟨c, s⟩ st' ⟨s', e, hid⟩
  simp only [Option.some.injEq, Prod.mk.injEq] at e
  obtain ⟨rfl, rfl⟩ := e
  refine (hk _ _ s st' (by simp; omega) (by omega)).mono ?_
  rintro r st'' ⟨h₁, h₂⟩
  refine ⟨by omega, fun x hx => ?_⟩
  rw [h₂ x hx]
  simp; omega

/-- The end of a reader. -/
theorem ret_finish {start c : Convert} {st : CSt} {f : Nat → Rule} (h : start.off ≤ c.off)
    (hb : st.id + 1 < 2 ^ 64) :
    Ret (do let id ← nextId; return (← c.sub start, f id)) st
      (Read start.off (c.off - start.off) fun st' => st'.id ≤ st.id + 1) :=
  ret_nextId hb (ret_bind_eq (sub_eq h) (ret_pure ⟨Nat.le_refl _, by simp⟩))

theorem ret_need {α : Type} {start c : Convert} {st : CSt} {x : Option α}
    {f : α → CM (Range × Rule)}
    (hf : ∀ a, Ret (f a) st (Read start.off (c.off - start.off) fun st' => st'.id ≤ st.id + 1)) :
    Ret (ofOption x >>= f) st (Read start.off (c.off - start.off) fun st' => st'.id ≤ st.id + 1) :=
  ret_ofOption (fun _ => ⟨by simp, by simp⟩) fun a _ => hf a

section
variable {L n : Nat} (hn : L ≤ n + 1) (strings : List (Str × Str))
include hn

theorem reader_tag : Reader L c!"tag" (readTag strings n) := by
  refine loop_reader hn (B := tagBody strings n) (s₀ := (none, none, none, none)) ?_ ?_
  · exact body_pure (pure_readSet hn _ _) (body_pure (pure_readSet hn _ _)
      (body_pure (pure_metaBool _) (body_pure (pure_metaBool _) body_none)))
  · rintro start c ⟨text, property, neg, inverted⟩ st h hb
    exact ret_need fun _ => ret_finish h hb

theorem body_until : BodyReader L (untilBody strings n) :=
  body_pure (pure_readSet hn _ _) (body_pure (pure_metaBool _) (body_pure (pure_readSet hn _ _)
    body_none))

theorem reader_untilAnyOrWs : Reader L c!"until_any_or_whitespace" (readUntilAnyOrWs strings n) := by
  refine loop_reader hn (B := untilBody strings n) (s₀ := (none, none, none)) (body_until hn _) ?_
  rintro start c ⟨any, optional, property⟩ st h hb
  exact ret_need fun _ => ret_finish h hb

theorem reader_untilAny : Reader L c!"until_any" (readUntilAny strings n) := by
  refine loop_reader hn (B := untilBody strings n) (s₀ := (none, none, none)) (body_until hn _) ?_
  rintro start c ⟨any, optional, property⟩ st h hb
  exact ret_need fun _ => ret_finish h hb

theorem reader_text : Reader L c!"text" (readText strings n) := by
  refine loop_reader hn (B := textBody strings n) (s₀ := (none, none)) ?_ ?_
  · exact body_pure (pure_metaBool _) (body_pure (pure_readSet hn _ _) body_none)
  · rintro start c ⟨allowEmpty, property⟩ st h hb
    exact ret_finish h hb

theorem reader_number : Reader L c!"number" (readNumber strings n) := by
  refine loop_reader hn (B := numberBody strings n) (s₀ := (none, none)) ?_ ?_
  · exact body_pure (pure_readSet hn _ _) (body_pure (pure_metaBool _) body_none)
  · rintro start c ⟨property, underscore⟩ st h hb
    exact ret_finish h hb

theorem reader_reference : Reader L c!"reference" (readReference strings n) := by
  refine loop_reader hn (B := referenceBody strings n) (s₀ := (none, none)) ?_ ?_
  · exact body_pure (pure_metaString _) (body_pure (pure_readSet hn _ _) body_none)
  · rintro start c ⟨name, property⟩ st h hb
    exact ret_need fun _ => ret_finish h hb

variable {rr : Str → Convert → CM (Range × Rule)} (hrr : ∀ p, Reader L p (rr p))
include hrr

theorem reader_sequence : Reader L c!"sequence" (readSequence rr n) := by
  refine loop_reader hn (B := argsBody rr) (s₀ := []) (body_rule_none (hrr _)) ?_
  rintro start c args st h hb
  exact ret_finish h hb

theorem reader_select : Reader L c!"select" (readSelect rr n) := by
  refine loop_reader hn (B := argsBody rr) (s₀ := []) (body_rule_none (hrr _)) ?_
  rintro start c args st h hb
  exact ret_finish h hb

theorem reader_repeat : Reader L c!"repeat" (readRepeat rr n) := by
  refine loop_reader hn (B := repeatBody rr) (s₀ := (none, none)) ?_ ?_
  · refine body_rule (hrr _) ?_
    intro a rest off s st k M ha hl hM hb _
    refine ret_tryRead (pure_metaBool _ a rest off st ha hl) ?_ ?_
    · rintro v st' rfl; exact hb
    · rintro st' rfl; exact ret_noRead hb
  · rintro start c ⟨rule, optional⟩ st h hb
    exact ret_need fun _ => ret_need fun _ => ret_finish h hb

theorem reader_separatedBy : Reader L c!"separated_by" (readSeparatedBy rr n) := by
  refine loop_reader hn (B := separatedBody rr) (s₀ := (none, none, none, none)) ?_ ?_
  · refine body_pure (pure_metaBool _) (body_pure (pure_metaBool _) (body_rule (hrr _) ?_))
    intro a rest off s st k M ha hl hM hb hs
    by_cases h : startNode ⟨a ++ rest, off⟩ c!"by" = none
    · exact body_rule_none (put := fun s v => (s.1, s.2.1, s.2.2.1, some v)) (hrr c!"rule")
        a rest off s st k M ha hl hM (hs h)
    · have h' : startNode ⟨a ++ rest, off⟩ c!"rule" = none := by
        simp only [startNode] at h ⊢
        split at h <;> simp_all
      refine ret_tryRead (Q := (· = st)) ⟨_, _, (hrr _).other _ _ h', rfl, by simp⟩ ?_ ?_
      · rintro v st' rfl; exact hb
      · rintro st' rfl; exact ret_noRead hb
  · rintro start c ⟨optional, allowTrail, by_, rule⟩ st h hb
    exact ret_need fun _ => ret_need fun _ => ret_finish h hb

omit hn in
/-- Read one rule and the end of the node. -/
theorem ret_oneRule {nm : Str} {body : List Tok} (hi : Items body) (hl : body.length ≤ L)
    {start : Convert} {r₂ : Range} {rest : List Tok} {off : Nat} {st : CSt} {f : Nat → Rule → Rule}
    (hoff : start.off ≤ off) (hb : st.id + body.length + 1 < 2 ^ 64) :
    Ret (do
      let (r, rule) ← rr c!"rule" ⟨body ++ ⟨r₂, .endNode nm⟩ :: rest, off⟩
      let c ← upd ⟨body ++ ⟨r₂, .endNode nm⟩ :: rest, off⟩ r
      let r ← ofOption (c.endNode nm)
      let c ← c.upd r
      let id ← nextId
      return (← c.sub start, f id rule)) st
      (Read start.off (off + body.length + 1 - start.off) fun st' => st'.id ≤ st.id + body.length + 1) := by
  rcases hi.cases with rfl | ⟨a, b, rfl, ha, hi'⟩
  · refine ⟨none, st, ?_, by show st.id ≤ _; omega, by simp⟩
    exact bind_none ((hrr _).no_item _ _ _ _ _)
  · simp only [List.length_append] at hl hb
    rw [List.append_assoc]
    refine ret_bind ((hrr _).item ha _ off st (by omega) (by omega)) ?_ ?_
    · rintro st' ⟨h, _⟩
      exact ⟨by simp; omega, by simp⟩
    · rintro ⟨r, rule⟩ st' ⟨h, hx⟩
      have := hx _ rfl
      simp only at this
      subst this
      simp only
      refine ret_bind_eq (upd_eq (by simp)) ?_
      simp only [List.drop_left]
      rcases hi'.cases with rfl | ⟨a', b', rfl, ha', _⟩
      · refine ret_ofOption (by simp [endNode]) ?_
        intro r hr
        simp [endNode] at hr
        subst hr
        refine ret_bind_eq (upd_eq (by simp)) ?_
        refine (ret_finish (by simp; omega) (by simp at hb; omega)).mono ?_
        rintro r st'' ⟨h₁, h₂⟩
        refine ⟨by simp; omega, fun x hx => ?_⟩
        rw [h₂ x hx]
        simp
      · refine ret_ofOption (fun _ => ⟨by simp; omega, by simp⟩) ?_
        intro r hr
        rw [List.append_assoc, endNode_item ha'] at hr
        cases hr

omit hn in
theorem reader_optional : Reader L c!"optional" (readOptional rr) := by
  refine reader_of ?_
  intro r₁ r₂ body rest off st hi hl hb
  refine (ret_oneRule (f := fun id rule => .optional rule id) hrr hi (by omega) (by simp) (by omega)).mono ?_
  rintro r st' ⟨h₁, h₂⟩
  refine ⟨by omega, fun x hx => ?_⟩
  rw [h₂ x hx]
  simp; omega

omit hn in
theorem reader_not : Reader L c!"not" (readNot rr) := by
  refine reader_of ?_
  intro r₁ r₂ body rest off st hi hl hb
  refine (ret_oneRule (f := fun id rule => .not rule id) hrr hi (by omega) (by simp) (by omega)).mono ?_
  rintro r st' ⟨h₁, h₂⟩
  refine ⟨by omega, fun x hx => ?_⟩
  rw [h₂ x hx]
  simp; omega

omit hn in
theorem reader_lines : Reader L c!"lines" (readLines rr) := by
  refine reader_of ?_
  intro r₁ r₂ body rest off st hi hl hb
  by_cases hm : ∃ r v, metaBool ⟨body ++ ⟨r₂, .endNode c!"lines"⟩ :: rest, off + 1⟩ c!"indent" = some (r, v)
  · obtain ⟨r, v, hm⟩ := hm
    obtain ⟨t, body', rfl, hi', hr⟩ : ∃ t b, body = t :: b ∧ Items b ∧ r = ⟨off + 1, 1⟩ := by
      cases hi with
      | nil => simp [metaBool] at hm
      | @value t b h hr =>
        refine ⟨t, b, rfl, hr, ?_⟩
        obtain ⟨r', d⟩ := t
        cases d <;> simp_all [metaBool]
      | node hb hr => simp [metaBool] at hm
    subst hr
    refine ret_bind_eq (a := (⟨body' ++ ⟨r₂, .endNode c!"lines"⟩ :: rest, off + 2⟩, v)) (st' := st) ?_ ?_
    · simp only [readIndent, hm]
      exact bind_some (upd_eq (by simp))
    simp only [List.length_cons] at hl hb ⊢
    refine (ret_oneRule (f := fun id rule => .lines rule v id) hrr hi' (by omega) (by simp)
      (by omega)).mono ?_
    rintro r st' ⟨h₁, h₂⟩
    refine ⟨by omega, fun x hx => ?_⟩
    rw [h₂ x hx]
    simp; omega
  · refine ret_bind_eq (a := (⟨body ++ ⟨r₂, .endNode c!"lines"⟩ :: rest, off + 1⟩, false)) (st' := st)
      ?_ ?_
    · have hm' : metaBool ⟨body ++ ⟨r₂, .endNode c!"lines"⟩ :: rest, off + 1⟩ c!"indent" = none := by
        cases h : metaBool ⟨body ++ ⟨r₂, .endNode c!"lines"⟩ :: rest, off + 1⟩ c!"indent" with
        | none => rfl
        | some x => exact absurd ⟨x.1, x.2, h⟩ hm
      simp only [readIndent, hm']
      rfl
    refine (ret_oneRule (f := fun id rule => .lines rule false id) hrr hi (by omega) (by simp)
      (by omega)).mono ?_
    rintro r st' ⟨h₁, h₂⟩
    refine ⟨by omega, fun x hx => ?_⟩
    rw [h₂ x hx]
    simp; omega

end

theorem reader_whitespace {L : Nat} : Reader L c!"whitespace" readWhitespace := by
  refine reader_of ?_
  intro r₁ r₂ body rest off st hi hl hb
  refine ret_ofOption (fun _ => ⟨by omega, by simp⟩) ?_
  rintro ⟨r, v⟩ hm
  obtain ⟨t, body', rfl, hi', hr⟩ : ∃ t b, body = t :: b ∧ Items b ∧ r = ⟨off + 1, 1⟩ := by
    cases hi with
    | nil => simp [metaBool] at hm
    | @value t b h hr =>
      refine ⟨t, b, rfl, hr, ?_⟩
      obtain ⟨r', d⟩ := t
      cases d <;> simp_all [metaBool]
    | node hb hr => simp [metaBool] at hm
  subst hr
  refine ret_bind_eq (upd_eq (by simp)) ?_
  rcases hi'.cases with rfl | ⟨a', b', rfl, ha', _⟩
  · refine ret_ofOption (by simp [endNode]) ?_
    intro r hr
    simp [endNode] at hr
    subst hr
    refine ret_bind_eq (upd_eq (by simp)) ?_
    refine (ret_finish (by simp; omega) (by simp at hb; omega)).mono ?_
    rintro r st'' ⟨h₁, h₂⟩
    refine ⟨by simp; omega, fun x hx => ?_⟩
    rw [h₂ x hx]
    simp; omega
  · refine ret_ofOption (fun _ => ⟨by omega, by simp⟩) ?_
    intro r hr
    simp [endNode_item ha'] at hr

/-! ### `read_rule` -/

theorem firstRule_none {l : List (CM (Range × Rule))} {st : CSt}
    (h : ∀ m ∈ l, m st = .ok (none, st)) : firstRule l st = .ok (none, st) := by
  induction l with
  | nil => rfl
  | cons m l ih =>
    have e : attempt m st = .ok (some none, st) := by simp [attempt, h m (by simp)]
    show (attempt m >>= _) st = _
    rw [bind_some e]
    exact ih fun m hm => h m (by simp [hm])

theorem startNode_ne {c : Convert} {nm nm' : Str} (h : c.startNode nm ≠ none) (hne : nm ≠ nm') :
    c.startNode nm' = none := by
  simp only [startNode] at h ⊢
  split at h <;> simp_all

theorem firstRule_item {L : Nat} {a rest : List Tok} {off : Nat} (ha : Item a) (hl : a.length ≤ L)
    (l : List (Str × (Convert → CM (Range × Rule)))) (hl' : ∀ p ∈ l, Reader L p.1 p.2)
    (hd : (l.map (·.1)).Nodup) (st : CSt) (hb : st.id + a.length < 2 ^ 64) :
    Ret (firstRule (l.map fun p => p.2 ⟨a ++ rest, off⟩)) st
      (Read off a.length fun st' => st'.id ≤ st.id + a.length) := by
  induction l with
  | nil => exact ⟨none, st, rfl, by simp, by simp⟩
  | cons p l ih =>
    have hp := hl' p (by simp)
    simp only [List.map_cons, List.nodup_cons] at hd
    by_cases hs : startNode ⟨a ++ rest, off⟩ p.1 = none
    · obtain ⟨r, st', e, h⟩ := ih (fun p hp => hl' p (by simp [hp])) hd.2
      refine ⟨r, st', ?_, h⟩
      have e' : attempt (p.2 ⟨a ++ rest, off⟩) st = .ok (some none, st) := by
        simp [attempt, hp.other _ _ hs]
      show (attempt _ >>= _) st = _
      rw [bind_some e']
      exact e
    · refine ret_attempt (hp.item ha rest off st hl hb) ?_
      rintro x st' ⟨h₁, h₂⟩
      cases x with
      | some x => exact ret_pure ⟨h₁, h₂⟩
      | none =>
        refine ⟨none, st', firstRule_none ?_, h₁, by simp⟩
        simp only [List.mem_map]
        rintro m ⟨q, hq, rfl⟩
        refine (hl' q (by simp [hq])).other _ _ (startNode_ne hs ?_)
        intro e
        exact hd.1 (List.mem_map.2 ⟨q, hq, e.symm⟩)

/-- The readers tried by `read_rule`, with the names of their nodes. -/
def ruleReaders (strings : List (Str × Str)) (rr : Str → Convert → CM (Range × Rule)) (n : Nat) :
    List (Str × (Convert → CM (Range × Rule))) :=
  [(c!"sequence", readSequence rr n),
   (c!"until_any_or_whitespace", readUntilAnyOrWs strings n),
   (c!"until_any", readUntilAny strings n),
   (c!"tag", readTag strings n),
   (c!"whitespace", readWhitespace),
   (c!"text", readText strings n),
   (c!"number", readNumber strings n),
   (c!"reference", readReference strings n),
   (c!"select", readSelect rr n),
   (c!"optional", readOptional rr),
   (c!"not", readNot rr),
   (c!"separated_by", readSeparatedBy rr n),
   (c!"lines", readLines rr),
   (c!"repeat", readRepeat rr n)]

theorem ruleReaders_reader {L n : Nat} (hn : L ≤ n + 1) (strings : List (Str × Str))
    {rr : Str → Convert → CM (Range × Rule)} (hrr : ∀ p, Reader L p (rr p)) :
    ∀ p ∈ ruleReaders strings rr n, Reader L p.1 p.2 := by
  simp only [ruleReaders, List.mem_cons, List.not_mem_nil, or_false]
  rintro p (rfl | rfl | rfl | rfl | rfl | rfl | rfl | rfl | rfl | rfl | rfl | rfl | rfl | rfl)
  · exact reader_sequence hn hrr
  · exact reader_untilAnyOrWs hn _
  · exact reader_untilAny hn _
  · exact reader_tag hn _
  · exact reader_whitespace
  · exact reader_text hn _
  · exact reader_number hn _
  · exact reader_reference hn _
  · exact reader_select hn hrr
  · exact reader_optional hrr
  · exact reader_not hrr
  · exact reader_separatedBy hn hrr
  · exact reader_lines hrr
  · exact reader_repeat hn hrr

theorem ruleReaders_nodup (strings : List (Str × Str)) (rr : Str → Convert → CM (Range × Rule))
    (n : Nat) : ((ruleReaders strings rr n).map (·.1)).Nodup := by
  simp only [ruleReaders, List.map_cons, List.map_nil]
  decide +kernel

theorem reader_ruleStep {L n : Nat} (hn : L ≤ n + 1) (strings : List (Str × Str))
    {rr : Str → Convert → CM (Range × Rule)} (hrr : ∀ p, Reader L p (rr p)) (property : Str) :
    Reader (L + 1) property (readRuleStep strings rr n property) := by
  have hR := ruleReaders_reader hn strings hrr
  refine reader_of (g := fun start c => do
    let (r, rule) ← firstRule ((ruleReaders strings rr n).map fun p => p.2 c)
    let c ← c.upd r
    let r ← ofOption (c.endNode property)
    let c ← c.upd r
    return (← c.sub start, rule)) ?_
  intro r₁ r₂ body rest off st hi hl hb
  rcases hi.cases with rfl | ⟨a, b, rfl, ha, hi'⟩
  · refine ⟨none, st, ?_, by omega, by simp⟩
    refine bind_none (firstRule_none ?_)
    simp only [List.mem_map]
    rintro m ⟨q, hq, rfl⟩
    exact (hR q hq).no_item _ _ _ _ _
  · simp only [List.length_append] at hl hb
    rw [List.append_assoc]
    refine ret_bind (firstRule_item ha (by omega) _ hR (ruleReaders_nodup ..) st (by omega)) ?_ ?_
    · rintro st' ⟨h, _⟩
      exact ⟨by simp; omega, by simp⟩
    · rintro ⟨r, rule⟩ st' ⟨h, hx⟩
      have := hx _ rfl
      simp only at this
      subst this
      simp only
      refine ret_bind_eq (upd_eq (by simp)) ?_
      simp only [List.drop_left]
      rcases hi'.cases with rfl | ⟨a', b', rfl, ha', _⟩
      · refine ret_ofOption (by simp [endNode]) ?_
        intro r hr
        simp [endNode] at hr
        subst hr
        refine ret_bind_eq (upd_eq (by simp)) ?_
        refine ret_bind_eq (sub_eq (by simp; omega)) (ret_pure ⟨by simp; omega, ?_⟩)
        simp; omega
      · refine ret_ofOption (fun _ => ⟨by simp; omega, by simp⟩) ?_
        intro r hr
        rw [List.append_assoc, endNode_item ha'] at hr
        cases hr

theorem reader_rule (strings : List (Str × Str)) : ∀ (n : Nat) (property : Str),
    Reader n property (readRule strings (n + 1) property)
  | 0, property => by
    refine ⟨fun c st h => ?_, fun _ _ _ _ _ _ _ h => by omega⟩
    show (ofOption _ >>= _) st = _
    exact bind_none (by simp [ofOption, h])
  | n + 1, property => reader_ruleStep (by omega) strings (reader_rule strings n) property

theorem Reader.mono {α : Type} {L L' : Nat} {nm : Str} {f : Convert → CM (Range × α)}
    (h : Reader L nm f) (hl : L' ≤ L) : Reader L' nm f :=
  ⟨h.other, fun r₁ r₂ body rest off st hi hb => h.node r₁ r₂ body rest off st hi (by omega)⟩

/-! ### Strings and nodes -/

theorem stringLoop_ret {body : List Tok}
    (hb : Items body) : ∀ (n off : Nat) (name text : Option Str) (st : CSt) (e : Range) (rest : List Tok),
    body.length < n →
    Ret (stringLoop n ⟨body ++ ⟨e, .endNode c!"string"⟩ :: rest, off⟩ name text) st
      fun r st' => st' = st ∧ ∀ x, r = some x → x.1 = ⟨rest, off + body.length + 1⟩ := by
  refine Items.rec_items hb ?_ ?_
  · intro n off name text st e rest hn
    obtain ⟨n, rfl⟩ : ∃ m, n = m + 1 := ⟨n - 1, by simp at hn; omega⟩
    simp only [stringLoop, List.nil_append, metaString, endNode, if_true]
    refine ret_bind_eq (upd_eq (by simp)) (ret_pure ?_)
    simp
  · intro a b ha hb ih n off name text st e rest hn
    have hp := ha.pos
    obtain ⟨n, rfl⟩ : ∃ m, n = m + 1 := ⟨n - 1, by simp at hn; omega⟩
    simp only [List.length_append] at hn
    have he : endNode ⟨a ++ b ++ ⟨e, .endNode c!"string"⟩ :: rest, off⟩ c!"string" = none := by
      rw [List.append_assoc]; exact endNode_item ha _ _
    have hd : (a ++ b ++ ⟨e, .endNode c!"string"⟩ :: rest).drop a.length =
        b ++ ⟨e, .endNode c!"string"⟩ :: rest := by
      rw [List.append_assoc, List.drop_left]
    have hoff : off + a.length + b.length + 1 = off + (a ++ b).length + 1 := by
      simp [Nat.add_assoc]
    simp only [stringLoop, he]
    split
    · next r val h =>
      obtain rfl := metaString_item ha (rest := b ++ _) (by rw [← List.append_assoc]; exact h)
      refine ret_bind_eq (upd_eq (by simp)) ?_
      simp only [hd, ← hoff]
      exact ih n _ _ _ _ _ _ (by omega)
    · split
      · next r val h =>
        obtain rfl := metaString_item ha (rest := b ++ _) (by rw [← List.append_assoc]; exact h)
        refine ret_bind_eq (upd_eq (by simp)) ?_
        simp only [hd, ← hoff]
        exact ih n _ _ _ _ _ _ (by omega)
      · exact ⟨none, st, rfl, rfl, by simp⟩

theorem pure_readString {L n : Nat} (hn : L ≤ n + 1) : PureReader L (readString n) := by
  refine pure_node (g := fun start c => do
    let (c, name, text) ← stringLoop n c none none
    let name ← ofOption name
    let text ← ofOption text
    return (← c.sub start, name, text)) ?_
  intro r₁ r₂ body rest off st hi hl
  refine ret_bind (stringLoop_ret hi n _ _ _ _ _ _ (by omega))
    (by rintro st' ⟨rfl, _⟩; exact ⟨rfl, by simp⟩) ?_
  rintro ⟨c, name, text⟩ st' ⟨rfl, hx⟩
  have := hx _ rfl
  simp only at this
  subst this
  refine ret_ofOption (fun _ => ⟨rfl, by simp⟩) ?_
  intro name _
  refine ret_ofOption (fun _ => ⟨rfl, by simp⟩) ?_
  intro text _
  refine ret_bind_eq (sub_eq (by simp; omega)) (ret_pure ⟨rfl, ?_⟩)
  simp; omega

/-- The number of a node does not overflow the counter. -/
def IdFits (L : Nat) (t : Tok) : Prop := ∀ v, t.data = .f64 c!"id" v → v.toUsize * 1000 + L < 2 ^ 64

theorem metaF64_head {c : Convert} {nm : Str} {x : Range × F64} (h : c.metaF64 nm = some x) :
    ∃ r ts, c.data = ⟨r, .f64 nm x.2⟩ :: ts := by
  obtain ⟨d, off⟩ := c
  cases d with
  | nil => simp [metaF64] at h
  | cons t ts =>
    obtain ⟨r, d⟩ := t
    cases d <;> simp [metaF64] at h
    obtain ⟨rfl, rfl⟩ := h
    exact ⟨r, ts, rfl⟩

theorem nodeBody_ret {L n : Nat} (strings : List (Str × Str)) (hL : L < 2 ^ 64) (hn : L ≤ n) :
    ∀ (a rest : List Tok) (off : Nat) (s : Option Nat × Option Str × Option Rule) (st : CSt) (_ : Nat),
    Item a → a.length ≤ L → (∀ t ∈ a, IdFits L t) → (∀ id, s.1 = some id → id * 1000 + L < 2 ^ 64) →
    Ret (nodeBody strings (n + 1) ⟨a ++ rest, off⟩ s) st
      (Body off a.length (fun _ => ∀ id, s.1 = some id → id * 1000 + L < 2 ^ 64)
        fun s' _ => ∀ id, s'.1 = some id → id * 1000 + L < 2 ^ 64) := by
  intro a rest off s st _ ha hl hq hs
  have ho : ∀ st', Ret (tryRead (ofOption (metaString ⟨a ++ rest, off⟩ c!"name"))
      (fun v => (s.1, some v, s.2.2)) <|
      tryRead (do setId (s.1.getD 0); readRule strings (n + 1) c!"rule" ⟨a ++ rest, off⟩)
        (fun v => (s.1, s.2.1, some v)) noRead) st'
      (Body off a.length (fun _ => ∀ id, s.1 = some id → id * 1000 + L < 2 ^ 64)
        fun s' _ => ∀ id, s'.1 = some id → id * 1000 + L < 2 ^ 64) := by
    intro st'
    refine ret_tryRead (pure_metaString _ a rest off st' ha hl) (fun _ _ _ => hs) ?_
    rintro st' -
    have hid : s.1.getD 0 * 1000 + L < 2 ^ 64 := by
      cases h : s.1 with
      | none => simpa using hL
      | some id => simpa using hs id h
    have := ((reader_rule strings n c!"rule").mono hn).item ha rest off { st' with id := s.1.getD 0 * 1000 } hl
      (by simp only; omega)
    refine ret_tryRead (Q := fun _ => True) ?_ (fun _ _ _ => hs) (fun _ _ => ret_noRead hs)
    refine ret_bind_eq (a := ()) (st' := { st' with id := s.1.getD 0 * 1000 }) ?_
      (this.mono fun _ _ h => ⟨trivial, h.2⟩)
    have h' : s.1.getD 0 * 1000 < 2 ^ 64 := Nat.lt_of_le_of_lt (Nat.le_add_right _ _) hid
    simp [setId, h']
  cases hm : metaF64 ⟨a ++ rest, off⟩ c!"id" with
  | none =>
    obtain ⟨r, st', e, h⟩ := ho st
    exact ⟨r, st', by simp only [nodeBody, hm]; exact e, h⟩
  | some x =>
    obtain ⟨r, ts, hd⟩ := metaF64_head hm
    have hx : x.1 = ⟨off, a.length⟩ := by
      obtain ⟨_, _, e, _, h'⟩ := pure_metaF64 (L := L) c!"id" a rest off st ha hl
      simp only [ofOption, hm, Comp.ok.injEq, Prod.mk.injEq] at e
      exact h' _ e.1.symm
    have hin : (⟨r, .f64 c!"id" x.2⟩ : Tok) ∈ a := by
      obtain ⟨t, ts', rfl, _⟩ := ha.head
      simp at hd
      simp [hd.1]
    refine ⟨some (some (x.1, some x.2.toUsize, s.2)), st, by simp only [nodeBody, hm]; rfl, _, rfl, by simp, ?_⟩
    rintro y hy
    cases hy
    refine ⟨hx, ?_⟩
    rintro id hid
    cases hid
    exact hq _ hin _ rfl

/-- `read_node` returns on a node, and leaves the rest alone. -/
theorem readNode_ret {L : Nat} (strings : List (Str × Str)) (hL : L < 2 ^ 64) (a rest : List Tok)
    (off : Nat) (st : CSt) (ha : Item a) (hl : a.length ≤ L) (hq : ∀ t ∈ a, IdFits L t) :
    Ret (readNode strings (L + 1) ⟨a ++ rest, off⟩) st (Read off a.length fun _ => True) := by
  rcases Item.start ha c!"node" with hs | ⟨r₁, r₂, body, rfl, hi⟩
  · refine ⟨none, st, ?_, trivial, by simp⟩
    show (ofOption _ >>= _) st = _
    exact bind_none (by simp [ofOption, hs])
  · simp only [List.cons_append, List.append_assoc, List.nil_append]
    refine ret_ofOption (by simp [startNode]) ?_
    intro a ha
    simp [startNode] at ha
    subst ha
    refine ret_bind_eq (upd_eq (by simp)) ?_
    have hl' : body.length + 2 ≤ L := by simpa using hl
    have := loop_ret (nm := c!"node") (B := nodeBody strings (L + 1)) (L := L) (Q := IdFits L)
      (I := fun _ s _ => ∀ id, s.1 = some id → id * 1000 + L < 2 ^ 64)
      (nodeBody_ret strings hL (Nat.le_refl L)) (fun _ _ _ _ h => h) hi (by omega)
      (fun t ht => hq t (by simp [ht])) (L + 1) (off + 1) (none, none, none) st r₂ rest 0 (by omega)
      (by simp)
    refine ret_bind this (by simp) ?_
    rintro ⟨c, id, name, rule⟩ st' ⟨s', e, _⟩
    simp only [Option.some.injEq, Prod.mk.injEq] at e
    obtain ⟨rfl, _⟩ := e
    refine ret_ofOption (fun _ => ⟨trivial, by simp⟩) ?_
    intro name _
    refine ret_ofOption (fun _ => ⟨trivial, by simp⟩) ?_
    intro rule _
    refine ret_bind_eq (sub_eq (by simp; omega)) (ret_pure ⟨trivial, ?_⟩)
    simp; omega

theorem stringsLoop_ret {n : Nat} {ts : List Tok} (hi : Items ts) : ∀ (k off : Nat)
    (strings : List (Str × Str)) (st : CSt), ts.length ≤ n + 1 → ts.length < k →
    Ret (stringsLoop n k ⟨ts, off⟩ strings) st fun r _ => ∃ ts' off' strings' pre,
      r = some (⟨ts', off'⟩, strings') ∧ ts = pre ++ ts' ∧ Items ts' := by
  refine Items.rec_items hi ?_ ?_
  · intro k off strings st _ hk
    obtain ⟨k, rfl⟩ : ∃ m, k = m + 1 := ⟨k - 1, by omega⟩
    exact ⟨_, st, rfl, _, _, _, [], rfl, rfl, .nil⟩
  · intro a b ha hb ih k off strings st hn hk
    obtain ⟨k, rfl⟩ : ∃ m, k = m + 1 := ⟨k - 1, by omega⟩
    simp only [List.length_append] at hn hk
    have hp := ha.pos
    refine ret_attempt (pure_readString (Nat.le_refl (n + 1)) a b off st ha (by omega)) ?_
    rintro x st' ⟨rfl, hx⟩
    cases x with
    | none => exact ret_pure ⟨_, _, _, [], rfl, rfl, ha.items.append hb⟩
    | some x =>
      obtain ⟨r, v⟩ := x
      have := hx _ rfl
      simp only at this
      subst this
      refine ret_bind_eq (upd_eq (by simp)) ?_
      simp only [List.drop_left]
      refine (ih k _ _ _ (by omega) (by omega)).mono ?_
      rintro r st'' ⟨ts', off', strings', pre, h₁, h₂, h₃⟩
      exact ⟨ts', off', strings', a ++ pre, h₁, by rw [h₂, List.append_assoc], h₃⟩

theorem nodesLoop_ret {L : Nat} (strings : List (Str × Str)) (hL : L < 2 ^ 64) {ts : List Tok}
    (hi : Items ts) : ∀ (k off : Nat) (res : Syntax) (st : CSt), ts.length ≤ L → ts.length < k →
    (∀ t ∈ ts, IdFits L t) →
    Ret (nodesLoop strings (L + 1) k ⟨ts, off⟩ res) st fun _ _ => True := by
  refine Items.rec_items hi ?_ ?_
  · intro k off res st _ hk _
    obtain ⟨k, rfl⟩ : ∃ m, k = m + 1 := ⟨k - 1, by omega⟩
    exact ⟨_, st, rfl, trivial⟩
  · intro a b ha hb ih k off res st hl hk hq
    obtain ⟨k, rfl⟩ : ∃ m, k = m + 1 := ⟨k - 1, by omega⟩
    simp only [List.length_append] at hl hk
    have hp := ha.pos
    refine ret_attempt (readNode_ret strings hL a b off st ha (by omega) fun t ht => hq t (by simp [ht])) ?_
    rintro x st' ⟨-, hx⟩
    cases x with
    | none =>
      have : 0 < (a ++ b).length := by rw [List.length_append]; omega
      simp only [remaining, this, if_true]
      exact ⟨_, st', rfl, trivial⟩
    | some x =>
      obtain ⟨r, v⟩ := x
      have := hx _ rfl
      simp only at this
      subst this
      refine ret_bind_eq (upd_eq (by simp)) ?_
      simp only [List.drop_left]
      exact ih k _ _ _ (by omega) (by omega) fun t ht => hq t (by simp [ht])

/-- `convert` returns on well nested data. -/
theorem convertM_ret {ts : List Tok} (hi : Items ts) (hL : ts.length < 2 ^ 64)
    (hq : ∀ t ∈ ts, IdFits ts.length t) (st : CSt) :
    Ret (convertM (ts.length + 1) ts) st fun _ _ => True := by
  refine ret_bind (stringsLoop_ret hi (ts.length + 1) 0 [] st (by omega) (by omega)) (by simp) ?_
  rintro ⟨c, strings⟩ st' ⟨ts', off', strings', pre, e, h₂, h₃⟩
  cases e
  have hsub : ts'.length ≤ ts.length := by rw [h₂]; simp
  refine ret_bind (nodesLoop_ret strings hL h₃ (ts.length + 1) off' .new st' hsub (by omega)
    fun t ht => hq t (by rw [h₂]; simp [ht])) (by simp) ?_
  intro res st'' _
  exact ret_pure trivial

end Verif
