import Verif.Proofs.ConvertFuel
/-
`convert` does not look at the source ranges of its data.
-/
namespace Verif
open CM Convert

/-- The same data at the same offset, with other source ranges. -/
structure Same (c c' : Convert) : Prop where
  off : c.off = c'.off
  data : c.data.map (·.data) = c'.data.map (·.data)

/-- Two readers do the same, with related results. -/
structure CSim {α β : Type} (R : α → β → Prop) (m : CM α) (m' : CM β) : Prop where
  sim : ∀ st, (∃ a b s, m st = .ok (some a, s) ∧ m' st = .ok (some b, s) ∧ R a b) ∨
    (∃ s, m st = .ok (none, s) ∧ m' st = .ok (none, s)) ∨
    (m st = .panic ∧ m' st = .panic) ∨ (m st = .timeout ∧ m' st = .timeout)

section
variable {α β γ δ σ : Type} {R : α → β → Prop} {S : γ → δ → Prop}

theorem CSim.bind {m : CM α} {m' : CM β} {f : α → CM γ} {f' : β → CM δ} (h : CSim R m m')
    (hf : ∀ a b, R a b → CSim S (f a) (f' b)) : CSim S (m >>= f) (m' >>= f') := by
  refine ⟨fun st => ?_⟩
  rcases h.sim st with ⟨a, b, s, e, e', hr⟩ | ⟨s, e, e'⟩ | ⟨e, e'⟩ | ⟨e, e'⟩
  · rw [show (m >>= f) st = f a s by simp [Bind.bind, CM.bind, e],
      show (m' >>= f') st = f' b s by simp [Bind.bind, CM.bind, e']]
    exact (hf a b hr).sim s
  · exact .inr (.inl ⟨s, by simp [Bind.bind, CM.bind, e], by simp [Bind.bind, CM.bind, e']⟩)
  · exact .inr (.inr (.inl ⟨by simp [Bind.bind, CM.bind, e], by simp [Bind.bind, CM.bind, e']⟩))
  · exact .inr (.inr (.inr ⟨by simp [Bind.bind, CM.bind, e], by simp [Bind.bind, CM.bind, e']⟩))

theorem CSim.pure {a : α} {b : β} (h : R a b) : CSim R (Pure.pure a) (Pure.pure b) :=
  ⟨fun st => .inl ⟨a, b, st, rfl, rfl, h⟩⟩

theorem CSim.refl (m : CM α) : CSim Eq m m := by
  refine ⟨fun st => ?_⟩
  cases e : m st with
  | ok x =>
    obtain ⟨a, s⟩ := x
    cases a with
    | none => exact .inr (.inl ⟨s, rfl, rfl⟩)
    | some a => exact .inl ⟨a, a, s, rfl, rfl, rfl⟩
  | panic => exact .inr (.inr (.inl ⟨rfl, rfl⟩))
  | timeout => exact .inr (.inr (.inr ⟨rfl, rfl⟩))

theorem CSim.of_eq {m m' : CM α} (h : m = m') : CSim Eq m m' := h ▸ .refl m

/-- Readers whose results are equal are equal. -/
theorem CSim.eq {m m' : CM α} (h : CSim Eq m m') : m = m' := by
  funext st
  rcases h.sim st with ⟨a, b, s, e, e', rfl⟩ | ⟨s, e, e'⟩ | ⟨e, e'⟩ | ⟨e, e'⟩ <;> rw [e, e']

theorem CSim.err : CSim R (CM.err : CM α) (CM.err : CM β) :=
  ⟨fun st => .inr (.inl ⟨st, rfl, rfl⟩)⟩

theorem CSim.timeout : CSim R (CM.timeout : CM α) (CM.timeout : CM β) :=
  ⟨fun _ => .inr (.inr (.inr ⟨rfl, rfl⟩))⟩

end

theorem Same.refl (c : Convert) : Same c c := ⟨rfl, rfl⟩

section
variable {c c' : Convert} (h : Same c c')
include h

theorem Same.remaining : c.remaining = c'.remaining := by
  have := congrArg List.length h.data
  simpa [Convert.remaining] using this

theorem Same.cases : c.data = [] ∧ c'.data = [] ∨ ∃ r r' d ts ts',
    c.data = ⟨r, d⟩ :: ts ∧ c'.data = ⟨r', d⟩ :: ts' := by
  have := h.data
  cases e : c.data with
  | nil => rw [e] at this; simp at this; exact .inl ⟨rfl, this⟩
  | cons t ts =>
    rw [e] at this
    obtain ⟨t', ts', e', h', _⟩ := List.map_eq_cons_iff.1 this.symm
    refine .inr ⟨t.range, t'.range, t.data, ts, ts', rfl, ?_⟩
    simp only at h'
    rw [e', ← h']

theorem Same.startNode (nm : Str) : c.startNode nm = c'.startNode nm := by
  rcases h.cases with ⟨e, e'⟩ | ⟨r, r', d, ts, ts', e, e'⟩
  · simp [Convert.startNode, e, e']
  · cases d <;> simp [Convert.startNode, e, e', h.off]

theorem Same.endNode (nm : Str) : c.endNode nm = c'.endNode nm := by
  rcases h.cases with ⟨e, e'⟩ | ⟨r, r', d, ts, ts', e, e'⟩
  · simp [Convert.endNode, e, e']
  · cases d <;> simp [Convert.endNode, e, e', h.off]

theorem Same.metaString (nm : Str) : c.metaString nm = c'.metaString nm := by
  rcases h.cases with ⟨e, e'⟩ | ⟨r, r', d, ts, ts', e, e'⟩
  · simp [Convert.metaString, e, e']
  · cases d <;> simp [Convert.metaString, e, e', h.off]

theorem Same.metaF64 (nm : Str) : c.metaF64 nm = c'.metaF64 nm := by
  rcases h.cases with ⟨e, e'⟩ | ⟨r, r', d, ts, ts', e, e'⟩
  · simp [Convert.metaF64, e, e']
  · cases d <;> simp [Convert.metaF64, e, e', h.off]

theorem Same.metaBool (nm : Str) : c.metaBool nm = c'.metaBool nm := by
  rcases h.cases with ⟨e, e'⟩ | ⟨r, r', d, ts, ts', e, e'⟩
  · simp [Convert.metaBool, e, e']
  · cases d <;> simp [Convert.metaBool, e, e', h.off]

theorem Same.upd (r : Range) : CSim Same (c.upd r) (c'.upd r) := by
  have hl : c.data.length = c'.data.length := h.remaining
  refine ⟨fun st => ?_⟩
  simp only [Convert.upd, Convert.update, h.off, hl, lift]
  by_cases h₁ : r.next < c'.off
  · simp [h₁]
  · by_cases h₂ : c'.data.length < r.next - c'.off
    · simp [h₁, h₂]
    · simp only [h₁, h₂, if_false]
      refine .inl ⟨_, _, st, rfl, rfl, rfl, ?_⟩
      simp only [List.map_drop, h.data]

theorem Same.sub {s s' : Convert} (hs : Same s s') : c.sub s = c'.sub s' := by
  simp only [Convert.sub, Convert.subtract, h.off, hs.off]

end

theorem ignoreLoop_map (ts : List Tok) : ∀ acc len,
    ignoreLoop ts acc len = ignoreLoop (ts.map fun t => ⟨⟨0, 0⟩, t.data⟩) acc len := by
  induction ts with
  | nil => intros; rfl
  | cons t ts ih => intro acc len; simp only [List.map_cons, ignoreLoop, ih]

theorem Same.ignore {c c' : Convert} (h : Same c c') : c.ignore = c'.ignore := by
  have : c.data.map (fun t : Tok => (⟨⟨0, 0⟩, t.data⟩ : Tok)) = c'.data.map fun t => ⟨⟨0, 0⟩, t.data⟩ := by
    have := congrArg (List.map fun d => (⟨⟨0, 0⟩, d⟩ : Tok)) h.data
    rw [List.map_map, List.map_map] at this
    exact this
  simp only [Convert.ignore]
  rw [ignoreLoop_map c.data, ignoreLoop_map c'.data, this, h.off]

section
variable {σ : Type}

theorem csim_loop {nm : Str} {B : Convert → σ → CM (Option (Range × σ))}
    (hB : ∀ c c' s, Same c c' → B c s = B c' s) : ∀ (n : Nat) {c c' : Convert} (s : σ), Same c c' →
    CSim (fun x y => Same x.1 y.1 ∧ x.2 = y.2) (Convert.loop nm B n c s) (Convert.loop nm B n c' s)
  | 0, _, _, _, _ => .timeout
  | n + 1, c, c', s, h => by
    simp only [Convert.loop, h.endNode nm, hB c c' s h]
    split
    · exact (h.upd _).bind fun _ _ h => .pure ⟨h, rfl⟩
    · refine (CSim.refl _).bind ?_
      rintro x _ rfl
      cases x with
      | some x => exact (h.upd _).bind fun _ _ h => csim_loop hB n _ h
      | none =>
        simp only [h.ignore]
        refine (CSim.refl _).bind ?_
        rintro r _ rfl
        exact (h.upd _).bind fun _ _ h => (CSim.refl _).bind fun _ _ _ => csim_loop hB n _ h

theorem csim_stringLoop : ∀ (n : Nat) {c c' : Convert} (name text : Option Str), Same c c' →
    CSim (fun x y => Same x.1 y.1 ∧ x.2 = y.2) (stringLoop n c name text) (stringLoop n c' name text)
  | 0, _, _, _, _, _ => .timeout
  | n + 1, c, c', name, text, h => by
    simp only [stringLoop, h.endNode, h.metaString]
    split
    · exact (h.upd _).bind fun _ _ h => csim_stringLoop n _ _ h
    · split
      · exact (h.upd _).bind fun _ _ h => csim_stringLoop n _ _ h
      · split
        · exact (h.upd _).bind fun _ _ h => .pure ⟨h, rfl⟩
        · exact .err

theorem csim_setLoop {p : Str} {strings : List (Str × Str)} : ∀ (n : Nat) {c c' : Convert}
    (text : Option Str), Same c c' →
    CSim (fun x y => Same x.1 y.1 ∧ x.2 = y.2) (setLoop p strings n c text) (setLoop p strings n c' text)
  | 0, _, _, _, _ => .timeout
  | n + 1, c, c', text, h => by
    simp only [setLoop, h.endNode, h.metaString]
    split
    · exact (h.upd _).bind fun _ _ h => .pure ⟨h, rfl⟩
    · split
      · exact (h.upd _).bind fun _ _ h => csim_setLoop n _ h
      · split
        · exact (h.upd _).bind fun _ _ h => csim_setLoop n _ h
        · exact .err

end

section
variable {c c' : Convert} (h : Same c c')
include h

theorem same_readString (n : Nat) : readString n c = readString n c' := by
  refine CSim.eq ?_
  simp only [readString, h.startNode]
  refine (CSim.refl _).bind ?_
  rintro r _ rfl
  refine (h.upd r).bind fun _ _ h₁ => (csim_stringLoop n _ _ h₁).bind ?_
  rintro ⟨_, _, _⟩ ⟨_, _, _⟩ ⟨h₂, e⟩
  cases e
  simp only [h₂.sub h]
  exact .refl _

theorem same_readSet (strings : List (Str × Str)) (n : Nat) (p : Str) :
    readSet strings n p c = readSet strings n p c' := by
  refine CSim.eq ?_
  simp only [readSet, h.startNode]
  refine (CSim.refl _).bind ?_
  rintro r _ rfl
  refine (h.upd r).bind fun _ _ h₁ => (csim_setLoop n _ h₁).bind ?_
  rintro ⟨_, _⟩ ⟨_, _⟩ ⟨h₂, e⟩
  cases e
  simp only [h₂.sub h]
  exact .refl _

end

section
variable (strings : List (Str × Str)) (rr : Str → Convert → CM (Range × Rule))

theorem same_until (n : Nat) : ∀ (c c' : Convert) (s), Same c c' →
    untilBody strings n c s = untilBody strings n c' s := by
  intro c c' s h
  simp only [untilBody, same_readSet h, h.metaBool]

variable (hrr : ∀ c c' p, Same c c' → rr p c = rr p c')
include hrr

theorem same_one {c c' : Convert} (h : Same c c') {nm : Str} {f : Nat → Rule → Rule} {start start' : Convert}
    (hs : Same start start') :
    (do
      let (r, rule) ← rr c!"rule" c
      let d ← c.upd r
      let r ← ofOption (d.endNode nm)
      let d ← d.upd r
      let id ← nextId
      return (← d.sub start, f id rule)) = (do
      let (r, rule) ← rr c!"rule" c'
      let d ← c'.upd r
      let r ← ofOption (d.endNode nm)
      let d ← d.upd r
      let id ← nextId
      return (← d.sub start', f id rule)) := by
  refine CSim.eq ?_
  simp only [hrr c c' _ h]
  refine (CSim.refl _).bind ?_
  rintro ⟨r, rule⟩ _ rfl
  refine (h.upd r).bind fun d d' h₁ => ?_
  simp only [h₁.endNode]
  refine (CSim.refl _).bind ?_
  rintro r _ rfl
  refine (h₁.upd r).bind fun d d' h₂ => ?_
  simp only [h₂.sub hs]
  exact .refl _

theorem same_ruleReaders (n : Nat) {c c' : Convert} (h : Same c c') :
    ((ruleReaders strings rr n).map fun p => p.2 c) = (ruleReaders strings rr n).map fun p => p.2 c' := by
  simp only [ruleReaders, List.map_cons, List.map_nil, List.cons.injEq, and_true]
  have hfin : ∀ {x x' : Convert} {f : Nat → Rule}, Same x x' →
      (do let id ← nextId; return (← x.sub c, f id) : CM (Range × Rule)) =
      (do let id ← nextId; return (← x'.sub c', f id)) := by
    intro x x' f hx
    simp only [hx.sub h]
  refine ⟨?_, ?_, ?_, ?_, ?_, ?_, ?_, ?_, ?_, ?_, ?_, ?_, ?_, ?_⟩
  · refine CSim.eq ?_
    simp only [readSequence, h.startNode]
    refine (CSim.refl _).bind ?_
    rintro r _ rfl
    refine (h.upd r).bind fun _ _ h₁ => (csim_loop ?_ n _ h₁).bind ?_
    · intro c c' s h; simp only [argsBody, hrr c c' _ h]
    · rintro ⟨x, s⟩ ⟨x', _⟩ ⟨hx, e⟩; cases e; simp only [hx.sub h]; exact .refl _
  · refine CSim.eq ?_
    simp only [readUntilAnyOrWs, h.startNode]
    refine (CSim.refl _).bind ?_
    rintro r _ rfl
    refine (h.upd r).bind fun _ _ h₁ => (csim_loop (same_until strings n) n _ h₁).bind ?_
    rintro ⟨x, ⟨s₁, s₂, s₃⟩⟩ ⟨x', _⟩ ⟨hx, e⟩; cases e; simp only [hx.sub h]; exact .refl _
  · refine CSim.eq ?_
    simp only [readUntilAny, h.startNode]
    refine (CSim.refl _).bind ?_
    rintro r _ rfl
    refine (h.upd r).bind fun _ _ h₁ => (csim_loop (same_until strings n) n _ h₁).bind ?_
    rintro ⟨x, ⟨s₁, s₂, s₃⟩⟩ ⟨x', _⟩ ⟨hx, e⟩; cases e; simp only [hx.sub h]; exact .refl _
  · refine CSim.eq ?_
    simp only [readTag, h.startNode]
    refine (CSim.refl _).bind ?_
    rintro r _ rfl
    refine (h.upd r).bind fun _ _ h₁ => (csim_loop ?_ n _ h₁).bind ?_
    · intro c c' s h; simp only [tagBody, same_readSet h, h.metaBool]
    · rintro ⟨x, ⟨s₁, s₂, s₃, s₄⟩⟩ ⟨x', _⟩ ⟨hx, e⟩; cases e; simp only [hx.sub h]; exact .refl _
  · refine CSim.eq ?_
    simp only [readWhitespace, h.startNode]
    refine (CSim.refl _).bind ?_
    rintro r _ rfl
    refine (h.upd r).bind fun d d' h₁ => ?_
    simp only [h₁.metaBool]
    refine (CSim.refl _).bind ?_
    rintro ⟨r, v⟩ _ rfl
    refine (h₁.upd r).bind fun d d' h₂ => ?_
    simp only [h₂.endNode]
    refine (CSim.refl _).bind ?_
    rintro r _ rfl
    refine (h₂.upd r).bind fun d d' h₃ => ?_
    exact .of_eq (hfin h₃)
  · refine CSim.eq ?_
    simp only [readText, h.startNode]
    refine (CSim.refl _).bind ?_
    rintro r _ rfl
    refine (h.upd r).bind fun _ _ h₁ => (csim_loop ?_ n _ h₁).bind ?_
    · intro c c' s h; simp only [textBody, same_readSet h, h.metaBool]
    · rintro ⟨x, ⟨s₁, s₂⟩⟩ ⟨x', _⟩ ⟨hx, e⟩; cases e; simp only [hx.sub h]; exact .refl _
  · refine CSim.eq ?_
    simp only [readNumber, h.startNode]
    refine (CSim.refl _).bind ?_
    rintro r _ rfl
    refine (h.upd r).bind fun _ _ h₁ => (csim_loop ?_ n _ h₁).bind ?_
    · intro c c' s h; simp only [numberBody, same_readSet h, h.metaBool]
    · rintro ⟨x, ⟨s₁, s₂⟩⟩ ⟨x', _⟩ ⟨hx, e⟩; cases e; simp only [hx.sub h]; exact .refl _
  · refine CSim.eq ?_
    simp only [readReference, h.startNode]
    refine (CSim.refl _).bind ?_
    rintro r _ rfl
    refine (h.upd r).bind fun _ _ h₁ => (csim_loop ?_ n _ h₁).bind ?_
    · intro c c' s h; simp only [referenceBody, same_readSet h, h.metaString]
    · rintro ⟨x, ⟨s₁, s₂⟩⟩ ⟨x', _⟩ ⟨hx, e⟩; cases e; simp only [hx.sub h]; exact .refl _
  · refine CSim.eq ?_
    simp only [readSelect, h.startNode]
    refine (CSim.refl _).bind ?_
    rintro r _ rfl
    refine (h.upd r).bind fun _ _ h₁ => (csim_loop ?_ n _ h₁).bind ?_
    · intro c c' s h; simp only [argsBody, hrr c c' _ h]
    · rintro ⟨x, s⟩ ⟨x', _⟩ ⟨hx, e⟩; cases e; simp only [hx.sub h]; exact .refl _
  · refine CSim.eq ?_
    simp only [readOptional, h.startNode]
    refine (CSim.refl _).bind ?_
    rintro r _ rfl
    exact (h.upd r).bind fun d d' h₁ => .of_eq (same_one rr hrr h₁ (f := fun id rule => .optional rule id) h)
  · refine CSim.eq ?_
    simp only [readNot, h.startNode]
    refine (CSim.refl _).bind ?_
    rintro r _ rfl
    exact (h.upd r).bind fun d d' h₁ => .of_eq (same_one rr hrr h₁ (f := fun id rule => .not rule id) h)
  · refine CSim.eq ?_
    simp only [readSeparatedBy, h.startNode]
    refine (CSim.refl _).bind ?_
    rintro r _ rfl
    refine (h.upd r).bind fun _ _ h₁ => (csim_loop ?_ n _ h₁).bind ?_
    · intro c c' s h; simp only [separatedBody, hrr c c' _ h, h.metaBool]
    · rintro ⟨x, ⟨s₁, s₂, s₃, s₄⟩⟩ ⟨x', _⟩ ⟨hx, e⟩; cases e; simp only [hx.sub h]; exact .refl _
  · refine CSim.eq ?_
    simp only [readLines, h.startNode]
    refine (CSim.refl _).bind ?_
    rintro r _ rfl
    refine (h.upd r).bind fun d d' h₁ => ?_
    have hi : CSim (fun x y => Same x.1 y.1 ∧ x.2 = y.2) (readIndent d) (readIndent d') := by
      simp only [readIndent, h₁.metaBool]
      split
      · exact (h₁.upd _).bind fun _ _ h => .pure ⟨h, rfl⟩
      · exact .pure ⟨h₁, rfl⟩
    refine hi.bind ?_
    rintro ⟨x, v⟩ ⟨x', v'⟩ ⟨h₂, e⟩
    cases e
    exact .of_eq (same_one rr hrr h₂ (f := fun id rule => .lines rule v id) h)
  · refine CSim.eq ?_
    simp only [readRepeat, h.startNode]
    refine (CSim.refl _).bind ?_
    rintro r _ rfl
    refine (h.upd r).bind fun _ _ h₁ => (csim_loop ?_ n _ h₁).bind ?_
    · intro c c' s h; simp only [repeatBody, hrr c c' _ h, h.metaBool]
    · rintro ⟨x, ⟨s₁, s₂⟩⟩ ⟨x', _⟩ ⟨hx, e⟩; cases e; simp only [hx.sub h]; exact .refl _

theorem same_ruleStep (n : Nat) {c c' : Convert} (p : Str) (h : Same c c') :
    readRuleStep strings rr n p c = readRuleStep strings rr n p c' := by
  refine CSim.eq ?_
  simp only [readRuleStep, h.startNode]
  refine (CSim.refl _).bind ?_
  rintro r _ rfl
  refine (h.upd r).bind fun d d' h₁ => ?_
  refine (CSim.of_eq (congrArg firstRule (same_ruleReaders strings rr hrr n h₁))).bind ?_
  rintro ⟨r, rule⟩ _ rfl
  refine (h₁.upd r).bind fun d d' h₂ => ?_
  simp only [h₂.endNode]
  refine (CSim.refl _).bind ?_
  rintro r _ rfl
  refine (h₂.upd r).bind fun d d' h₃ => ?_
  simp only [h₃.sub h]
  exact .refl _

end

theorem same_readRule (strings : List (Str × Str)) : ∀ (n : Nat) (c c' : Convert) (p : Str),
    Same c c' → readRule strings n p c = readRule strings n p c'
  | 0, _, _, _, _ => rfl
  | n + 1, _, _, p, h => same_ruleStep strings _ (same_readRule strings n) n p h

theorem same_readNode (strings : List (Str × Str)) (n : Nat) {c c' : Convert} (h : Same c c') :
    readNode strings n c = readNode strings n c' := by
  refine CSim.eq ?_
  simp only [readNode, h.startNode]
  refine (CSim.refl _).bind ?_
  rintro r _ rfl
  refine (h.upd r).bind fun _ _ h₁ => (csim_loop ?_ n _ h₁).bind ?_
  · intro c c' s h
    simp only [nodeBody, same_readRule strings n c c' _ h, h.metaString, h.metaF64]
  · rintro ⟨x, ⟨s₁, s₂, s₃⟩⟩ ⟨x', _⟩ ⟨hx, e⟩; cases e; simp only [hx.sub h]; exact .refl _

theorem csim_stringsLoop (n : Nat) : ∀ (k : Nat) {c c' : Convert} (s : List (Str × Str)), Same c c' →
    CSim (fun x y => Same x.1 y.1 ∧ x.2 = y.2) (stringsLoop n k c s) (stringsLoop n k c' s)
  | 0, _, _, _, _ => .timeout
  | k + 1, c, c', s, h => by
    simp only [stringsLoop, same_readString h]
    refine (CSim.refl _).bind ?_
    rintro x _ rfl
    cases x with
    | none => exact .pure ⟨h, rfl⟩
    | some x => exact (h.upd _).bind fun _ _ h => csim_stringsLoop n k _ h

theorem same_nodesLoop (strings : List (Str × Str)) (n : Nat) : ∀ (k : Nat) {c c' : Convert} (s : Syntax),
    Same c c' → CSim Eq (nodesLoop strings n k c s) (nodesLoop strings n k c' s)
  | 0, _, _, _, _ => .timeout
  | k + 1, c, c', s, h => by
    simp only [nodesLoop, same_readNode strings n h, h.remaining]
    refine (CSim.refl _).bind ?_
    rintro x _ rfl
    cases x with
    | none => exact .refl _
    | some x => exact (h.upd _).bind fun _ _ h => same_nodesLoop strings n k _ h

/-- `convert` does not look at source ranges. -/
theorem convert_same {data data' : List Tok} (h : data.map (·.data) = data'.map (·.data)) (n : Nat)
    (ignored : List Range) : convert n data ignored = convert n data' ignored := by
  have : convertM n data = convertM n data' := by
    refine CSim.eq ?_
    simp only [convertM]
    refine (csim_stringsLoop n n [] (c := .new data) (c' := .new data') ⟨rfl, h⟩).bind ?_
    rintro ⟨c, s⟩ ⟨c', s'⟩ ⟨h₁, e⟩
    cases e
    exact (same_nodesLoop s n n _ h₁).bind fun a b e => e ▸ .refl _
  simp only [convert, this]

end Verif
