import Verif.Proofs.ConvertCost
import Verif.Proofs.ConvertFuel
import Verif.Spec.ConvertDepth
/-
A bound on the depth of `read_rule` changes nothing if the data is not deeper.
-/
namespace Verif
open CM Convert Spec

/-! ### Data -/

namespace Spec

theorem RulesTo.items {d : Nat} {ts : List Tok} (h : RulesTo d ts) : Items ts := by
  induction h with
  | nil => exact .nil
  | value h _ ih => exact .value h ih
  | node _ _ _ _ ih₁ ih₂ => exact .node ih₁ ih₂

theorem RulesTo.mono {d d' : Nat} {ts : List Tok} (h : RulesTo d ts) (hd : d ≤ d') : RulesTo d' ts := by
  induction h generalizing d' with
  | nil => exact .nil
  | value h _ ih => exact .value h (ih hd)
  | node h₁ h₂ hb _ _ ih₂ => exact .node (by omega) (fun h => by have := h₂ h; omega) hb (ih₂ hd)

theorem RulesTo.append {d : Nat} {a b : List Tok} (ha : RulesTo d a) (hb : RulesTo d b) : RulesTo d (a ++ b) := by
  induction ha with
  | nil => exact hb
  | value h _ ih => exact .value h (ih hb)
  | node h₁ h₂ hb' _ _ ih₂ =>
    simp only [List.cons_append, List.append_assoc]
    exact .node h₁ h₂ hb' (ih₂ hb)

/-- The tokens after the data of a node: no node starts there. -/
def NoStart (tail : List Tok) : Prop := ∀ off nm, Convert.startNode ⟨tail, off⟩ nm = none

theorem noStart_nil : NoStart [] := fun _ _ => rfl
theorem noStart_end (r : Range) (name : Str) (rest : List Tok) : NoStart (⟨r, .endNode name⟩ :: rest) := fun _ _ => rfl

/-- What is left of `body` after something at its start with `r` as its range. -/
def Ahead (d : Nat) (body : List Tok) (off : Nat) (r : Range) : Prop :=
  ∃ a b, body = a ++ b ∧ r = ⟨off, a.length⟩ ∧ RulesTo d b

theorem RulesTo.first {d : Nat} {ts : List Tok} (h : RulesTo d ts) :
    ts = [] ∨ ∃ a b, ts = a ++ b ∧ Item a ∧ RulesTo d b := by
  cases h with
  | nil => exact .inl rfl
  | value h hr => exact .inr ⟨[_], _, rfl, .value h, hr⟩
  | @node d d' r₁ r₂ name body rest _ _ hb hr =>
    exact .inr ⟨⟨r₁, .startNode name⟩ :: body ++ [⟨r₂, .endNode name⟩], rest, by simp, .node hb.items, hr⟩

theorem RulesTo.start {d : Nat} {body tail : List Tok} {off : Nat} {nm : Str} {r : Range} (h : RulesTo d body)
    (ht : NoStart tail) (e : Convert.startNode ⟨body ++ tail, off⟩ nm = some r) :
    ∃ d' r₁ r₂ b rest, d' ≤ d ∧ (CallsRule nm b → d' < d) ∧ RulesTo d' b ∧ RulesTo d rest ∧ r = ⟨off, 1⟩ ∧
      body = ⟨r₁, .startNode nm⟩ :: (b ++ ⟨r₂, .endNode nm⟩ :: rest) := by
  cases h with
  | nil => rw [List.nil_append, ht off nm] at e; cases e
  | @value d t rest h hr =>
    obtain ⟨r, d⟩ := t
    cases d <;> simp_all [Convert.startNode, IsNode]
  | @node d d' r₁ r₂ name b rest h₁ h₂ hb hr =>
    simp only [List.cons_append, Convert.startNode] at e
    split at e
    · next hnm =>
      subst hnm
      cases e
      exact ⟨d', r₁, r₂, b, rest, h₁, h₂, hb, hr, rfl, rfl⟩
    · cases e

end Spec

/-! ### Local comparison -/

section
variable {α β σ : Type}

theorem FLe.bindOn {m m' : CM α} {f f' : α → CM β} (h : FLe m m')
    (hf : ∀ st a st', m st = .ok (some a, st') → FLe (f a) (f' a)) : FLe (m >>= f) (m' >>= f') := by
  refine ⟨fun st hs => ?_⟩
  have hm : m st ≠ .timeout := by
    intro e
    exact hs (by simp [Bind.bind, CM.bind, e])
  have e := h.eq st hm
  simp only [Bind.bind, CM.bind] at hs ⊢
  rw [e]
  cases hms : m st with
  | ok x =>
    obtain ⟨r, st'⟩ := x
    cases r with
    | none => rfl
    | some a =>
      rw [hms] at hs
      exact (hf _ a st' hms).eq st' hs
  | panic => rfl
  | timeout => exact absurd hms hm

theorem FLe.option {x : Option α} {f f' : α → CM β} (h : ∀ a, x = some a → FLe (f a) (f' a)) :
    FLe (ofOption x >>= f) (ofOption x >>= f') := by
  refine (FLe.refl _).bindOn ?_
  intro st a st' e
  simp only [ofOption, Comp.ok.injEq, Prod.mk.injEq] at e
  exact h a e.1

/-- Moving on over what is there. -/
theorem FLe.upd {c : Convert} {k : Nat} {f f' : Convert → CM β} (hk : k ≤ c.data.length)
    (h : FLe (f ⟨c.data.drop k, c.off + k⟩) (f' ⟨c.data.drop k, c.off + k⟩)) :
    FLe (c.upd ⟨c.off, k⟩ >>= f) (c.upd ⟨c.off, k⟩ >>= f') := by
  refine (FLe.refl _).bindOn ?_
  intro st a st' e
  rw [upd_eq hk] at e
  simp only [Comp.ok.injEq, Prod.mk.injEq, Option.some.injEq] at e
  rw [← e.1]
  exact h

theorem FLe.updAhead {d off : Nat} {body tail : List Tok} {r : Range} {f f' : Convert → CM β} (hr : Ahead d body off r)
    (h : ∀ off b, RulesTo d b → FLe (f ⟨b ++ tail, off⟩) (f' ⟨b ++ tail, off⟩)) :
    FLe (Convert.upd ⟨body ++ tail, off⟩ r >>= f) (Convert.upd ⟨body ++ tail, off⟩ r >>= f') := by
  obtain ⟨a, b, rfl, rfl, hb⟩ := hr
  refine FLe.upd (c := ⟨a ++ b ++ tail, off⟩) (by simp) ?_
  simp only [List.append_assoc, List.drop_left]
  exact h _ _ hb

/-- Readers: the second returns what the first returns on data up to depth `d`. -/
def LocalLe (d : Nat) (tail : List Tok) (f f' : Convert → CM α) : Prop :=
  ∀ off body, RulesTo d body → FLe (f ⟨body ++ tail, off⟩) (f' ⟨body ++ tail, off⟩)

/-- What is read is at the start of the data. -/
def Advances (d : Nat) (tail : List Tok) (f : Convert → CM (Range × α)) : Prop :=
  ∀ off body, RulesTo d body → ∀ st x st', f ⟨body ++ tail, off⟩ st = .ok (some x, st') → Ahead d body off x.1

/-- The same for the body of a loop. -/
def AdvancesBody (d : Nat) (tail : List Tok) (B : Convert → σ → CM (Option (Range × σ))) : Prop :=
  ∀ off body s, RulesTo d body → ∀ st x st', B ⟨body ++ tail, off⟩ s st = .ok (some (some x), st') → Ahead d body off x.1

theorem advancesBody_noRead {d : Nat} {tail : List Tok} : AdvancesBody (σ := σ) d tail fun _ _ => noRead := by
  intro off body s _ st x st' e
  simp [noRead, Pure.pure, CM.pure] at e

theorem advancesBody_try {d : Nat} {tail : List Tok} {f : σ → Convert → CM (Range × α)} {put : σ → α → σ}
    {B : Convert → σ → CM (Option (Range × σ))} (hf : ∀ s, Advances d tail (f s)) (hB : AdvancesBody d tail B) :
    AdvancesBody d tail fun c s => tryRead (f s c) (put s) (B c s) := by
  intro off body s hb st x st' e
  simp only [tryRead, Bind.bind, CM.bind, CM.attempt] at e
  cases hm : f s ⟨body ++ tail, off⟩ st with
  | ok y =>
    obtain ⟨y, st₁⟩ := y
    rw [hm] at e
    cases y with
    | none => exact hB off body s hb _ _ _ e
    | some y =>
      simp only [Pure.pure, CM.pure, Comp.ok.injEq, Prod.mk.injEq, Option.some.injEq] at e
      rw [← e.1]
      exact hf s off body hb _ _ _ hm
  | panic => rw [hm] at e; simp at e
  | timeout => rw [hm] at e; simp at e

/-- A method that reads one value. -/
theorem advances_value {d : Nat} {tail : List Tok} {g : Convert → Option (Range × α)}
    (hg : ∀ a rest off x, Item a → g ⟨a ++ rest, off⟩ = some x → x.1 = ⟨off, a.length⟩)
    (ht : ∀ off, g ⟨tail, off⟩ = none) : Advances d tail fun c => ofOption (g c) := by
  intro off body hb st x st' e
  simp only [ofOption, Comp.ok.injEq, Prod.mk.injEq] at e
  rcases hb.first with rfl | ⟨a, b, rfl, ha, hb'⟩
  · rw [List.nil_append, ht] at e; cases e.1
  · refine ⟨a, b, rfl, ?_, hb'⟩
    rw [List.append_assoc] at e
    exact hg a _ off x ha e.1

theorem FLe.loopOn {d : Nat} {nm : Str} {r₂ : Range} {rest : List Tok} {B B' : Convert → σ → CM (Option (Range × σ))}
    (hB : ∀ s, LocalLe d (⟨r₂, .endNode nm⟩ :: rest) (fun c => B c s) fun c => B' c s)
    (hm : AdvancesBody d (⟨r₂, .endNode nm⟩ :: rest) B) : ∀ {n m : Nat}, n ≤ m → ∀ s,
    LocalLe d (⟨r₂, .endNode nm⟩ :: rest) (fun c => Convert.loop nm B n c s) fun c => Convert.loop nm B' m c s
  | 0, _, _, _ => fun _ _ _ => .timeout _
  | n + 1, 0, h, _ => absurd h (by omega)
  | n + 1, m + 1, h, s => by
    intro off body hb
    simp only [Convert.loop]
    split
    · exact .refl _
    · next he =>
      refine (hB s off body hb).bindOn ?_
      intro st x st' e
      cases x with
      | some x => exact FLe.updAhead (hm off body s hb _ _ _ e) fun off b hb => FLe.loopOn hB hm (by omega) _ off b hb
      | none =>
        rcases hb.first with rfl | ⟨a, b, rfl, ha, hb'⟩
        · simp [endNode] at he
        · refine (FLe.refl _).bindOn ?_
          intro st r st' e
          rw [List.append_assoc, ignore_item ha] at e
          simp only [lift, Comp.ok.injEq, Prod.mk.injEq, Option.some.injEq] at e
          rw [← e.1]
          refine FLe.updAhead ⟨a, b, rfl, rfl, hb'⟩ fun off b hb => ?_
          exact (FLe.refl _).bind fun _ => FLe.loopOn hB hm (by omega) _ off b hb

/-- Into a node. -/
theorem FLe.node {d off : Nat} {nm : Str} {body tail : List Tok} (hb : RulesTo d body) (ht : NoStart tail)
    {f f' : Convert → CM α}
    (h : ∀ d' r₂ b rest off, d' ≤ d → (CallsRule nm b → d' < d) → RulesTo d' b →
      FLe (f ⟨b ++ ⟨r₂, .endNode nm⟩ :: rest, off⟩) (f' ⟨b ++ ⟨r₂, .endNode nm⟩ :: rest, off⟩)) :
    FLe (do
      let r ← ofOption (Convert.startNode ⟨body ++ tail, off⟩ nm)
      let c ← Convert.upd ⟨body ++ tail, off⟩ r
      f c) (do
      let r ← ofOption (Convert.startNode ⟨body ++ tail, off⟩ nm)
      let c ← Convert.upd ⟨body ++ tail, off⟩ r
      f' c) := by
  refine FLe.option fun r e => ?_
  obtain ⟨d', r₁, r₂, b, rest, h₁, h₂, hb', -, rfl, rfl⟩ := hb.start ht e
  refine FLe.upd (c := ⟨_, off⟩) (by simp) ?_
  simp only [List.cons_append, List.append_assoc, List.drop_one, List.tail_cons]
  exact h d' r₂ b _ _ h₁ h₂ hb'

end

/-! ### The readers -/

section
variable {strings : List (Str × Str)}

theorem advances_modest {α : Type} {K : Nat} {nm : Str} {f' : Convert → CCM (Range × α)} {f : Convert → CM (Range × α)}
    (hM : Modest K nm f') (hc : ∀ c, CountsFor (f' c) (f c)) {d : Nat} {tail : List Tok} (ht : NoStart tail) :
    Advances d tail f := by
  intro off body hb st x st' e
  rw [← (hc _).eq] at e
  cases hc : f' ⟨body ++ tail, off⟩ st with
  | ok y =>
    obtain ⟨r, st₁, k⟩ := y
    rw [hc] at e
    simp only [Bind.bind, Comp.bind, Pure.pure, Comp.ok.injEq, Prod.mk.injEq] at e
    obtain ⟨rfl, rfl⟩ := e
    cases hs : Convert.startNode ⟨body ++ tail, off⟩ nm with
    | none =>
      obtain ⟨l, _, h, _⟩ := hM.other _ hs _ _ _ _ hc
      cases h
    | some r =>
      obtain ⟨d', r₁, r₂, b, rest, h₁, h₂, hb', hr, rfl, rfl⟩ := hb.start ht hs
      simp only [List.cons_append, List.append_assoc] at hc
      obtain ⟨l, _, _, _, _, h⟩ := hM.node _ r₁ r₂ b (rest ++ tail) off hb'.items.nestedTo _ _ _ _ hc
      refine ⟨⟨r₁, .startNode nm⟩ :: (b ++ [⟨r₂, .endNode nm⟩]), rest, by simp, ?_, hr⟩
      rw [h _ rfl]
      simp
  | panic => rw [hc] at e; simp [Bind.bind, Comp.bind] at e
  | timeout => rw [hc] at e; simp [Bind.bind, Comp.bind] at e

/-- What `read_rule` has read is a node. -/
theorem advances_readRule (n : Nat) (p : Str) {d : Nat} {tail : List Tok} (ht : NoStart tail) :
    Advances d tail (readRule strings n p) :=
  advances_modest (modest_readRule (K := strings.length + 20) (Nat.le_refl _) n p) (counts_readRule n p) ht

theorem metaBool_end {r : Range} {name : Str} {rest : List Tok} {nm : Str} (off : Nat) :
    Convert.metaBool ⟨⟨r, .endNode name⟩ :: rest, off⟩ nm = none := rfl

/-- A reader with a loop in which rules are read. -/
theorem fle_loop_rules {σ α : Type} {n m d off : Nat} (hnm : n ≤ m) {nm : Str} (hh : nm ∈ [c!"sequence", c!"select", c!"separated_by", c!"repeat"])
    {B B' : Convert → σ → CM (Option (Range × σ))} {body tail : List Tok} (hb : RulesTo d body) (ht : NoStart tail)
    (hB : ∀ d' < d, ∀ r₂ rest s, LocalLe d' (⟨r₂, .endNode nm⟩ :: rest) (fun c => B c s) fun c => B' c s)
    (hm : ∀ d' r₂ rest, AdvancesBody d' (⟨r₂, .endNode nm⟩ :: rest) B) {s₀ : σ} {k : Convert × σ → CM α} :
    FLe (do
      let r ← ofOption (Convert.startNode ⟨body ++ tail, off⟩ nm)
      let c' ← Convert.upd ⟨body ++ tail, off⟩ r
      let x ← Convert.loop nm B n c' s₀
      k x) (do
      let r ← ofOption (Convert.startNode ⟨body ++ tail, off⟩ nm)
      let c' ← Convert.upd ⟨body ++ tail, off⟩ r
      let x ← Convert.loop nm B' m c' s₀
      k x) := by
  refine FLe.node hb ht fun d' r₂ b rest off h₁ h₂ hb' => ?_
  by_cases h0 : b = []
  · subst h0
    cases n with
    | zero => exact (FLe.timeout _).bind fun _ => .refl _
    | succ n =>
      obtain ⟨m, rfl⟩ : ∃ m', m = m' + 1 := ⟨m - 1, by omega⟩
      simp only [Convert.loop, List.nil_append, Convert.endNode, if_true]
      exact .refl _
  exact (FLe.loopOn (hB d' (h₂ (.inr ⟨hh, h0⟩)) r₂ rest) (hm d' r₂ rest) hnm s₀ off b hb').bind fun _ => .refl _

theorem fle_step_to {n m d off : Nat} (hnm : n ≤ m) {rr' : Str → Convert → CM (Range × Rule)}
    (hrr : ∀ d' < d, ∀ p r₂ nm rest, LocalLe d' (⟨r₂, .endNode nm⟩ :: rest) (readRule strings n p) (rr' p)) (p : Str)
    {body tail : List Tok} (hb : RulesTo d body) (ht : NoStart tail) :
    FLe (readRuleStep strings (readRule strings n) n p ⟨body ++ tail, off⟩)
      (readRuleStep strings rr' m p ⟨body ++ tail, off⟩) := by
  refine FLe.node hb ht fun d' r₂ b rest off h₁ _ hb' => ?_
  have hb := hb'.mono h₁
  have ht := noStart_end r₂ p rest
  have hr : ∀ q {d' : Nat} {r₂ nm rest}, Advances d' (⟨r₂, .endNode nm⟩ :: rest) (readRule strings n q) :=
    fun q => advances_readRule n q (noStart_end _ _ _)
  have hf : ∀ q {d' : Nat} {r₂ nm rest}, Advances d' (⟨r₂, .endNode nm⟩ :: rest) fun c => ofOption (c.metaBool q) :=
    fun q => advances_value metaBool_reads metaBool_end
  refine FLe.bind ?_ fun _ => .refl _
  refine FLe.firstRule (l := ruleReaders strings (readRule strings n) n) (l' := ruleReaders strings rr' m) ?_
  refine .cons ?_ (.cons ?_ (.cons ?_ (.cons ?_ (.cons ?_ (.cons ?_ (.cons ?_ (.cons ?_ (.cons ?_
    (.cons ?_ (.cons ?_ (.cons ?_ (.cons ?_ (.cons ?_ .nil)))))))))))))
  · exact fle_loop_rules hnm (by decide) hb ht
      (fun d' hd r₂ rest s off body hb => .tryRead (hrr d' hd _ _ _ _ off body hb) (.refl _))
      fun d' r₂ rest => advancesBody_try (fun _ => hr _) advancesBody_noRead
  · exact fle_loop_reader hnm (fle_until hnm strings)
  · exact fle_loop_reader hnm (fle_until hnm strings)
  · exact fle_loop_reader hnm fun c s => .tryRead (fle_readSet hnm ..) (.tryRead (fle_readSet hnm ..) (.refl _))
  · exact .refl _
  · exact fle_loop_reader hnm fun c s => .tryRead (.refl _) (.tryRead (fle_readSet hnm ..) (.refl _))
  · exact fle_loop_reader hnm fun c s => .tryRead (fle_readSet hnm ..) (.refl _)
  · exact fle_loop_reader hnm fun c s => .tryRead (.refl _) (.tryRead (fle_readSet hnm ..) (.refl _))
  · exact fle_loop_rules hnm (by decide) hb ht
      (fun d' hd r₂ rest s off body hb => .tryRead (hrr d' hd _ _ _ _ off body hb) (.refl _))
      fun d' r₂ rest => advancesBody_try (fun _ => hr _) advancesBody_noRead
  · exact FLe.node hb ht fun d' r₂ b rest off _ h₂ hb' =>
      (hrr d' (h₂ (.inl (by decide))) _ _ _ _ off b hb').bind fun _ => .refl _
  · exact FLe.node hb ht fun d' r₂ b rest off _ h₂ hb' =>
      (hrr d' (h₂ (.inl (by decide))) _ _ _ _ off b hb').bind fun _ => .refl _
  · exact fle_loop_rules hnm (by decide) hb ht
      (fun d' hd r₂ rest s off body hb => .tryRead (.refl _) (.tryRead (.refl _)
        (.tryRead (hrr d' hd _ _ _ _ off body hb) (.tryRead (hrr d' hd _ _ _ _ off body hb) (.refl _)))))
      fun d' r₂ rest => advancesBody_try (fun _ => hf _) (advancesBody_try (fun _ => hf _) (advancesBody_try (fun _ => hr _)
        (advancesBody_try (fun _ => hr _) advancesBody_noRead)))
  · refine FLe.node hb ht fun d' r₂ b rest off _ h₂ hb' => ?_
    simp only [readIndent]
    split
    · next r v e =>
      refine FLe.bindOn (.refl _) ?_
      intro st x st' e'
      have ha : Ahead d' b off r := hf c!"indent" (r₂ := r₂) (nm := c!"lines") (rest := rest) off b hb' ⟨0, []⟩ (r, v)
        ⟨0, []⟩ (by simp [ofOption, e])
      obtain ⟨a, b', rfl, rfl, hb''⟩ := ha
      have hx : x = (⟨b' ++ ⟨r₂, .endNode c!"lines"⟩ :: rest, off + a.length⟩, v) := by
        rw [bind_some (upd_eq (c := ⟨_, off⟩) (by simp))] at e'
        simp only [Pure.pure, CM.pure, Comp.ok.injEq, Prod.mk.injEq, Option.some.injEq, List.append_assoc,
          List.drop_left] at e'
        exact e'.1.symm
      subst hx
      exact (hrr d' (h₂ (.inl (by decide))) _ _ _ _ _ b' hb'').bind fun _ => .refl _
    · exact (hrr d' (h₂ (.inl (by decide))) _ _ _ _ off b hb').bind fun _ => .refl _
  · exact fle_loop_rules hnm (by decide) hb ht
      (fun d' hd r₂ rest s off body hb => .tryRead (hrr d' hd _ _ _ _ off body hb) (.refl _))
      fun d' r₂ rest => advancesBody_try (fun _ => hr _) (advancesBody_try (fun _ => hf _) advancesBody_noRead)

/-- A bound above the depth of the data changes nothing. -/
theorem fle_readRuleTo : ∀ {d n m : Nat}, n ≤ m → ∀ {e : Nat}, e < d → ∀ p {tail : List Tok}, NoStart tail →
    LocalLe e tail (readRule strings n p) (readRuleTo strings m d p)
  | _, 0, _, _, _, _, _, _, _ => fun _ _ _ => .timeout _
  | 0, _, _, _, _, h, _, _, _ => absurd h (by omega)
  | d + 1, n + 1, m, h, e, he, p, tail, ht => fun _ _ hb =>
    fle_step_to (by omega) (fun d' hd p r₂ nm rest => fle_readRuleTo (by omega) (by omega) p (noStart_end r₂ nm rest)) p
      hb ht

/-- What is returned with a bound is returned without. -/
theorem fle_readRule_of_to : ∀ {d n m : Nat}, n + d ≤ m → ∀ p c, FLe (readRuleTo strings n d p c) (readRule strings m p c)
  | 0, _, _, _, _, _ => .timeout _
  | d + 1, _, 0, h, _, _ => absurd h (by omega)
  | d + 1, n, m + 1, h, p, c => fle_rule_step (by omega) (fle_readRule_of_to (by omega)) p c

theorem metaF64_end {r : Range} {name : Str} {rest : List Tok} {nm : Str} (off : Nat) :
    Convert.metaF64 ⟨⟨r, .endNode name⟩ :: rest, off⟩ nm = none := rfl
theorem metaString_end {r : Range} {name : Str} {rest : List Tok} {nm : Str} (off : Nat) :
    Convert.metaString ⟨⟨r, .endNode name⟩ :: rest, off⟩ nm = none := rfl

theorem advances_setId {α : Type} {d k : Nat} {tail : List Tok} {f : Convert → CM (Range × α)} (h : Advances d tail f) :
    Advances d tail (fun c => setId k >>= fun _ => f c) := by
  intro off body hb st x st' e
  replace e : (setId k >>= fun _ => f ⟨body ++ tail, off⟩) st = .ok (some x, st') := e
  by_cases hk : k * 1000 < 2 ^ 64
  · rw [bind_some (a := ()) (st' := { st with id := k * 1000 }) (if_pos hk)] at e
    exact h off body hb _ _ _ e
  · simp only [Bind.bind, CM.bind, setId, if_neg hk] at e
    cases e

theorem fle_readNodeTo {d e n m : Nat} (h : n ≤ m) (he : e < d) {tail : List Tok} (ht : NoStart tail) :
    LocalLe e tail (readNode strings n) (readNodeTo strings d m) := by
  intro off body hb
  refine FLe.node hb ht fun d' r₂ b rest off h₁ _ hb' => ?_
  refine FLe.bind ?_ fun _ => .refl _
  refine FLe.loopOn (d := d') (fun s off body hb => ?_) ?_ h _ _ _ hb'
  · exact .tryRead (.refl _) (.tryRead (.refl _) (.tryRead ((FLe.refl _).bind fun _ =>
      fle_readRuleTo h (by omega) _ (noStart_end _ _ _) off body hb) (.refl _)))
  · unfold nodeBody
    refine advancesBody_try (f := fun _ c => ofOption (c.metaF64 c!"id")) (put := fun s v => (some v.toUsize, s.2))
      (fun _ => advances_value metaF64_reads metaF64_end) ?_
    refine advancesBody_try (f := fun _ c => ofOption (c.metaString c!"name")) (put := fun s v => (s.1, some v, s.2.2))
      (fun _ => advances_value metaString_reads metaString_end) ?_
    have hs : ∀ s : Option Nat × Option Str × Option Rule, Advances d' (⟨r₂, .endNode c!"node"⟩ :: rest)
        (fun c => setId (s.1.getD 0) >>= fun _ => readRule strings n c!"rule" c) :=
      fun s => advances_setId (advances_readRule n _ (noStart_end _ _ _))
    exact advancesBody_try hs advancesBody_noRead

theorem fle_nodesLoopTo {d e n m : Nat} (h : n ≤ m) (he : e < d) {tail : List Tok} (ht : NoStart tail) : ∀ {k l : Nat},
    k ≤ l → ∀ s, LocalLe e tail (fun c => nodesLoop strings n k c s) fun c => nodesLoopTo strings d m l c s
  | 0, _, _, _ => fun _ _ _ => .timeout _
  | k + 1, 0, h, _ => absurd h (by omega)
  | k + 1, l + 1, hk, s => by
    intro off body hb
    refine (fle_readNodeTo h he ht off body hb).attempt.bindOn ?_
    intro st a st' ea
    cases a with
    | none => exact .refl _
    | some a =>
      refine FLe.updAhead (d := e) ?_ fun off b hb => fle_nodesLoopTo h he ht (by omega) _ off b hb
      have hc : readNode strings n ⟨body ++ tail, off⟩ st = .ok (some a, st') := by
        simp only [CM.attempt] at ea
        split at ea
        · next e₁ =>
          simp only [Comp.ok.injEq, Prod.mk.injEq, Option.some.injEq] at ea
          rw [e₁, ea.1, ea.2]
        · cases ea
        · cases ea
      exact advances_modest (modest_readNode (K := strings.length + 20) (Nat.le_refl _) n) (counts_readNode strings n) ht off
        body hb _ _ _ hc

theorem fle_nodesLoop_of_to {d n m : Nat} (h : n + d ≤ m) : ∀ {k l : Nat}, k ≤ l → ∀ c s,
    FLe (nodesLoopTo strings d n k c s) (nodesLoop strings m l c s)
  | 0, _, _, _, _ => .timeout _
  | k + 1, 0, h, _, _ => absurd h (by omega)
  | k + 1, l + 1, hk, c, s => by
    refine FLe.bind (FLe.attempt ?_) ?_
    · exact fle_loop_reader (by omega) fun _ _ => .tryRead (.refl _) (.tryRead (.refl _)
        (.tryRead ((FLe.refl _).bind fun _ => fle_readRule_of_to h ..) (.refl _)))
    intro a
    cases a with
    | none => exact .refl _
    | some a => exact (FLe.refl _).bind fun c => fle_nodesLoop_of_to h (by omega) c _

end

/-- After the strings the rest of the data is left. -/
theorem stringsLoop_ahead {e n : Nat} : ∀ (k : Nat) {off : Nat} {body : List Tok} {s : List (Str × Str)}
    {st st' : CSt} {x : Convert × List (Str × Str)}, RulesTo e body →
    stringsLoop n k ⟨body, off⟩ s st = .ok (some x, st') → RulesTo e x.1.data
  | 0, _, _, _, _, _, _, _, e => by cases e
  | k + 1, off, body, s, st, st', x, hb, ex => by
    simp only [stringsLoop, Bind.bind, CM.bind] at ex
    split at ex
    · next a st₁ ea =>
      have hc : readString n ⟨body, off⟩ st = .ok (a, st₁) := by
        simp only [CM.attempt] at ea
        split at ea
        · next e₁ =>
          simp only [Comp.ok.injEq, Prod.mk.injEq, Option.some.injEq] at ea
          rw [e₁, ea.1, ea.2]
        · cases ea
        · cases ea
      cases a with
      | none =>
        simp only [Pure.pure, CM.pure, Comp.ok.injEq, Prod.mk.injEq, Option.some.injEq] at ex
        rw [← ex.1]
        exact hb
      | some a =>
        have := advances_modest (modest_readString n) (counts_readString n) noStart_nil off body hb st a st₁
          (by rw [List.append_nil]; exact hc)
        obtain ⟨r, v⟩ := a
        obtain ⟨a, b, rfl, hr, hb'⟩ := this
        simp only at hr
        subst hr
        have ex' : (Convert.upd ⟨a ++ b, off⟩ ⟨off, a.length⟩ >>= fun c => stringsLoop n k c (s ++ [v])) st₁ =
          .ok (some x, st') := ex
        rw [bind_some (upd_eq (c := ⟨a ++ b, off⟩) (by simp))] at ex'
        simp only [List.drop_left] at ex'
        exact stringsLoop_ahead k hb' ex'
    · cases ex
    · cases ex
    · cases ex

theorem fle_convertToM {d e n m : Nat} (h : n ≤ m) (he : e < d) {data : List Tok} (hd : RulesTo e data) :
    FLe (convertM n data) (convertToM d m data) := by
  refine (fle_stringsLoop h h _ _).bindOn ?_
  rintro st ⟨c, strings⟩ st' ex
  have := stringsLoop_ahead n (off := 0) hd ex
  refine FLe.bind ?_ fun _ => .refl _
  have hl := fle_nodesLoopTo (strings := strings) h he noStart_nil h Syntax.new c.off c.data this
  simpa using hl

theorem fle_convertM_of_to {d n m : Nat} (h : n + d ≤ m) (data : List Tok) :
    FLe (convertToM d n data) (convertM m data) :=
  (fle_stringsLoop (by omega) (by omega) _ _).bind fun _ => (fle_nodesLoop_of_to h (by omega) _ _).bind fun _ => .refl _

/-! ### A larger bound -/

section
variable {strings : List (Str × Str)}

theorem fle_readRuleTo_mono {n : Nat} : ∀ {d d' : Nat}, d ≤ d' → ∀ p c,
    FLe (readRuleTo strings n d p c) (readRuleTo strings n d' p c)
  | 0, _, _, _, _ => .timeout _
  | d + 1, 0, h, _, _ => absurd h (by omega)
  | d + 1, d' + 1, h, p, c => fle_rule_step (Nat.le_refl _) (fle_readRuleTo_mono (by omega)) p c

theorem fle_nodesLoopTo_mono {n d d' : Nat} (h : d ≤ d') : ∀ (k : Nat) c s,
    FLe (nodesLoopTo strings d n k c s) (nodesLoopTo strings d' n k c s)
  | 0, _, _ => .timeout _
  | k + 1, c, s => by
    refine FLe.bind (FLe.attempt ?_) ?_
    · exact fle_loop_reader (Nat.le_refl _) fun _ _ => .tryRead (.refl _) (.tryRead (.refl _)
        (.tryRead ((FLe.refl _).bind fun _ => fle_readRuleTo_mono h ..) (.refl _)))
    intro a
    cases a with
    | none => exact .refl _
    | some a => exact (FLe.refl _).bind fun c => fle_nodesLoopTo_mono h k c _

end

theorem convertTo_mono {n d d' : Nat} (h : d ≤ d') {data : List Tok} {ignored : List Range}
    (hs : convertTo d n data ignored ≠ .timeout) : convertTo d' n data ignored = convertTo d n data ignored := by
  have hn : convertToM d n data ⟨0, ignored⟩ ≠ .timeout := by
    intro e
    exact hs (by simp [convertTo, e])
  have hf : FLe (convertToM d n data) (convertToM d' n data) :=
    (FLe.refl _).bind fun _ => (fle_nodesLoopTo_mono h n _ _).bind fun _ => .refl _
  simp only [convertTo, hf.eq _ hn]

/-! ### The whole -/

theorem convertTo_eq {d e n : Nat} (he : e < d) {data : List Tok} (hd : RulesTo e data) {ignored : List Range}
    (hs : convert n data ignored ≠ .timeout) : convertTo d n data ignored = convert n data ignored := by
  have hn : convertM n data ⟨0, ignored⟩ ≠ .timeout := by
    intro e
    exact hs (by simp [convert, e])
  simp only [convert, convertTo, (fle_convertToM (Nat.le_refl _) he hd).eq _ hn]
  cases convertM n data ⟨0, ignored⟩ <;> rfl

theorem convert_of_to {d n : Nat} {data : List Tok} {ignored : List Range}
    (hs : convertTo d n data ignored ≠ .timeout) : convert (n + d) data ignored = convertTo d n data ignored := by
  have hn : convertToM d n data ⟨0, ignored⟩ ≠ .timeout := by
    intro e
    exact hs (by simp [convertTo, e])
  simp only [convert, convertTo, (fle_convertM_of_to (Nat.le_refl _) data).eq _ hn]
  cases convertToM d n data ⟨0, ignored⟩ <;> rfl

end Verif
