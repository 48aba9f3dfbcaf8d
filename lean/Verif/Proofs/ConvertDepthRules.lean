import Verif.Proofs.ConvertDepth
import Verif.Proofs.FileSize
import Verif.Proofs.DescAll
/-
The rules that `convert` returns are not deeper than its calls; the data of a description is as deep as the
description.
-/
namespace Verif
open CM Convert Spec

/-! ### The depth of what is returned -/

/-- If `m` returns Ok, then with a value for which `Q`. -/
def Gives {α : Type} (m : CM α) (Q : α → Prop) : Prop := ∀ st a st', m st = .ok (some a, st') → Q a

section
variable {α β σ : Type}

theorem gives_any (m : CM α) : Gives m fun _ => True := fun _ _ _ _ => trivial

theorem Gives.bind {m : CM α} {f : α → CM β} {P : α → Prop} {Q : β → Prop} (h : Gives m P)
    (hf : ∀ a, P a → Gives (f a) Q) : Gives (m >>= f) Q := by
  intro st b st' e
  simp only [Bind.bind, CM.bind] at e
  split at e
  · next e₁ => exact hf _ (h _ _ _ e₁) _ _ _ e
  · cases e
  · cases e
  · cases e

theorem Gives.any {m : CM α} {f : α → CM β} {Q : β → Prop} (hf : ∀ a, Gives (f a) Q) : Gives (m >>= f) Q :=
  (gives_any m).bind fun a _ => hf a

theorem Gives.pure {a : α} {Q : α → Prop} (h : Q a) : Gives (Pure.pure a : CM α) Q := by
  intro st b st' e
  simp only [Pure.pure, CM.pure, Comp.ok.injEq, Prod.mk.injEq, Option.some.injEq] at e
  rw [← e.1]
  exact h

theorem Gives.timeout {Q : α → Prop} : Gives (CM.timeout : CM α) Q := by
  intro st b st' e
  cases e

theorem Gives.err {Q : α → Prop} : Gives (CM.err : CM α) Q := by
  intro st b st' e
  simp [CM.err] at e

theorem Gives.ofOption {x : Option α} {Q : α → Prop} (h : ∀ a, x = some a → Q a) : Gives (CM.ofOption x) Q := by
  intro st b st' e
  simp only [CM.ofOption, Comp.ok.injEq, Prod.mk.injEq] at e
  exact h _ e.1

theorem Gives.attempt {m : CM α} {Q : α → Prop} (h : Gives m Q) : Gives (CM.attempt m) fun x => ∀ a, x = some a → Q a := by
  intro st b st' e a hb
  subst hb
  simp only [CM.attempt] at e
  split at e
  · next e₁ =>
    simp only [Comp.ok.injEq, Prod.mk.injEq, Option.some.injEq] at e
    rw [e.1] at e₁
    exact h _ _ _ e₁
  · cases e
  · cases e

/-- The body of a loop keeps `I`. -/
def KeepsAll (I : σ → Prop) (B : Convert → σ → CM (Option (Range × σ))) : Prop :=
  ∀ c s, I s → Gives (B c s) fun x => ∀ y, x = some y → I y.2

theorem keepsAll_noRead {I : σ → Prop} : KeepsAll I fun _ _ => noRead := fun _ _ _ => Gives.pure (by simp)

theorem keepsAll_try {I : σ → Prop} {f : Convert → σ → CM (Range × α)} {P : Range × α → Prop} {put : σ → α → σ}
    {B : Convert → σ → CM (Option (Range × σ))} (hf : ∀ c s, Gives (f c s) P) (hp : ∀ s x, I s → P x → I (put s x.2))
    (hB : KeepsAll I B) : KeepsAll I fun c s => tryRead (f c s) (put s) (B c s) := by
  intro c s hs
  refine (hf c s).attempt.bind ?_
  intro a ha
  cases a with
  | none => exact hB c s hs
  | some a => exact Gives.pure (by rintro _ ⟨⟩; exact hp s a hs (ha a rfl))

theorem gives_loop {I : σ → Prop} {nm : Str} {B : Convert → σ → CM (Option (Range × σ))} (hB : KeepsAll I B) :
    ∀ (n : Nat) (c : Convert) (s : σ), I s → Gives (Convert.loop nm B n c s) fun x => I x.2
  | 0, _, _, _ => Gives.timeout
  | n + 1, c, s, hs => by
    simp only [Convert.loop]
    split
    · exact Gives.any fun _ => Gives.pure hs
    · refine (hB c s hs).bind ?_
      intro x hx
      cases x with
      | some x => exact Gives.any fun c => gives_loop hB n c _ (hx x rfl)
      | none => exact Gives.any fun _ => Gives.any fun c => Gives.any fun _ => gives_loop hB n c s hs

end

theorem ruleDepthL_append (a b : List Rule) : ruleDepthL (a ++ b) = max (ruleDepthL a) (ruleDepthL b) := by
  induction a with
  | nil => simp [ruleDepthL]
  | cons x a ih => simp [ruleDepthL, ih, Nat.max_assoc]

theorem ruleDepthL_le {rs : List Rule} {d : Nat} : ruleDepthL rs ≤ d ↔ ∀ r ∈ rs, ruleDepth r ≤ d := by
  induction rs with
  | nil => simp [ruleDepthL]
  | cons x a ih => simp [ruleDepthL, ih, Nat.max_le]

section
variable {strings : List (Str × Str)}

theorem gives_firstRule {Q : Range × Rule → Prop} : ∀ {l : List (CM (Range × Rule))}, (∀ m ∈ l, Gives m Q) →
    Gives (firstRule l) Q
  | [], _ => Gives.err
  | m :: l, h => by
    refine (h m (by simp)).attempt.bind ?_
    intro a ha
    cases a with
    | none => exact gives_firstRule fun m hm => h m (by simp [hm])
    | some a => exact Gives.pure (ha a rfl)

theorem gives_step {rr : Str → Convert → CM (Range × Rule)} {d : Nat} (n : Nat)
    (hrr : ∀ p c, Gives (rr p c) fun x => ruleDepth x.2 ≤ d) (p : Str) (c : Convert) :
    Gives (readRuleStep strings rr n p c) fun x => ruleDepth x.2 ≤ d + 1 := by
  refine Gives.any fun _ => Gives.any fun c => Gives.bind (P := fun x => ruleDepth x.2 ≤ d + 1) (gives_firstRule ?_)
    fun x hx => Gives.any fun _ => Gives.any fun _ => Gives.any fun _ => Gives.any fun _ => Gives.pure hx
  have leaf : ∀ {r : Rule}, ruleDepth r = 1 → ruleDepth r ≤ d + 1 := fun h => by omega
  have args : ∀ (nm : Str) (c : Convert), Gives (Convert.loop nm (argsBody rr) n c []) fun x => ruleDepthL x.2 ≤ d := by
    intro nm c
    refine gives_loop (I := fun s => ruleDepthL s ≤ d) ?_ n c [] (by simp [ruleDepthL])
    refine keepsAll_try (fun c _ => hrr _ c) ?_ keepsAll_noRead
    intro s x hs hx
    simp only [ruleDepthL_append, ruleDepthL, Nat.max_le]
    exact ⟨hs, hx, by omega⟩
  simp only [List.mem_cons, List.not_mem_nil, or_false]
  rintro m (rfl | rfl | rfl | rfl | rfl | rfl | rfl | rfl | rfl | rfl | rfl | rfl | rfl | rfl)
  · exact Gives.any fun _ => Gives.any fun c => (args _ c).bind fun x hx => Gives.any fun _ => Gives.any fun _ =>
      Gives.pure (by simpa [ruleDepth] using hx)
  · exact Gives.any fun _ => Gives.any fun c => Gives.any fun x => Gives.any fun _ => Gives.any fun _ => Gives.any fun _ =>
      Gives.pure (leaf (by simp [ruleDepth]))
  · exact Gives.any fun _ => Gives.any fun c => Gives.any fun x => Gives.any fun _ => Gives.any fun _ => Gives.any fun _ =>
      Gives.pure (leaf (by simp [ruleDepth]))
  · exact Gives.any fun _ => Gives.any fun c => Gives.any fun x => Gives.any fun _ => Gives.any fun _ => Gives.any fun _ =>
      Gives.pure (leaf (by simp [ruleDepth]))
  · exact Gives.any fun _ => Gives.any fun c => Gives.any fun x => Gives.any fun _ => Gives.any fun _ => Gives.any fun _ =>
      Gives.any fun _ => Gives.any fun _ => Gives.pure (leaf (by simp [ruleDepth]))
  · exact Gives.any fun _ => Gives.any fun c => Gives.any fun x => Gives.any fun _ => Gives.any fun _ =>
      Gives.pure (leaf (by simp [ruleDepth]))
  · exact Gives.any fun _ => Gives.any fun c => Gives.any fun x => Gives.any fun _ => Gives.any fun _ =>
      Gives.pure (leaf (by simp [ruleDepth]))
  · exact Gives.any fun _ => Gives.any fun c => Gives.any fun x => Gives.any fun _ => Gives.any fun _ => Gives.any fun _ =>
      Gives.pure (leaf (by simp [ruleDepth]))
  · exact Gives.any fun _ => Gives.any fun c => (args _ c).bind fun x hx => Gives.any fun _ => Gives.any fun _ =>
      Gives.pure (by simpa [ruleDepth] using hx)
  · exact Gives.any fun _ => Gives.any fun c => (hrr _ c).bind fun x hx => Gives.any fun _ => Gives.any fun _ =>
      Gives.any fun _ => Gives.any fun _ => Gives.any fun _ => Gives.pure (by simpa [ruleDepth] using hx)
  · exact Gives.any fun _ => Gives.any fun c => (hrr _ c).bind fun x hx => Gives.any fun _ => Gives.any fun _ =>
      Gives.any fun _ => Gives.any fun _ => Gives.any fun _ => Gives.pure (by simpa [ruleDepth] using hx)
  · refine Gives.any fun _ => Gives.any fun c => Gives.bind (P := fun x : Convert × _ =>
      (∀ r, x.2.2.2.1 = some r → ruleDepth r ≤ d) ∧ ∀ r, x.2.2.2.2 = some r → ruleDepth r ≤ d) ?_ ?_
    · refine gives_loop (I := fun s : Option Bool × Option Bool × Option Rule × Option Rule => (∀ r, s.2.2.1 = some r → ruleDepth r ≤ d) ∧ ∀ r, s.2.2.2 = some r → ruleDepth r ≤ d)
        ?_ n c _ (by simp)
      refine keepsAll_try (fun _ _ => gives_any _) (by simp) (keepsAll_try (fun _ _ => gives_any _) (by simp)
        (keepsAll_try (fun c _ => hrr _ c) ?_ (keepsAll_try (fun c _ => hrr _ c) ?_ keepsAll_noRead)))
      · rintro s x hs hx; exact ⟨by rintro _ ⟨⟩; exact hx, hs.2⟩
      · rintro s x hs hx; exact ⟨hs.1, by rintro _ ⟨⟩; exact hx⟩
    · rintro ⟨_, _, _, _, _⟩ ⟨h₁, h₂⟩
      exact (Gives.ofOption h₁).bind fun _ h₁ => (Gives.ofOption h₂).bind fun _ h₂ => Gives.any fun _ => Gives.any fun _ =>
        Gives.pure (by simp only [ruleDepth, Nat.add_le_add_iff_right, Nat.max_le]; exact ⟨h₁, h₂⟩)
  · exact Gives.any fun _ => Gives.any fun c => Gives.any fun y => (hrr _ _).bind fun x hx => Gives.any fun _ => Gives.any fun _ =>
      Gives.any fun _ => Gives.any fun _ => Gives.any fun _ => Gives.pure (by simpa [ruleDepth] using hx)
  · refine Gives.any fun _ => Gives.any fun c => Gives.bind (P := fun x : Convert × _ =>
      (∀ r, x.2.1 = some r → ruleDepth r ≤ d)) ?_ ?_
    · refine gives_loop (I := fun s : Option Rule × Option Bool => (∀ r, s.1 = some r → ruleDepth r ≤ d)) ?_ n c _ (by simp)
      refine keepsAll_try (fun c _ => hrr _ c) ?_ (keepsAll_try (fun _ _ => gives_any _) (fun s x hs _ => hs) keepsAll_noRead)
      rintro s x hs hx; rintro _ ⟨⟩; exact hx
    · rintro ⟨_, _, _⟩ h₁
      exact (Gives.ofOption h₁).bind fun _ h₁ => Gives.any fun _ => Gives.any fun _ => Gives.any fun _ =>
        Gives.pure (by simp only [ruleDepth, Nat.add_le_add_iff_right]; exact h₁)

theorem gives_readRuleTo (n : Nat) : ∀ (d : Nat) (p : Str) (c : Convert),
    Gives (readRuleTo strings n d p c) fun x => ruleDepth x.2 ≤ d
  | 0, _, _ => Gives.timeout
  | d + 1, p, c => gives_step n (gives_readRuleTo n d) p c

theorem gives_readNodeTo (d n : Nat) (c : Convert) : Gives (readNodeTo strings d n c) fun x => ruleDepth x.2.2 ≤ d := by
  refine Gives.any fun _ => Gives.any fun c => Gives.bind (P := fun x : Convert × _ =>
    (∀ r, x.2.2.2 = some r → ruleDepth r ≤ d)) ?_ ?_
  · refine gives_loop (I := fun s : Option Nat × Option Str × Option Rule => (∀ r, s.2.2 = some r → ruleDepth r ≤ d)) ?_ n c _ (by simp)
    have hs : ∀ (c : Convert) (s : Option Nat × Option Str × Option Rule),
        Gives (setId (s.1.getD 0) >>= fun _ => readRuleTo strings n d c!"rule" c) fun x => ruleDepth x.2 ≤ d :=
      fun c s => Gives.any fun _ => gives_readRuleTo n d _ c
    refine keepsAll_try (fun _ _ => gives_any _) (fun s x hs _ => hs) (keepsAll_try (fun _ _ => gives_any _)
      (fun s x hs _ => hs) (keepsAll_try hs ?_ keepsAll_noRead))
    rintro s x hs hx; rintro _ ⟨⟩; exact hx
  · rintro ⟨_, _, _, _⟩ h₁
    exact Gives.any fun _ => (Gives.ofOption h₁).bind fun _ h₁ => Gives.any fun _ => Gives.pure h₁

theorem gives_nodesLoopTo (d n : Nat) : ∀ (k : Nat) (c : Convert) (s : Syntax), ruleDepthL s.rules ≤ d →
    Gives (nodesLoopTo strings d n k c s) fun s => ruleDepthL s.rules ≤ d
  | 0, _, _, _ => Gives.timeout
  | k + 1, c, s, hs => by
    refine (gives_readNodeTo d n c).attempt.bind ?_
    intro a ha
    cases a with
    | none =>
      dsimp only
      split
      · exact Gives.err
      · exact Gives.pure hs
    | some a =>
      refine Gives.any fun c => gives_nodesLoopTo d n k c _ ?_
      simp only [Syntax.push, ruleDepthL_append, ruleDepthL, Nat.max_le]
      exact ⟨hs, ha a rfl, by omega⟩

end

mutual
theorem depth_updateRefs (names : List Str) : (r : Rule) → ruleDepth (r.updateRefs names) = ruleDepth r
  | .whitespace .. | .tag .. | .untilAny .. | .untilAnyOrWs .. | .text .. | .number .. | .fastSelect ..
  | .node _ _ none _ | .node _ _ (some _) _ => by simp [Rule.updateRefs, ruleDepth]
  | .select args _ | .sequence args _ => by simp [Rule.updateRefs, ruleDepth, depth_updateRefsL names args]
  | .separateBy r b .. => by simp [Rule.updateRefs, ruleDepth, depth_updateRefs names r, depth_updateRefs names b]
  | .repeat_ r .. | .lines r .. | .optional r .. | .not r .. => by
    simp [Rule.updateRefs, ruleDepth, depth_updateRefs names r]
theorem depth_updateRefsL (names : List Str) : (rs : List Rule) → ruleDepthL (Rule.updateRefsL names rs) = ruleDepthL rs
  | [] => rfl
  | r :: rs => by simp [Rule.updateRefsL, ruleDepthL, depth_updateRefs names r, depth_updateRefsL names rs]
end

/-- The rules are not deeper than the calls of `read_rule`. -/
theorem convertTo_depth {d n : Nat} {data : List Tok} {ignored ignored' : List Range} {syn : Syntax}
    (h : convertTo d n data ignored = .ok (some syn, ignored')) {r : Rule} (hr : r ∈ syn.rules) : ruleDepth r ≤ d := by
  have hg : Gives (convertToM d n data) fun s => ruleDepthL s.rules ≤ d := by
    refine Gives.any fun _ => (gives_nodesLoopTo d n n _ _ (by simp [Syntax.new, ruleDepthL])).bind fun s hs => Gives.pure ?_
    rw [ruleDepthL_le] at hs ⊢
    intro r hr
    obtain ⟨x, hx, rfl⟩ := List.mem_map.1 hr
    rw [depth_updateRefs]
    exact hs x hx
  simp only [convertTo] at h
  split at h
  · next r' st e =>
    simp only [Comp.ok.injEq, Prod.mk.injEq] at h
    rw [h.1] at e
    exact ruleDepthL_le.1 (hg _ _ _ e) r hr
  · cases h
  · cases h

/-! ### The depth of the data of a description -/

section
variable {ts : List Tok}

theorem map_nodeOf {name : Str} {body rest : List MetaData} (h : ts.map (·.data) = nodeOf name body ++ rest) :
    ∃ r₁ r₂ b c, ts = ⟨r₁, .startNode name⟩ :: (b ++ ⟨r₂, .endNode name⟩ :: c) ∧ b.map (·.data) = body ∧
      c.map (·.data) = rest := by
  simp only [nodeOf, List.cons_append, List.append_assoc, List.map_eq_cons_iff] at h
  obtain ⟨⟨r₁, d⟩, l, rfl, rfl, h⟩ := h
  obtain ⟨b, c, rfl, hb, h⟩ := List.map_eq_append_iff.1 h
  simp only [List.nil_append, List.map_eq_cons_iff] at h
  obtain ⟨⟨r₂, d⟩, c, rfl, rfl, hc⟩ := h
  exact ⟨r₁, r₂, b, c, rfl, hb, hc⟩

end

/-- Data of which the tokens are of some depth. -/
def DataTo (d : Nat) (l : List MetaData) : Prop := ∀ ts : List Tok, ts.map (·.data) = l → RulesTo d ts

theorem dataTo_nil {d : Nat} : DataTo d [] := by
  intro ts h
  rw [List.map_eq_nil_iff.1 h]
  exact .nil

theorem dataTo_append {d : Nat} {a b : List MetaData} (ha : DataTo d a) (hb : DataTo d b) : DataTo d (a ++ b) := by
  intro ts h
  obtain ⟨x, y, rfl, hx, hy⟩ := List.map_eq_append_iff.1 h
  exact (ha x hx).append (hb y hy)

theorem dataTo_value {d : Nat} {x : MetaData} {l : List MetaData} (hx : ¬ IsNode x) (hl : DataTo d l) : DataTo d (x :: l) := by
  intro ts h
  obtain ⟨⟨r, _⟩, l', rfl, rfl, h'⟩ := List.map_eq_cons_iff.1 h
  exact .value hx (hl _ h')

theorem dataTo_node {d : Nat} {name : Str} {body : List MetaData}
    (hn : name ∉ [c!"optional", c!"not", c!"lines", c!"sequence", c!"select", c!"separated_by", c!"repeat"])
    (hb : DataTo d body) : DataTo d (nodeOf name body) := by
  intro ts h
  obtain ⟨r₁, r₂, b, c, rfl, h₁, h₂⟩ := map_nodeOf (rest := []) (by simpa using h)
  refine .node (Nat.le_refl _) ?_ (hb _ h₁) (dataTo_nil _ h₂)
  rintro (h | ⟨h, -⟩)
  · exact absurd (List.mem_append_left [c!"sequence", c!"select", c!"separated_by", c!"repeat"] h) hn
  · exact absurd (List.mem_append_right [c!"optional", c!"not", c!"lines"] h) hn

theorem dataTo_rules {d : Nat} {name : Str} {body : List MetaData} (hb : DataTo d body) :
    DataTo (d + 1) (nodeOf name body) := by
  intro ts h
  obtain ⟨r₁, r₂, b, c, rfl, h₁, h₂⟩ := map_nodeOf (rest := []) (by simpa using h)
  exact .node (Nat.le_succ _) (fun _ => Nat.lt_succ_self _) (hb _ h₁) (dataTo_nil _ h₂)

theorem dataTo_empty {d : Nat} {name : Str} (hn : name ∉ [c!"optional", c!"not", c!"lines"]) :
    DataTo d (nodeOf name []) := by
  intro ts h
  obtain ⟨r₁, r₂, b, c, rfl, h₁, h₂⟩ := map_nodeOf (rest := []) (by simpa using h)
  refine .node (Nat.le_refl _) ?_ (dataTo_nil _ h₁) (dataTo_nil _ h₂)
  rintro (h | ⟨-, h⟩)
  · exact absurd h hn
  · exact absurd (List.map_eq_nil_iff.1 h₁) h

theorem DataTo.mono {d d' : Nat} {l : List MetaData} (h : DataTo d l) (hd : d ≤ d') : DataTo d' l :=
  fun ts e => (h ts e).mono hd

theorem dataTo_set {d : Nat} {p : Str} (hp : p ∉ [c!"optional", c!"not", c!"lines", c!"sequence", c!"select", c!"separated_by", c!"repeat"]) (v : SetV) : DataTo d (v.data p) := by
  cases v <;> exact dataTo_node hp (dataTo_value (by simp [IsNode]) dataTo_nil)

theorem dataTo_flag {d : Nat} {p : Str} (o : Option Bool) : DataTo d (flag p o) := by
  cases o with
  | none => exact dataTo_nil
  | some => exact dataTo_value (by simp [IsNode]) dataTo_nil

theorem dataTo_prop {d : Nat} (p : Option SetV) : DataTo d (propData p) := by
  cases p with
  | none => exact dataTo_nil
  | some v => exact dataTo_set (by decide) v

theorem desc_depth_pos (d : Desc) : 1 ≤ d.depth := by
  cases d <;> simp [Desc.depth]

mutual
theorem dataTo_desc : (d : Desc) → ∀ {e : Nat}, d.depth ≤ e + 1 → DataTo e d.data
  | .whitespace _, _, _ => dataTo_node (by decide) (dataTo_value (by simp [IsNode]) dataTo_nil)
  | .untilAnyOrWs _ _ _, _, _ => dataTo_node (by decide) (dataTo_append (dataTo_append (dataTo_set (by decide) _) (dataTo_flag _)) (dataTo_prop _))
  | .untilAny _ _ _, _, _ => dataTo_node (by decide) (dataTo_append (dataTo_append (dataTo_set (by decide) _) (dataTo_flag _)) (dataTo_prop _))
  | .tag _ _ _ _, _, _ => dataTo_node (by decide) (dataTo_append (dataTo_append (dataTo_append (dataTo_flag _) (dataTo_set (by decide) _))
      (dataTo_flag _)) (dataTo_prop _))
  | .text _ _, _, _ => dataTo_node (by decide) (dataTo_append (dataTo_flag _) (dataTo_prop _))
  | .number _ _, _, _ => dataTo_node (by decide) (dataTo_append (dataTo_flag _) (dataTo_prop _))
  | .reference _ _, _, _ => dataTo_node (by decide) (dataTo_value (by simp [IsNode]) (dataTo_prop _))
  | .sequence args, e, h => by
    rw [Desc.depth] at h
    cases e with
    | zero =>
      cases args with
      | nil => exact dataTo_empty (by decide)
      | cons d ds =>
        have := desc_depth_pos d
        simp only [Desc.depthL] at h
        omega
    | succ e => exact dataTo_rules (dataTo_descL args (by omega))
  | .select args, e, h => by
    rw [Desc.depth] at h
    cases e with
    | zero =>
      cases args with
      | nil => exact dataTo_empty (by decide)
      | cons d ds =>
        have := desc_depth_pos d
        simp only [Desc.depthL] at h
        omega
    | succ e => exact dataTo_rules (dataTo_descL args (by omega))
  | .optional d, e, h => by
    rw [Desc.depth] at h
    have := desc_depth_pos d
    obtain ⟨e, rfl⟩ : ∃ e', e = e' + 1 := ⟨e - 1, by omega⟩
    exact dataTo_rules (dataTo_node (by decide) (dataTo_desc d (by omega)))
  | .not d, e, h => by
    rw [Desc.depth] at h
    have := desc_depth_pos d
    obtain ⟨e, rfl⟩ : ∃ e', e = e' + 1 := ⟨e - 1, by omega⟩
    exact dataTo_rules (dataTo_node (by decide) (dataTo_desc d (by omega)))
  | .separatedBy _ _ b d, e, h => by
    rw [Desc.depth] at h
    have := desc_depth_pos d
    obtain ⟨e, rfl⟩ : ∃ e', e = e' + 1 := ⟨e - 1, by omega⟩
    exact dataTo_rules (dataTo_append (dataTo_append (dataTo_append (dataTo_flag _) (dataTo_flag _))
      (dataTo_node (by decide) (dataTo_desc b (by omega)))) (dataTo_node (by decide) (dataTo_desc d (by omega))))
  | .lines _ d, e, h => by
    rw [Desc.depth] at h
    have := desc_depth_pos d
    obtain ⟨e, rfl⟩ : ∃ e', e = e' + 1 := ⟨e - 1, by omega⟩
    exact dataTo_rules (dataTo_append (dataTo_flag _) (dataTo_node (by decide) (dataTo_desc d (by omega))))
  | .repeat_ _ d, e, h => by
    rw [Desc.depth] at h
    have := desc_depth_pos d
    obtain ⟨e, rfl⟩ : ∃ e', e = e' + 1 := ⟨e - 1, by omega⟩
    exact dataTo_rules (dataTo_value (by simp [IsNode]) (dataTo_node (by decide) (dataTo_desc d (by omega))))
theorem dataTo_descL : (ds : List Desc) → ∀ {e : Nat}, Desc.depthL ds ≤ e + 1 → DataTo e (Desc.dataL ds)
  | [], _, _ => dataTo_nil
  | d :: ds, e, h => by
    simp only [Desc.depthL, Nat.max_le] at h
    exact dataTo_append (dataTo_node (by decide) (dataTo_desc d h.1)) (dataTo_descL ds h.2)
end

theorem dataTo_doc {doc : Doc} {e : Nat} (h : doc.depth ≤ e + 1) : DataTo e doc.data := by
  obtain ⟨ss, ns⟩ := doc
  refine dataTo_append ?_ ?_
  · clear h
    dsimp only
    induction ss with
    | nil => exact dataTo_nil
    | cons s ss ih =>
      exact dataTo_append (dataTo_node (by decide) (dataTo_value (by simp [IsNode]) (dataTo_value (by simp [IsNode]) dataTo_nil))) ih
  · simp only [Doc.depth] at h
    induction ns with
    | nil => exact dataTo_nil
    | cons n ns ih =>
      simp only [List.map_cons, Desc.depthL, Nat.max_le] at h
      exact dataTo_append (dataTo_node (by decide) (dataTo_value (by simp [IsNode]) (dataTo_value (by simp [IsNode])
        (dataTo_node (by decide) (dataTo_desc _ h.1))))) (ih h.2)

/-! ### Descriptions and rules -/

mutual
theorem depth_rule {strings : List (Str × Str)} (d : Desc) {i i' : Nat} {r : Rule} (h : d.rule strings i = some (r, i')) :
    ruleDepth r = d.depth := by
  cases d with
  | whitespace o => cases h; rfl
  | untilAnyOrWs any o p | untilAny any o p | tag neg t inv p | text e p | number u p | reference name p =>
    simp only [Desc.rule] at h
    split at h <;> simp only [Option.some.injEq, Prod.mk.injEq, reduceCtorEq] at h
    obtain ⟨rfl, rfl⟩ := h
    simp [ruleDepth, Desc.depth]
  | sequence args | select args =>
    simp only [Desc.rule] at h
    split at h <;> simp only [Option.some.injEq, Prod.mk.injEq, reduceCtorEq] at h
    next e =>
    obtain ⟨rfl, rfl⟩ := h
    simp only [ruleDepth, Desc.depth, depth_ruleL args e]
  | optional d | not d | lines ind d | repeat_ o d =>
    simp only [Desc.rule] at h
    split at h <;> simp only [Option.some.injEq, Prod.mk.injEq, reduceCtorEq] at h
    next e =>
    obtain ⟨rfl, rfl⟩ := h
    simp only [ruleDepth, Desc.depth, depth_rule d e]
  | separatedBy o t b d =>
    simp only [Desc.rule] at h
    split at h
    · cases h
    next e =>
    split at h <;> simp only [Option.some.injEq, Prod.mk.injEq, reduceCtorEq] at h
    next e' =>
    obtain ⟨rfl, rfl⟩ := h
    simp only [ruleDepth, Desc.depth, depth_rule b e, depth_rule d e']
theorem depth_ruleL {strings : List (Str × Str)} (ds : List Desc) {i i' : Nat} {rs : List Rule}
    (h : Desc.ruleL strings ds i = some (rs, i')) : ruleDepthL rs = Desc.depthL ds := by
  cases ds with
  | nil => cases h; rfl
  | cons d ds =>
    simp only [Desc.ruleL] at h
    split at h
    · cases h
    next e =>
    split at h <;> simp only [Option.some.injEq, Prod.mk.injEq, reduceCtorEq] at h
    next e' =>
    obtain ⟨rfl, rfl⟩ := h
    simp only [ruleDepthL, Desc.depthL, depth_rule d e, depth_ruleL ds e']
end

theorem depth_nodesOf {strings : List (Str × Str)} : ∀ {ns : List (F64 × Str × Desc)} {rs : List (Str × Rule × Nat)},
    Doc.nodesOf strings ns = some rs → ruleDepthL (rs.map (·.2.1)) = Desc.depthL (ns.map (·.2.2))
  | [], _, h => by cases h; rfl
  | (k, name, d) :: ns, rs, h => by
    simp only [Doc.nodesOf] at h
    split at h
    · next r i rs' e e' =>
      cases h
      simp only [List.map_cons, ruleDepthL, Desc.depthL, depth_rule d e, depth_nodesOf e']
    · cases h

/-! ### Depth and size -/

mutual
theorem depth_data : (d : Desc) → 4 * d.depth ≤ d.data.length + 2
  | .whitespace .. | .untilAnyOrWs .. | .untilAny .. | .tag .. | .text .. | .number .. | .reference .. => by
    simp only [Desc.depth, Desc.data, nodeOf_length]
    omega
  | .sequence args | .select args => by
    have := depth_dataL args
    simp only [Desc.depth, Desc.data, nodeOf_length]
    omega
  | .optional d | .not d | .lines _ d | .repeat_ _ d => by
    have := depth_data d
    simp only [Desc.depth, Desc.data, nodeOf_length, List.length_append, List.length_cons]
    omega
  | .separatedBy _ _ b d => by
    have := depth_data d
    have := depth_data b
    simp only [Desc.depth, Desc.data, nodeOf_length, List.length_append, List.length_cons]
    omega
theorem depth_dataL : (ds : List Desc) → 4 * Desc.depthL ds ≤ (Desc.dataL ds).length
  | [] => by simp [Desc.depthL]
  | d :: ds => by
    have := depth_data d
    have := depth_dataL ds
    simp only [Desc.depthL, Desc.dataL, nodeOf_length, List.length_append]
    omega
end

theorem depth_doc (doc : Doc) : doc.depth = 0 ∨ 4 * doc.depth + 4 ≤ doc.data.length := by
  obtain ⟨ss, ns⟩ := doc
  rw [doc_items]
  simp only [Doc.depth]
  suffices h : Desc.depthL (ns.map (·.2.2)) = 0 ∨
      4 * Desc.depthL (ns.map (·.2.2)) + 4 ≤ (ns.map fun n => 6 + n.2.2.data.length).sum by omega
  induction ns with
  | nil => exact .inl rfl
  | cons n ns ih =>
    have := depth_data n.2.2
    simp only [List.map_cons, Desc.depthL, List.sum_cons]
    omega

end Verif
