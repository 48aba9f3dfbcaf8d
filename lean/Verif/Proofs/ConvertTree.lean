import Verif.Spec.ConvertTree
import Verif.Proofs.Desc
/-
`convert` on any well nested meta data: it reads what Spec/ConvertTree says.
-/
namespace Verif
open Spec CM Convert

/-! ### Items -/

theorem Spec.Piece.size_pos (k : Piece) : 0 < k.size := by
  cases k <;> simp [Piece.size, Piece.data, nodeOf]

theorem Spec.Piece.size_node (q : Str) (ks : List Piece) :
    (Piece.node q ks).size = (Piece.dataL ks).length + 2 := by simp [Piece.size, Piece.data, nodeOf]

theorem Spec.Piece.dataL_cons (k : Piece) (ks : List Piece) :
    (Piece.dataL (k :: ks)).length = k.size + (Piece.dataL ks).length := by simp [Piece.dataL, Piece.size]

theorem Spec.Piece.dataL_append (a b : List Piece) :
    Piece.dataL (a ++ b) = Piece.dataL a ++ Piece.dataL b := by
  induction a with
  | nil => rfl
  | cons k ks ih => simp [Piece.dataL, ih]

mutual
theorem Spec.Piece.item (k : Piece) : Item (toks k.data) := by
  cases k with
  | bool n v => exact item_bool n v
  | string n v => exact item_string n v
  | f64 n v => exact item_f64 n v
  | node n ks => exact item_nodeOf (Piece.items ks)
theorem Spec.Piece.items (ks : List Piece) : Items (toks (Piece.dataL ks)) := by
  cases ks with
  | nil => exact .nil
  | cons k ks =>
    rw [Piece.dataL, toks_append]
    exact (Piece.item k).items.append (Piece.items ks)
end

theorem Spec.Piece.size_eq (k : Piece) : (toks k.data).length = k.size := toks_length _

/-! ### Readers that change nothing -/

/-- The reader reads `v` of an item and changes nothing. -/
def Plain {α : Type} (f : Convert → CM (Range × α)) (k : Piece) (v : Option α) : Prop :=
  ∀ rest off st, f ⟨toks k.data ++ rest, off⟩ st = .ok (v.map fun v => (⟨off, k.size⟩, v), st)

theorem plain_bool (p : Str) (k : Piece) : Plain (fun c => ofOption (c.metaBool p)) k (k.bool? p) := by
  intro rest off st
  cases k with
  | bool q v => by_cases h : q = p <;> simp [Piece.data, toks, metaBool, Piece.bool?, ofOption, Piece.size, h]
  | _ => simp [Piece.data, toks, metaBool, Piece.bool?, ofOption, nodeOf]

theorem plain_string (p : Str) (k : Piece) : Plain (fun c => ofOption (c.metaString p)) k (k.string? p) := by
  intro rest off st
  cases k with
  | string q v => by_cases h : q = p <;> simp [Piece.data, toks, metaString, Piece.string?, ofOption, Piece.size, h]
  | _ => simp [Piece.data, toks, metaString, Piece.string?, ofOption, nodeOf]

theorem plain_f64 (p : Str) (k : Piece) : Plain (fun c => ofOption (c.metaF64 p)) k (k.f64? p) := by
  intro rest off st
  cases k with
  | f64 q v => by_cases h : q = p <;> simp [Piece.data, toks, metaF64, Piece.f64?, ofOption, Piece.size, h]
  | _ => simp [Piece.data, toks, metaF64, Piece.f64?, ofOption, nodeOf]

theorem metaString_piece (p : Str) (k : Piece) (rest : List Tok) (off : Nat) :
    metaString ⟨toks k.data ++ rest, off⟩ p = (k.string? p).map fun v => (⟨off, k.size⟩, v) := by
  have h := plain_string p k rest off ⟨0, []⟩
  simp only [ofOption, Comp.ok.injEq, Prod.mk.injEq, and_true] at h
  exact h

theorem Spec.Piece.string?_size {p : Str} {k : Piece} {v : Str} (h : k.string? p = some v) : k.size = 1 := by
  cases k <;> simp_all [Piece.string?, Piece.size, Piece.data]

theorem setLoop_kids {p : Str} {strings : List (Str × Str)} : ∀ (ks : List Piece) (n : Nat) (t : Option Str)
    (rest : List Tok) (off : Nat) (st : CSt), ks.length < n →
    setLoop p strings n ⟨toks (Piece.dataL ks ++ [.endNode p]) ++ rest, off⟩ t st =
      .ok (if ∀ k ∈ ks, (k.setVal strings).isSome then
        some (⟨rest, off + (Piece.dataL ks).length + 1⟩, match ks.getLast? with
          | none => t
          | some k => (k.setVal strings).join) else none, st)
  | [], n, t, rest, off, st, hn => by
    obtain ⟨n, rfl⟩ : ∃ m, n = m + 1 := ⟨n - 1, by simp at hn; omega⟩
    simp only [Piece.dataL, List.nil_append, toks_cons, toks_nil, List.cons_append]
    rw [setLoop_done]
    simp
  | k :: ks, n, t, rest, off, st, hn => by
    simp only [List.length_cons] at hn
    obtain ⟨n, rfl⟩ : ∃ m, n = m + 1 := ⟨n - 1, by omega⟩
    have ih := fun t => setLoop_kids (p := p) (strings := strings) ks n t rest (off + 1) st (by omega)
    simp only [setLoop, Piece.dataL, toks_append, List.append_assoc, endNode_item k.item]
    rw [metaString_piece, metaString_piece]
    have hg : ∀ v t', k.size = 1 → k.setVal strings = some v → 
        setLoop p strings n ⟨toks (Piece.dataL ks ++ [.endNode p]) ++ rest, off + 1⟩ v st =
        .ok (if ∀ k' ∈ k :: ks, (k'.setVal strings).isSome then
        some (⟨rest, off + (Piece.dataL (k :: ks)).length + 1⟩, match (k :: ks).getLast? with
          | none => t'
          | some k => (k.setVal strings).join) else none, st) := by
      intro v t' hs hv
      rw [ih, Piece.dataL_cons, hs]
      have hc : (∀ k' ∈ k :: ks, (k'.setVal strings).isSome) ↔ ∀ k ∈ ks, (k.setVal strings).isSome := by simp [hv]
      by_cases h : ∀ k ∈ ks, (k.setVal strings).isSome
      · rw [if_pos h, if_pos (hc.2 h)]
        cases ks with
        | nil => simp [hv]; omega
        | cons k' ks =>
          rw [List.getLast?_cons_cons, show off + 1 + (Piece.dataL (k' :: ks)).length + 1 =
            off + (1 + (Piece.dataL (k' :: ks)).length) + 1 by omega]
          cases hl : (k' :: ks).getLast? with
          | none => simp at hl
          | some x => rfl
      · rw [if_neg h, if_neg (fun h' => h (hc.1 h'))]
    cases h₁ : k.string? c!"ref" with
    | some s =>
      have hs := Piece.string?_size h₁
      have hv : k.setVal strings = some (strings.lookup s) := by simp [Piece.setVal, h₁]
      simp only [Option.map_some]
      rw [bind_some (upd_eq (c := ⟨_, off⟩) (by simp [toks_length, Piece.size])), findString_lookup]
      refine Eq.trans ?_ (hg _ t hs hv)
      simp only [← k.size_eq, List.drop_left, List.append_assoc, toks_append]
      rw [k.size_eq, hs]
    | none =>
      simp only [Option.map_none]
      cases h₂ : k.string? c!"value" with
      | some s =>
        have hs := Piece.string?_size h₂
        have hv : k.setVal strings = some (some s) := by simp [Piece.setVal, h₁, h₂]
        simp only [Option.map_some]
        rw [bind_some (upd_eq (c := ⟨_, off⟩) (by simp [toks_length, Piece.size]))]
        refine Eq.trans ?_ (hg _ t hs hv)
        simp only [← k.size_eq, List.drop_left, List.append_assoc, toks_append]
        rw [k.size_eq, hs]
      | none =>
        have hv : k.setVal strings = none := by simp [Piece.setVal, h₁, h₂]
        simp [hv, CM.err]

theorem Spec.Piece.length_le (ks : List Piece) : ks.length ≤ (Piece.dataL ks).length := by
  induction ks with
  | nil => simp
  | cons k ks ih =>
    have := k.size_pos
    rw [Piece.dataL_cons, List.length_cons]
    omega

theorem Spec.Piece.notStart {p : Str} {k : Piece} (h : ∀ ks, k ≠ .node p ks) : NotStart p k.data := by
  cases k with
  | node q ks =>
    show q ≠ p
    rintro rfl
    exact h ks rfl
  | _ => trivial

theorem plain_set {strings : List (Str × Str)} {n : Nat} {p : Str} {k : Piece} (hn : k.size ≤ n + 1) :
    Plain (readSet strings n p) k (k.set? strings p) := by
  intro rest off st
  by_cases h : ∀ ks, k ≠ .node p ks
  · rw [(skips_set (k.notStart h)).eq]
    cases k with
    | node q ks =>
      have : q ≠ p := by rintro rfl; exact h ks rfl
      simp [Piece.set?, this]
    | _ => simp [Piece.set?]
  · obtain ⟨ks, rfl⟩ : ∃ ks, k = .node p ks := by simpa using h
    have hl := Piece.length_le ks
    rw [Piece.size_node] at hn ⊢
    have hs : ∀ ts, startNode ⟨⟨⟨0, 0⟩, .startNode p⟩ :: ts, off⟩ p = some ⟨off, 1⟩ := by simp [startNode]
    simp only [readSet, Piece.data, nodeOf, toks_cons, List.cons_append]
    rw [bind_some (ofOption_some (hs _) _), bind_some (upd_eq (c := ⟨_, off⟩) (by simp))]
    simp only [List.drop_succ_cons, List.drop_zero]
    have e := setLoop_kids (p := p) (strings := strings) ks n none rest (off + 1) st (by omega)
    by_cases ha : ∀ k ∈ ks, (k.setVal strings).isSome
    · rw [if_pos ha] at e
      rw [bind_some e]
      have hv : (Piece.node p ks).set? strings p = (match ks.getLast? with
          | none => none
          | some k => (k.setVal strings).join) := by
        rw [Piece.set?, if_pos ⟨rfl, ha⟩]
        cases ks.getLast? <;> rfl
      rw [hv]
      simp only
      split
      · exact bind_none rfl
      · rename_i k _
        cases hk : (k.setVal strings).join with
        | none => exact bind_none rfl
        | some s =>
          rw [bind_some (ofOption_some rfl _), bind_some (sub_eq (by simp; omega))]
          simp only [Pure.pure, CM.pure, Option.map_some]
          rw [show off + 1 + (Piece.dataL ks).length + 1 - off = (Piece.dataL ks).length + 2 by omega]
    · rw [if_neg ha] at e
      rw [bind_none e]
      simp [Piece.set?, ha]

section
variable {α σ : Type} {f : Convert → CM (Range × α)} {k : Piece} {v : Option α}

theorem Plain.try (h : Plain f k v) {put : α → σ} {o : CM (Option (Range × σ))} {rest : List Tok} {off : Nat}
    {st : CSt} : tryRead (f ⟨toks k.data ++ rest, off⟩) put o st =
      v.elim (o st) fun v => .ok (some (some (⟨off, k.size⟩, put v)), st) := by
  have h := h rest off st
  cases v with
  | none => exact tryRead_none h
  | some v => exact tryRead_some h

end

/-! ### Loops -/

/-- One item in a loop: the new variables or none, the id and the largest id afterwards, the ranges
that are ignored. -/
abbrev Step (σ : Type) := σ → Piece → (off i : Nat) → Option σ × Nat × Nat × List Range

/-- All the items. -/
def walk {σ : Type} (step : Step σ) : List Piece → σ → (off i : Nat) → σ × Nat × Nat × List Range
  | [], s, _, i => (s, i, 0, [])
  | k :: ks, s, off, i =>
    let x := step s k off i
    let y := walk step ks (x.1.getD s) (off + k.size) x.2.1
    (y.1, y.2.1, max x.2.2.1 y.2.2.1, x.2.2.2 ++ (if x.1.isSome then [] else [⟨off, k.size⟩]) ++ y.2.2.2)

/-- A loop body does this step on this item. -/
structure Steps {σ : Type} (B : Convert → σ → CM (Option (Range × σ))) (step : Step σ) (k : Piece) : Prop where
  eq : ∀ s off i, i < 2 ^ 64 → ∀ rest ig, B ⟨toks k.data ++ rest, off⟩ s ⟨i, ig⟩ =
    capped (step s k off i).2.2.1 (.ok (some ((step s k off i).1.map fun s' => (⟨off, k.size⟩, s')),
      ⟨(step s k off i).2.1, ig ++ (step s k off i).2.2.2⟩))
  bound : ∀ s off i, i < 2 ^ 64 → (step s k off i).2.2.1 < 2 ^ 64 → (step s k off i).2.1 < 2 ^ 64

section
variable {σ : Type} {B : Convert → σ → CM (Option (Range × σ))} {nm : Str} {step : Step σ}

theorem walk_bound : ∀ {ks : List Piece}, (∀ k ∈ ks, Steps B step k) → ∀ {s : σ} {off i : Nat}, i < 2 ^ 64 →
    (walk step ks s off i).2.2.1 < 2 ^ 64 → (walk step ks s off i).2.1 < 2 ^ 64
  | [], _, _, _, _, hi, _ => hi
  | k :: ks, h, s, off, i, hi, ht => by
    simp only [walk] at ht ⊢
    have := (h k (by simp)).bound s off i hi (by omega)
    exact walk_bound (fun k hk => h k (by simp [hk])) this (by omega)

theorem loop_pieces : ∀ {ks : List Piece}, (∀ k ∈ ks, Steps B step k) → ∀ {s : σ} {off i n : Nat} {rest : List Tok}
    {ig : List Range}, i < 2 ^ 64 → (Piece.dataL ks).length < n →
    loop nm B n ⟨toks (Piece.dataL ks) ++ ⟨⟨0, 0⟩, .endNode nm⟩ :: rest, off⟩ s ⟨i, ig⟩ =
      capped (walk step ks s off i).2.2.1 (.ok (some (⟨rest, off + (Piece.dataL ks).length + 1⟩,
        (walk step ks s off i).1), ⟨(walk step ks s off i).2.1, ig ++ (walk step ks s off i).2.2.2⟩))
  | [], _, s, off, i, n, rest, ig, hi, hn => by
    obtain ⟨n, rfl⟩ : ∃ m, n = m + 1 := ⟨n - 1, by omega⟩
    simp only [Piece.dataL, toks_nil, List.nil_append]
    rw [loop_done, walk, capped_pos (by simp)]
    simp
  | k :: ks, h, s, off, i, n, rest, ig, hi, hn => by
    have hp := k.size_pos
    rw [Piece.dataL_cons] at hn
    obtain ⟨n, rfl⟩ : ∃ m, n = m + 1 := ⟨n - 1, by omega⟩
    have hk := h k (by simp)
    have e := hk.eq s off i hi (toks (Piece.dataL ks) ++ ⟨⟨0, 0⟩, .endNode nm⟩ :: rest) ig
    have hb := hk.bound s off i hi
    have ih := fun (s' : σ) (i' : Nat) (ig' : List Range) (hi' : i' < 2 ^ 64) =>
      loop_pieces (ks := ks) (fun k hk => h k (by simp [hk])) (s := s') (off := off + k.size) (i := i') (n := n) (rest := rest)
      (ig := ig') hi' (by omega)
    simp only [walk]
    rw [Piece.dataL_cons]
    simp only [Piece.dataL, toks_append, List.append_assoc]
    generalize step s k off i = x at e hb ⊢
    obtain ⟨v, i', t, l⟩ := x
    simp only at e hb ⊢
    by_cases ht : t < 2 ^ 64
    case neg =>
      rw [capped_neg ht] at e
      rw [capped_neg (by omega)]
      exact loop_panic (endNode_item k.item _ _) e
    rw [capped_pos ht] at e
    have hi' := hb ht
    have hc : ∀ {t' : Nat} {β : Type} (y : Comp β), capped (max t t') y = capped t' y := by
      intro t' β y
      simp only [capped]
      by_cases h : t' < 2 ^ 64
      · rw [if_pos h, if_pos (by omega)]
      · rw [if_neg h, if_neg (by omega)]
    rw [hc]
    cases v with
    | some s' =>
      rw [Option.map_some, ← k.size_eq] at e
      rw [loop_step k.item e, k.size_eq, ih _ _ _ hi']
      simp [Nat.add_assoc]
    | none =>
      rw [Option.map_none] at e
      rw [loop_ignore k.item e, k.size_eq, ih _ _ _ hi']
      simp [Nat.add_assoc]

end

/-! ### Loops that only look at fields -/

/-- A step that looks at fields only. -/
def plainStep {σ : Type} (stp : σ → Piece → Option σ) : Step σ := fun s k _ i => (stp s k, i, i, [])

theorem steps_plain {σ : Type} {B : Convert → σ → CM (Option (Range × σ))} {stp : σ → Piece → Option σ} {k : Piece}
    (h : ∀ s rest off st, B ⟨toks k.data ++ rest, off⟩ s st =
      .ok (some ((stp s k).map fun s' => (⟨off, k.size⟩, s')), st)) : Steps B (plainStep stp) k where
  eq s off i hi rest ig := by
    rw [h, plainStep, capped_pos hi]
    simp
  bound _ _ _ hi _ := hi

theorem walk_plain {σ : Type} {stp : σ → Piece → Option σ} {known : Piece → Bool}
    (h : ∀ s k, (stp s k).isSome = known k) : ∀ (ks : List Piece) (s : σ) (off i : Nat), i < 2 ^ 64 →
    (walk (plainStep stp) ks s off i).1 = ks.foldl (fun s k => (stp s k).getD s) s ∧
    (walk (plainStep stp) ks s off i).2.1 = i ∧ (walk (plainStep stp) ks s off i).2.2.1 < 2 ^ 64 ∧
    (walk (plainStep stp) ks s off i).2.2.2 = unread known ks off
  | [], s, off, i, hi => ⟨rfl, rfl, by simp [walk], rfl⟩
  | k :: ks, s, off, i, hi => by
    obtain ⟨h₁, h₂, h₃, h₄⟩ := walk_plain h ks ((stp s k).getD s) (off + k.size) i hi
    simp only [walk, plainStep, List.foldl_cons, unread]
    refine ⟨h₁, h₂, ?_, ?_⟩
    · show max i (walk (plainStep stp) ks _ _ _).2.2.1 < _
      omega
    · rw [← h₄, ← h s k]
      rfl

theorem lastOf_cons {α : Type} (f : Piece → Option α) (k : Piece) (ks : List Piece) :
    lastOf f (k :: ks) = (lastOf f ks).or (f k) := by
  simp only [lastOf, List.filterMap_cons]
  cases f k with
  | none => simp
  | some v => cases h : ks.filterMap f with
    | nil => rfl
    | cons a b => rw [List.getLast?_cons_cons]; cases hl : (a :: b).getLast? with
      | none => simp at hl
      | some => rfl

/-- The reader reads an item at `off`, with ids after `i`, as `x`; it panics if the last id is too large. -/
structure Gets (f : Convert → CM (Range × Rule)) (k : Piece) (off i : Nat) (x : RuleRead) : Prop where
  eq : i < 2 ^ 64 → ∀ rest ig, f ⟨toks k.data ++ rest, off⟩ ⟨i, ig⟩ =
    capped x.2.1 (.ok (x.1.map fun v => (⟨off, k.size⟩, v), ⟨x.2.1, ig ++ x.2.2⟩))
  le : i ≤ x.2.1

theorem Gets.skip {f : Convert → CM (Range × Rule)} {k : Piece} (h : Skips f k.data) (off i : Nat) :
    Gets f k off i (none, i, []) :=
  ⟨fun hi rest ig => by rw [h.eq, capped_pos hi]; simp, Nat.le_refl _⟩

theorem gets_loop {σ : Type} {nm : Str} {n : Nat} {B : Convert → σ → CM (Option (Range × σ))}
    {s₀ : σ} {c : Convert → Convert × σ → CM (Range × Rule)} {ks : List Piece} {step : Step σ} {off i : Nat}
    {x : RuleRead} (hB : ∀ k ∈ ks, Steps B step k) (hn : (Piece.dataL ks).length < n)
    (hc : (walk step ks s₀ (off + 1) i).2.1 < 2 ^ 64 → ∀ start d ig, start.off ≤ d.off →
      c start (d, (walk step ks s₀ (off + 1) i).1) ⟨(walk step ks s₀ (off + 1) i).2.1, ig⟩ =
      capped x.2.1 (.ok (x.1.map fun v => (⟨start.off, d.off - start.off⟩, v), ⟨x.2.1, ig⟩)))
    (hl : x.2.2 = (walk step ks s₀ (off + 1) i).2.2.2)
    (ht : x.2.1 < 2 ^ 64 → i < 2 ^ 64 → (walk step ks s₀ (off + 1) i).2.2.1 < 2 ^ 64) (hle : i ≤ x.2.1) :
    Gets (fun c₀ => do
      let r ← ofOption (c₀.startNode nm)
      let c' ← c₀.upd r
      let y ← Convert.loop nm B n c' s₀
      c c₀ y) (.node nm ks) off i x := by
  refine ⟨fun hi rest ig => ?_, hle⟩
  have hs : ∀ ts, startNode ⟨⟨⟨0, 0⟩, .startNode nm⟩ :: ts, off⟩ nm = some ⟨off, 1⟩ := by simp [startNode]
  simp only [Piece.data, nodeOf, toks_cons, toks_append, toks_nil, List.cons_append, List.append_assoc,
    List.nil_append]
  rw [bind_some (ofOption_some (hs _) _), bind_some (upd_eq (c := ⟨_, off⟩) (by simp))]
  simp only [List.drop_succ_cons, List.drop_zero]
  have e := loop_pieces (nm := nm) hB (s := s₀) (off := off + 1) (rest := rest) (ig := ig) hi hn
  have hb := walk_bound hB (s := s₀) (off := off + 1) hi
  by_cases hw : (walk step ks s₀ (off + 1) i).2.2.1 < 2 ^ 64
  case neg =>
    rw [capped_neg hw] at e
    rw [bind_panic e, capped_neg fun h => hw (ht h hi)]
  rw [capped_pos hw] at e
  rw [bind_some e, hc (hb hw) _ _ _ (by simp; omega), Piece.size_node, hl]
  simp only
  rw [show off + 1 + (Piece.dataL ks).length + 1 - off = (Piece.dataL ks).length + 2 by omega]

/-- `gets_loop` when the body only looks at fields. -/
theorem gets_plain {σ : Type} {nm : Str} {n : Nat} {B : Convert → σ → CM (Option (Range × σ))}
    {s₀ s : σ} {c : Convert → Convert × σ → CM (Range × Rule)} {ks : List Piece} {stp : σ → Piece → Option σ}
    {known : Piece → Bool} {off i : Nat} {x : RuleRead}
    (hB : ∀ k ∈ ks, ∀ s rest off st, B ⟨toks k.data ++ rest, off⟩ s st =
      .ok (some ((stp s k).map fun s' => (⟨off, k.size⟩, s')), st))
    (hk : ∀ s k, (stp s k).isSome = known k)
    (hs : ks.foldl (fun s k => (stp s k).getD s) s₀ = s)
    (hn : (Piece.dataL ks).length < n)
    (hc : i < 2 ^ 64 → ∀ start d ig, start.off ≤ d.off → c start (d, s) ⟨i, ig⟩ =
      capped x.2.1 (.ok (x.1.map fun v => (⟨start.off, d.off - start.off⟩, v), ⟨x.2.1, ig⟩)))
    (hl : x.2.2 = unread known ks (off + 1)) (hle : i ≤ x.2.1) :
    Gets (fun c₀ => do
      let r ← ofOption (c₀.startNode nm)
      let c' ← c₀.upd r
      let y ← Convert.loop nm B n c' s₀
      c c₀ y) (.node nm ks) off i x := by
  by_cases hi : i < 2 ^ 64
  · obtain ⟨h₁, h₂, h₃, h₄⟩ := walk_plain hk ks s₀ (off + 1) i hi
    refine gets_loop (step := plainStep stp) (fun k hk => steps_plain (hB k hk)) hn ?_ (by rw [hl, h₄])
      (fun _ _ => h₃) hle
    rw [h₁, h₂, hs]
    exact hc
  · exact ⟨fun h => absurd h hi, hle⟩

/-! ### Rules without parts -/

/-- A rule that needs a text, at the end of its reader. -/
theorem withText_eq {t : Option Str} {i : Nat} {l : List Range} {f : Str → Nat → Rule} {start d : Convert}
    {ig : List Range} (hi : i < 2 ^ 64) (h : start.off ≤ d.off) :
    (do let t ← ofOption t; let id ← nextId; return (← d.sub start, f t id) : CM (Range × Rule)) ⟨i, ig⟩ =
      capped (withText t i l f).2.1 (.ok ((withText t i l f).1.map fun v =>
        (⟨start.off, d.off - start.off⟩, v), ⟨(withText t i l f).2.1, ig⟩)) := by
  cases t with
  | none => exact (bind_none rfl).trans (capped_pos hi).symm
  | some t => exact (bind_some (ofOption_some rfl _)).trans (finish_eq h)

theorem withText_le (t : Option Str) (i : Nat) (l : List Range) (f : Str → Nat → Rule) :
    i ≤ (withText t i l f).2.1 := by cases t <;> simp [withText]

theorem withText_l (t : Option Str) (i : Nat) (l : List Range) (f : Str → Nat → Rule) :
    (withText t i l f).2.2 = l := by cases t <;> rfl

theorem set?_ne {strings : List (Str × Str)} {p q : Str} {k : Piece} {v : Str} (h : k.set? strings p = some v)
    (hne : p ≠ q) : k.set? strings q = none := by
  cases k with
  | node r ks =>
    simp only [Piece.set?] at h ⊢
    split at h
    · rename_i hr; rw [if_neg]; rintro ⟨rfl, _⟩; exact hne hr.1.symm
    · cases h
  | _ => rfl

theorem set?_bool {strings : List (Str × Str)} {p q : Str} {k : Piece} {v : Str} (h : k.set? strings p = some v) :
    k.bool? q = none := by
  cases k <;> simp_all [Piece.set?, Piece.bool?]

theorem set?_string {strings : List (Str × Str)} {p q : Str} {k : Piece} {v : Str} (h : k.set? strings p = some v) :
    k.string? q = none := by
  cases k <;> simp_all [Piece.set?, Piece.string?]

theorem bool?_ne {p q : Str} {k : Piece} {v : Bool} (h : k.bool? p = some v) (hne : p ≠ q) : k.bool? q = none := by
  cases k with
  | bool r b =>
    simp only [Piece.bool?] at h ⊢
    split at h
    · rename_i hr; rw [if_neg]; rintro rfl; exact hne hr.symm
    · cases h
  | _ => rfl

section
variable {strings : List (Str × Str)} {n off i : Nat} {ks : List Piece}

theorem mem_size {k : Piece} (h : k ∈ ks) : k.size ≤ (Piece.dataL ks).length := by
  induction ks with
  | nil => cases h
  | cons a ks ih =>
    rw [Piece.dataL_cons]
    rcases List.mem_cons.1 h with rfl | h
    · omega
    · have := ih h; omega

theorem foldl_or₂ {α β : Type} (f : Piece → Option α) (g : Piece → Option β) (s : Option α × Option β) :
    ks.foldl (fun s k => ((f k).or s.1, (g k).or s.2)) s = ((lastOf f ks).or s.1, (lastOf g ks).or s.2) := by
  induction ks generalizing s with
  | nil => rfl
  | cons k ks ih => simp [ih, lastOf_cons, Option.or_assoc]

theorem foldl_or₃ {α β γ : Type} (f : Piece → Option α) (g : Piece → Option β) (h : Piece → Option γ)
    (s : Option α × Option β × Option γ) :
    ks.foldl (fun s k => ((f k).or s.1, (g k).or s.2.1, (h k).or s.2.2)) s =
      ((lastOf f ks).or s.1, (lastOf g ks).or s.2.1, (lastOf h ks).or s.2.2) := by
  induction ks generalizing s with
  | nil => rfl
  | cons k ks ih => simp [ih, lastOf_cons, Option.or_assoc]

theorem foldl_or₄ {α β γ δ : Type} (f : Piece → Option α) (g : Piece → Option β) (h : Piece → Option γ)
    (e : Piece → Option δ) (s : Option α × Option β × Option γ × Option δ) :
    ks.foldl (fun s k => ((f k).or s.1, (g k).or s.2.1, (h k).or s.2.2.1, (e k).or s.2.2.2)) s =
      ((lastOf f ks).or s.1, (lastOf g ks).or s.2.1, (lastOf h ks).or s.2.2.1, (lastOf e ks).or s.2.2.2) := by
  induction ks generalizing s with
  | nil => rfl
  | cons k ks ih => simp [ih, lastOf_cons, Option.or_assoc]

theorem foldl_last₂ {α β : Type} (f : Piece → Option α) (g : Piece → Option β) :
    ks.foldl (fun s k => ((f k).or s.1, (g k).or s.2)) (none, none) = (lastOf f ks, lastOf g ks) := by
  simp [foldl_or₂]

theorem foldl_last₃ {α β γ : Type} (f : Piece → Option α) (g : Piece → Option β) (h : Piece → Option γ) :
    ks.foldl (fun s k => ((f k).or s.1, (g k).or s.2.1, (h k).or s.2.2)) (none, none, none) =
      (lastOf f ks, lastOf g ks, lastOf h ks) := by
  simp [foldl_or₃]

theorem foldl_last₄ {α β γ δ : Type} (f : Piece → Option α) (g : Piece → Option β) (h : Piece → Option γ)
    (e : Piece → Option δ) :
    ks.foldl (fun s k => ((f k).or s.1, (g k).or s.2.1, (h k).or s.2.2.1, (e k).or s.2.2.2)) (none, none, none, none) =
      (lastOf f ks, lastOf g ks, lastOf h ks, lastOf e ks) := by
  simp [foldl_or₄]

/-- One item, of which the fields are known. -/
def fieldStp {σ : Type} (known : Piece → Bool) (put : σ → Piece → σ) (s : σ) (k : Piece) : Option σ :=
  if known k then some (put s k) else none

theorem fieldStp_known {σ : Type} (known : Piece → Bool) (put : σ → Piece → σ) (s : σ) (k : Piece) :
    (fieldStp known put s k).isSome = known k := by
  cases h : known k <;> simp [fieldStp, h]

theorem fieldStp_foldl {σ : Type} {known : Piece → Bool} {put : σ → Piece → σ}
    (h : ∀ s k, known k = false → put s k = s) (s : σ) :
    ks.foldl (fun s k => (fieldStp known put s k).getD s) s = ks.foldl put s := by
  congr 1
  funext s k
  cases hk : known k <;> simp [fieldStp, hk, h]

theorem gets_tag (hn : (Piece.dataL ks).length < n) : ∃ x, plainRule strings c!"tag" ks (off + 1) i = some x ∧
    Gets (readTag strings n) (.node c!"tag" ks) off i x := by
  refine ⟨_, rfl, gets_plain (stp := fieldStp (tagField strings) fun s k => ((k.set? strings c!"text").or s.1,
    (k.set? strings c!"property").or s.2.1, (k.bool? c!"not").or s.2.2.1, (k.bool? c!"inverted").or s.2.2.2))
    ?_ (fieldStp_known _ _) ((fieldStp_foldl ?_ _).trans (foldl_last₄ ..)) hn
    (fun hi start d ig h => withText_eq hi h) (withText_l ..) (withText_le ..)⟩
  · intro k hk s rest off st
    have := mem_size hk
    simp only [tagBody]
    rw [Plain.try (plain_set (by omega))]
    cases h₁ : k.set? strings c!"text" with
    | some v => simp [fieldStp, tagField, h₁, set?_ne h₁, set?_bool h₁]
    | none =>
      simp only [Option.elim]
      rw [Plain.try (plain_set (by omega))]
      cases h₂ : k.set? strings c!"property" with
      | some v => simp [fieldStp, tagField, h₁, h₂, set?_bool h₂]
      | none =>
        simp only [Option.elim]
        rw [Plain.try (f := fun c => ofOption (c.metaBool _)) (plain_bool _ k)]
        cases h₃ : k.bool? c!"not" with
        | some v => simp [fieldStp, tagField, h₁, h₂, h₃, bool?_ne h₃]
        | none =>
          simp only [Option.elim]
          rw [Plain.try (f := fun c => ofOption (c.metaBool _)) (plain_bool _ k)]
          cases h₄ : k.bool? c!"inverted" with
          | some v => simp [fieldStp, tagField, h₁, h₂, h₃, h₄]
          | none => simp [fieldStp, tagField, h₁, h₂, h₃, h₄]; rfl
  · intro s k h
    simp_all [tagField]

theorem untilBody_eq (hn : (Piece.dataL ks).length < n) : ∀ k ∈ ks, ∀ s rest off st,
    untilBody strings n ⟨toks k.data ++ rest, off⟩ s st =
      .ok (some ((fieldStp (untilField strings) (fun s k => ((k.set? strings c!"any_characters").or s.1,
        (k.bool? c!"optional").or s.2.1, (k.set? strings c!"property").or s.2.2)) s k).map
          fun s' => (⟨off, k.size⟩, s')), st) := by
  intro k hk s rest off st
  have := mem_size hk
  simp only [untilBody]
  rw [Plain.try (plain_set (by omega))]
  cases h₁ : k.set? strings c!"any_characters" with
  | some v => simp [fieldStp, untilField, h₁, set?_ne h₁, set?_bool h₁]
  | none =>
    simp only [Option.elim]
    rw [Plain.try (f := fun c => ofOption (c.metaBool _)) (plain_bool _ k)]
    cases h₂ : k.bool? c!"optional" with
    | some v =>
      have h₃ : k.set? strings c!"property" = none := by
        cases h₃ : k.set? strings c!"property" with
        | none => rfl
        | some t => rw [set?_bool h₃] at h₂; cases h₂
      simp [fieldStp, untilField, h₁, h₂, h₃]
    | none =>
      simp only [Option.elim]
      rw [Plain.try (plain_set (by omega))]
      cases h₃ : k.set? strings c!"property" with
      | some v => simp [fieldStp, untilField, h₁, h₂, h₃]
      | none => simp [fieldStp, untilField, h₁, h₂, h₃]; rfl

theorem gets_untilAnyOrWs (hn : (Piece.dataL ks).length < n) :
    ∃ x, plainRule strings c!"until_any_or_whitespace" ks (off + 1) i = some x ∧
    Gets (readUntilAnyOrWs strings n) (.node c!"until_any_or_whitespace" ks) off i x := by
  refine ⟨_, rfl, gets_plain (untilBody_eq hn) (fieldStp_known _ _)
    ((fieldStp_foldl ?_ _).trans (foldl_last₃ ..)) hn
    (fun hi start d ig h => withText_eq hi h) (withText_l ..) (withText_le ..)⟩
  intro s k h
  simp_all [untilField]

theorem gets_untilAny (hn : (Piece.dataL ks).length < n) :
    ∃ x, plainRule strings c!"until_any" ks (off + 1) i = some x ∧
    Gets (readUntilAny strings n) (.node c!"until_any" ks) off i x := by
  refine ⟨_, rfl, gets_plain (untilBody_eq hn) (fieldStp_known _ _)
    ((fieldStp_foldl ?_ _).trans (foldl_last₃ ..)) hn
    (fun hi start d ig h => withText_eq hi h) (withText_l ..) (withText_le ..)⟩
  intro s k h
  simp_all [untilField]

theorem gets_text (hn : (Piece.dataL ks).length < n) :
    ∃ x, plainRule strings c!"text" ks (off + 1) i = some x ∧
    Gets (readText strings n) (.node c!"text" ks) off i x := by
  refine ⟨_, rfl, gets_plain (stp := fieldStp (textField strings) fun s k => ((k.bool? c!"allow_empty").or s.1,
    (k.set? strings c!"property").or s.2)) ?_ (fieldStp_known _ _)
    ((fieldStp_foldl ?_ _).trans (foldl_last₂ ..)) hn
    (fun hi start d ig h => finish_eq h) rfl (Nat.le_succ _)⟩
  · intro k hk s rest off st
    have := mem_size hk
    simp only [textBody]
    rw [Plain.try (f := fun c => ofOption (c.metaBool _)) (plain_bool _ k)]
    cases h₂ : k.bool? c!"allow_empty" with
    | some v =>
      have h₃ : k.set? strings c!"property" = none := by
        cases h₃ : k.set? strings c!"property" with
        | none => rfl
        | some t => rw [set?_bool h₃] at h₂; cases h₂
      simp [fieldStp, textField, h₂, h₃]
    | none =>
      simp only [Option.elim]
      rw [Plain.try (plain_set (by omega))]
      cases h₃ : k.set? strings c!"property" with
      | some v => simp [fieldStp, textField, h₂, h₃]
      | none => simp [fieldStp, textField, h₂, h₃]; rfl
  · intro s k h
    simp_all [textField]

theorem gets_number (hn : (Piece.dataL ks).length < n) :
    ∃ x, plainRule strings c!"number" ks (off + 1) i = some x ∧
    Gets (readNumber strings n) (.node c!"number" ks) off i x := by
  refine ⟨_, rfl, gets_plain (stp := fieldStp (numberField strings) fun s k => ((k.set? strings c!"property").or s.1,
    (k.bool? c!"underscore").or s.2)) ?_ (fieldStp_known _ _)
    ((fieldStp_foldl ?_ _).trans (foldl_last₂ ..)) hn
    (fun hi start d ig h => finish_eq h) rfl (Nat.le_succ _)⟩
  · intro k hk s rest off st
    have := mem_size hk
    simp only [numberBody]
    rw [Plain.try (plain_set (by omega))]
    cases h₃ : k.set? strings c!"property" with
    | some v => simp [fieldStp, numberField, h₃, set?_bool h₃]
    | none =>
      simp only [Option.elim]
      rw [Plain.try (f := fun c => ofOption (c.metaBool _)) (plain_bool _ k)]
      cases h₂ : k.bool? c!"underscore" with
      | some v => simp [fieldStp, numberField, h₂, h₃]
      | none => simp [fieldStp, numberField, h₂, h₃]; rfl
  · intro s k h
    simp_all [numberField]

theorem gets_reference (hn : (Piece.dataL ks).length < n) :
    ∃ x, plainRule strings c!"reference" ks (off + 1) i = some x ∧
    Gets (readReference strings n) (.node c!"reference" ks) off i x := by
  refine ⟨_, rfl, gets_plain (stp := fieldStp (referenceField strings) fun s k => ((k.string? c!"name").or s.1,
    (k.set? strings c!"property").or s.2)) ?_ (fieldStp_known _ _)
    ((fieldStp_foldl ?_ _).trans (foldl_last₂ ..)) hn
    (fun hi start d ig h => withText_eq hi h) (withText_l ..) (withText_le ..)⟩
  · intro k hk s rest off st
    have := mem_size hk
    simp only [referenceBody]
    rw [Plain.try (f := fun c => ofOption (c.metaString _)) (plain_string _ k)]
    cases h₂ : k.string? c!"name" with
    | some v =>
      have h₃ : k.set? strings c!"property" = none := by
        cases h₃ : k.set? strings c!"property" with
        | none => rfl
        | some t => rw [set?_string h₃] at h₂; cases h₂
      simp [fieldStp, referenceField, h₂, h₃]
    | none =>
      simp only [Option.elim]
      rw [Plain.try (plain_set (by omega))]
      cases h₃ : k.set? strings c!"property" with
      | some v => simp [fieldStp, referenceField, h₂, h₃]
      | none => simp [fieldStp, referenceField, h₂, h₃]; rfl
  · intro s k h
    simp_all [referenceField]

end

end Verif
