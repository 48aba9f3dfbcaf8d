import Verif.Proofs.Renumber
import Verif.Spec.Safe
import Verif.Spec.Optimize
/-
Debug ids influence neither the check of indices nor the optimizer.
-/
namespace Verif
open Spec

theorem Spec.RenumberedL.mem {R rs rs'} (h : RenumberedL R rs rs') {r'} (hr : r' ∈ rs') :
    ∃ r ∈ rs, Renumbered R r r' := by
  obtain ⟨k, hk⟩ := List.getElem?_of_mem hr
  obtain ⟨r, h1, h2⟩ := h.flip.get hk
  exact ⟨r, List.mem_of_getElem? h1, h2.flip⟩

theorem renumber_child {R : DebugId → DebugId → Prop} {r r' c'} (h : Renumbered R r r')
    (hc : Child c' r') : ∃ c, Child c r ∧ Renumbered R c c' := by
  cases hc with
  | select hm => cases h with | select _ hs =>
    obtain ⟨c, h1, h2⟩ := hs.mem hm
    exact ⟨c, .select h1, h2⟩
  | fast hm => cases h with | fastSelect _ hs =>
    obtain ⟨c, h1, h2⟩ := hs.mem hm
    exact ⟨c, .fast h1, h2⟩
  | sequence hm => cases h with | sequence _ hs =>
    obtain ⟨c, h1, h2⟩ := hs.mem hm
    exact ⟨c, .sequence h1, h2⟩
  | item => cases h with | separateBy _ hr hb => exact ⟨_, .item, hr⟩
  | sep => cases h with | separateBy _ hr hb => exact ⟨_, .sep, hb⟩
  | repeat_ => cases h with | repeat_ _ hr => exact ⟨_, .repeat_, hr⟩
  | lines => cases h with | lines _ hr => exact ⟨_, .lines, hr⟩
  | optional => cases h with | optional _ hr => exact ⟨_, .optional, hr⟩
  | not => cases h with | not _ hr => exact ⟨_, .not, hr⟩

theorem renumber_occurs {R : DebugId → DebugId → Prop} {x' r'} (hx : Occurs x' r') :
    ∀ {r}, Renumbered R r r' → ∃ x, Occurs x r ∧ Renumbered R x x' := by
  induction hx with
  | refl => intro r h; exact ⟨r, .refl, h⟩
  | step _ hc ih =>
    intro r h
    obtain ⟨c, h1, h2⟩ := renumber_child h hc
    obtain ⟨x, h3, h4⟩ := ih h2
    exact ⟨x, .step h3 h1, h4⟩

theorem renumber_indexOk {R : DebugId → DebugId → Prop} {refs refs' : List Rule}
    (hl : refs.length = refs'.length) {r r'} (h : Renumbered R r r') (hr : IndexOk refs r) :
    IndexOk refs' r' := by
  cases h with
  | @node _ _ _ ix _ _ _ =>
    cases ix with
    | none => trivial
    | some i => simpa [IndexOk, ← hl] using hr
  | fastSelect _ hs =>
    refine ⟨fun b hb => ?_, fun ht => ?_⟩
    · rw [← hs.length]; exact hr.1 b hb
    · have := hr.2 ht
      cases hs with
      | nil => exact absurd rfl this
      | cons => simp
  | _ => trivial

theorem renumber_syntaxOk {R : DebugId → DebugId → Prop} {syn syn' : Syntax}
    (h : RenumberedL R syn.rules syn'.rules) (hs : SyntaxOk syn) : SyntaxOk syn' := by
  intro r' hr' x' hx'
  obtain ⟨r, h1, h2⟩ := h.mem hr'
  obtain ⟨x, h3, h4⟩ := renumber_occurs hx' h2
  exact renumber_indexOk h.length h4 (hs r h1 x h3)

theorem uniqueByte_renumber {R : DebugId → DebugId → Prop} {refs refs' : List Rule}
    (hrefs : RenumberedL R refs refs') : ∀ n {r r'}, Renumbered R r r' →
      uniqueByte refs' n r' = uniqueByte refs n r := by
  intro n
  induction n with
  | zero => intro r r' _; simp [uniqueByte]
  | succ n ih =>
    intro r r' h
    cases h with
    | not _ hr => cases hr with
      | not _ hr => simp [uniqueByte, ih hr]
      | _ => simp [uniqueByte]
    | select _ hs => cases hs with
      | nil => simp [uniqueByte]
      | cons hr hs => cases hs with
        | nil => simp [uniqueByte, ih hr]
        | cons => simp [uniqueByte]
    | sequence _ hs => cases hs with
      | nil => simp [uniqueByte]
      | cons hr hs => simp [uniqueByte, ih hr]
    | separateBy _ hr hb => simp [uniqueByte, ih hr]
    | repeat_ _ hr => simp [uniqueByte, ih hr]
    | @node _ _ _ ix _ _ _ =>
      cases ix with
      | none => simp [uniqueByte]
      | some i =>
        simp only [uniqueByte]
        cases hq : refs[i]? with
        | none =>
          have : refs'[i]? = none := by
            rw [List.getElem?_eq_none_iff] at hq ⊢
            rw [← hrefs.length]
            exact hq
          simp [this]
        | some q =>
          obtain ⟨q', h1, h2⟩ := hrefs.get hq
          simp [h1, ih h2]
    | _ => simp [uniqueByte]

theorem uniqueLoop_renumber {R : DebugId → DebugId → Prop} {refs refs' : List Rule}
    (hrefs : RenumberedL R refs refs') (n : Nat) {rs rs'} (h : RenumberedL R rs rs') :
    ∀ i t u, uniqueLoop refs' n i rs' t u = uniqueLoop refs n i rs t u := by
  match h with
  | .nil => intros; rfl
  | .cons h1 h2 =>
    intro i t u
    simp only [uniqueLoop, uniqueByte_renumber hrefs n h1, uniqueLoop_renumber hrefs n h2]

/-- Computations with results that are alike. -/
inductive CompLike {α : Type} (P : α → α → Prop) : Comp α → Comp α → Prop
  | ok {a b} (h : P a b) : CompLike P (.ok a) (.ok b)
  | panic : CompLike P .panic .panic
  | timeout : CompLike P .timeout .timeout

theorem CompLike.bind {α β : Type} {P : α → α → Prop} {Q : β → β → Prop} {x y : Comp α}
    {f g : α → Comp β} (h : CompLike P x y) (hf : ∀ a b, P a b → CompLike Q (f a) (g b)) :
    CompLike Q (x >>= f) (y >>= g) := by
  cases h with
  | ok h => exact hf _ _ h
  | panic => exact .panic
  | timeout => exact .timeout

/-- Lists of computations that are alike one by one. -/
inductive CompsLike (R : DebugId → DebugId → Prop) : List (Comp Rule) → List (Comp Rule) → Prop
  | nil : CompsLike R [] []
  | cons {x y xs ys} (h : CompLike (Renumbered R) x y) (h' : CompsLike R xs ys) :
      CompsLike R (x :: xs) (y :: ys)

theorem CompsLike.all {R xs ys} (h : CompsLike R xs ys) :
    CompLike (RenumberedL R) (Comp.all xs) (Comp.all ys) := by
  induction h with
  | nil => exact .ok .nil
  | cons h _ ih =>
    cases h with
    | panic => exact .panic
    | timeout => exact .timeout
    | ok h =>
      simp only [Comp.all]
      generalize Comp.all _ = a at ih
      generalize Comp.all _ = b at ih
      cases ih with
      | ok h' => exact .ok (.cons h h')
      | panic => exact .panic
      | timeout => exact .timeout

theorem CompsLike.take {R xs ys} (h : CompsLike R xs ys) : ∀ k, CompsLike R (xs.take k) (ys.take k) := by
  induction h with
  | nil => intro k; simpa using .nil
  | cons h _ ih =>
    intro k
    cases k with
    | zero => exact .nil
    | succ k => exact .cons h (ih k)

theorem CompsLike.drop {R xs ys} (h : CompsLike R xs ys) : ∀ k, CompsLike R (xs.drop k) (ys.drop k) := by
  induction h with
  | nil => intro k; simpa using .nil
  | cons h h' ih =>
    intro k
    cases k with
    | zero => exact .cons h h'
    | succ k => exact ih k

theorem Spec.RenumberedL.snoc {R rs rs' r r'} (h : RenumberedL R rs rs') (hr : Renumbered R r r') :
    RenumberedL R (rs ++ [r]) (rs' ++ [r']) := by
  match h with
  | .nil => exact .cons hr .nil
  | .cons h1 h2 => exact .cons h1 (h2.snoc hr)

theorem optimizeSelect_renumber {R : DebugId → DebugId → Prop} {refs refs' : List Rule}
    (hrefs : RenumberedL R refs refs') (n : Nat) {rs rs' id id' xs ys} (hid : R id id')
    (h : RenumberedL R rs rs') (hx : CompsLike R xs ys) :
    CompLike (Renumbered R) (optimizeSelect refs n rs xs id) (optimizeSelect refs' n rs' ys id') := by
  have plain : CompLike (Renumbered R) (do let a ← Comp.all xs; return .select a id)
      (do let a ← Comp.all ys; return .select a id') :=
    hx.all.bind fun _ _ h => .ok (.select hid h)
  unfold optimizeSelect
  have hu : uniqueTable refs' n rs' = uniqueTable refs n rs := uniqueLoop_renumber hrefs n h _ _ _
  rw [hu]
  cases uniqueTable refs n rs with
  | panic => exact .panic
  | timeout => exact .timeout
  | ok t =>
    obtain ⟨t, u⟩ := t
    simp only [← h.length]
    split
    · split
      · exact (hx.drop 1).all.bind fun _ _ _ => plain
      · exact plain
    · refine (hx.take u).all.bind fun a b hab => ?_
      split
      · exact (hx.drop u).all.bind fun _ _ h' => .ok (.fastSelect hid (hab.snoc (.select hid h')))
      · exact .ok (.fastSelect hid hab)

mutual
theorem optimizeRule_renumber {R : DebugId → DebugId → Prop} {refs refs' : List Rule}
    (hrefs : RenumberedL R refs refs') (n : Nat) {r r'} (h : Renumbered R r r') :
    CompLike (Renumbered R) (optimizeRule refs n r) (optimizeRule refs' n r') := by
  match h with
  | .whitespace h => exact .ok (.whitespace h)
  | .tag h => exact .ok (.tag h)
  | .untilAny h => exact .ok (.untilAny h)
  | .untilAnyOrWs h => exact .ok (.untilAnyOrWs h)
  | .text h => exact .ok (.text h)
  | .number h => exact .ok (.number h)
  | .node h => exact .ok (.node h)
  | .fastSelect h hs => exact .ok (.fastSelect h hs)
  | .select h hs =>
    simp only [optimizeRule]
    exact optimizeSelect_renumber hrefs n h hs (optimizeRules_renumber hrefs n hs)
  | .sequence h hs =>
    simp only [optimizeRule]
    exact (optimizeRules_renumber hrefs n hs).all.bind fun _ _ h' => .ok (.sequence h h')
  | .separateBy h hr hb =>
    simp only [optimizeRule]
    exact (optimizeRule_renumber hrefs n hr).bind fun _ _ h1 =>
      (optimizeRule_renumber hrefs n hb).bind fun _ _ h2 => .ok (.separateBy h h1 h2)
  | .repeat_ h hr =>
    simp only [optimizeRule]
    exact (optimizeRule_renumber hrefs n hr).bind fun _ _ h1 => .ok (.repeat_ h h1)
  | .lines h hr =>
    simp only [optimizeRule]
    exact (optimizeRule_renumber hrefs n hr).bind fun _ _ h1 => .ok (.lines h h1)
  | .optional h hr =>
    simp only [optimizeRule]
    exact (optimizeRule_renumber hrefs n hr).bind fun _ _ h1 => .ok (.optional h h1)
  | .not h hr =>
    simp only [optimizeRule]
    exact (optimizeRule_renumber hrefs n hr).bind fun _ _ h1 => .ok (.not h h1)
theorem optimizeRules_renumber {R : DebugId → DebugId → Prop} {refs refs' : List Rule}
    (hrefs : RenumberedL R refs refs') (n : Nat) {rs rs'} (h : RenumberedL R rs rs') :
    CompsLike R (optimizeRules refs n rs) (optimizeRules refs' n rs') := by
  match h with
  | .nil => exact .nil
  | .cons h h' => exact .cons (optimizeRule_renumber hrefs n h) (optimizeRules_renumber hrefs n h')
end

end Verif
