import Verif.Proofs.Properties
import Verif.Proofs.RenumberOpt
import Verif.Spec.Safe
import Verif.Spec.Optimize
/-
Properties influence neither the check of indices nor the optimizer.
-/
namespace Verif
open Spec

theorem Spec.RelabelledL.mem {P rs rs'} (h : RelabelledL P rs rs') {r'} (hr : r' ∈ rs') :
    ∃ r ∈ rs, Relabelled P r r' := by
  obtain ⟨k, hk⟩ := List.getElem?_of_mem hr
  obtain ⟨r, h1, h2⟩ := h.flip.get hk
  exact ⟨r, List.mem_of_getElem? h1, h2.flip⟩

theorem relabel_child {P : Option Str → Option Str → Prop} {r r' c'} (h : Relabelled P r r')
    (hc : Child c' r') : ∃ c, Child c r ∧ Relabelled P c c' := by
  cases hc with
  | select hm => cases h with | select hs =>
    obtain ⟨c, h1, h2⟩ := hs.mem hm
    exact ⟨c, .select h1, h2⟩
  | fast hm => cases h with | fastSelect hs =>
    obtain ⟨c, h1, h2⟩ := hs.mem hm
    exact ⟨c, .fast h1, h2⟩
  | sequence hm => cases h with | sequence hs =>
    obtain ⟨c, h1, h2⟩ := hs.mem hm
    exact ⟨c, .sequence h1, h2⟩
  | item => cases h with | separateBy hr hb => exact ⟨_, .item, hr⟩
  | sep => cases h with | separateBy hr hb => exact ⟨_, .sep, hb⟩
  | repeat_ => cases h with | repeat_ hr => exact ⟨_, .repeat_, hr⟩
  | lines => cases h with | lines hr => exact ⟨_, .lines, hr⟩
  | optional => cases h with | optional hr => exact ⟨_, .optional, hr⟩
  | not => cases h with | not hr => exact ⟨_, .not, hr⟩

theorem relabel_occurs {P : Option Str → Option Str → Prop} {x' r'} (hx : Occurs x' r') :
    ∀ {r}, Relabelled P r r' → ∃ x, Occurs x r ∧ Relabelled P x x' := by
  induction hx with
  | refl => intro r h; exact ⟨r, .refl, h⟩
  | step _ hc ih =>
    intro r h
    obtain ⟨c, h1, h2⟩ := relabel_child h hc
    obtain ⟨x, h3, h4⟩ := ih h2
    exact ⟨x, .step h3 h1, h4⟩

theorem relabel_indexOk {P : Option Str → Option Str → Prop} {refs refs' : List Rule}
    (hl : refs.length = refs'.length) {r r'} (h : Relabelled P r r') (hr : IndexOk refs r) :
    IndexOk refs' r' := by
  cases h with
  | @node _ _ _ ix _ _ =>
    cases ix with
    | none => trivial
    | some i => simpa [IndexOk, ← hl] using hr
  | fastSelect hs =>
    refine ⟨fun b hb => ?_, fun ht => ?_⟩
    · rw [← hs.length]; exact hr.1 b hb
    · have := hr.2 ht
      cases hs with
      | nil => exact absurd rfl this
      | cons => simp
  | _ => trivial

theorem relabel_syntaxOk {P : Option Str → Option Str → Prop} {syn syn' : Syntax}
    (h : RelabelledL P syn.rules syn'.rules) (hs : SyntaxOk syn) : SyntaxOk syn' := by
  intro r' hr' x' hx'
  obtain ⟨r, h1, h2⟩ := h.mem hr'
  obtain ⟨x, h3, h4⟩ := relabel_occurs hx' h2
  exact relabel_indexOk h.length h4 (hs r h1 x h3)

theorem uniqueByte_relabel {P : Option Str → Option Str → Prop} {refs refs' : List Rule}
    (hrefs : RelabelledL P refs refs') : ∀ n {r r'}, Relabelled P r r' →
      uniqueByte refs' n r' = uniqueByte refs n r := by
  intro n
  induction n with
  | zero => intro r r' _; simp [uniqueByte]
  | succ n ih =>
    intro r r' h
    cases h with
    | not hr => cases hr with
      | not hr => simp [uniqueByte, ih hr]
      | _ => simp [uniqueByte]
    | select hs => cases hs with
      | nil => simp [uniqueByte]
      | cons hr hs => cases hs with
        | nil => simp [uniqueByte, ih hr]
        | cons => simp [uniqueByte]
    | sequence hs => cases hs with
      | nil => simp [uniqueByte]
      | cons hr hs => simp [uniqueByte, ih hr]
    | separateBy hr hb => simp [uniqueByte, ih hr]
    | repeat_ hr => simp [uniqueByte, ih hr]
    | @node _ _ _ ix _ _ =>
      cases ix with
      | none => simp [uniqueByte]
      | some i =>
        simp only [uniqueByte]
        cases hq : refs[i]? with
        | none =>
          have : refs'[i]? = none := by
            rw [List.getElem?_eq_none_iff] at hq ⊢
            rw [← hrefs.length]
            exact hq
          simp [this]
        | some q =>
          obtain ⟨q', h1, h2⟩ := hrefs.get hq
          simp [h1, ih h2]
    | _ => simp [uniqueByte]

theorem uniqueLoop_relabel {P : Option Str → Option Str → Prop} {refs refs' : List Rule}
    (hrefs : RelabelledL P refs refs') (n : Nat) {rs rs'} (h : RelabelledL P rs rs') :
    ∀ i t u, uniqueLoop refs' n i rs' t u = uniqueLoop refs n i rs t u := by
  match h with
  | .nil => intros; rfl
  | .cons h1 h2 =>
    intro i t u
    simp only [uniqueLoop, uniqueByte_relabel hrefs n h1, uniqueLoop_relabel hrefs n h2]

/-- Lists of computations that are alike one by one. -/
inductive CompsSame (P : Option Str → Option Str → Prop) : List (Comp Rule) → List (Comp Rule) → Prop
  | nil : CompsSame P [] []
  | cons {x y xs ys} (h : CompLike (Relabelled P) x y) (h' : CompsSame P xs ys) :
      CompsSame P (x :: xs) (y :: ys)

theorem CompsSame.all {P xs ys} (h : CompsSame P xs ys) :
    CompLike (RelabelledL P) (Comp.all xs) (Comp.all ys) := by
  induction h with
  | nil => exact .ok .nil
  | cons h _ ih =>
    cases h with
    | panic => exact .panic
    | timeout => exact .timeout
    | ok h =>
      simp only [Comp.all]
      generalize Comp.all _ = a at ih
      generalize Comp.all _ = b at ih
      cases ih with
      | ok h' => exact .ok (.cons h h')
      | panic => exact .panic
      | timeout => exact .timeout

theorem CompsSame.take {P xs ys} (h : CompsSame P xs ys) : ∀ k, CompsSame P (xs.take k) (ys.take k) := by
  induction h with
  | nil => intro k; simpa using .nil
  | cons h _ ih =>
    intro k
    cases k with
    | zero => exact .nil
    | succ k => exact .cons h (ih k)

theorem CompsSame.drop {P xs ys} (h : CompsSame P xs ys) : ∀ k, CompsSame P (xs.drop k) (ys.drop k) := by
  induction h with
  | nil => intro k; simpa using .nil
  | cons h h' ih =>
    intro k
    cases k with
    | zero => exact .cons h h'
    | succ k => exact ih k

theorem Spec.RelabelledL.snoc {P rs rs' r r'} (h : RelabelledL P rs rs') (hr : Relabelled P r r') :
    RelabelledL P (rs ++ [r]) (rs' ++ [r']) := by
  match h with
  | .nil => exact .cons hr .nil
  | .cons h1 h2 => exact .cons h1 (h2.snoc hr)

theorem optimizeSelect_relabel {P : Option Str → Option Str → Prop} {refs refs' : List Rule}
    (hrefs : RelabelledL P refs refs') (n : Nat) {rs rs' id xs ys}
    (h : RelabelledL P rs rs') (hx : CompsSame P xs ys) :
    CompLike (Relabelled P) (optimizeSelect refs n rs xs id) (optimizeSelect refs' n rs' ys id) := by
  have plain : CompLike (Relabelled P) (do let a ← Comp.all xs; return .select a id)
      (do let a ← Comp.all ys; return .select a id) :=
    hx.all.bind fun _ _ h => .ok (.select h)
  unfold optimizeSelect
  have hu : uniqueTable refs' n rs' = uniqueTable refs n rs := uniqueLoop_relabel hrefs n h _ _ _
  rw [hu]
  cases uniqueTable refs n rs with
  | panic => exact .panic
  | timeout => exact .timeout
  | ok t =>
    obtain ⟨t, u⟩ := t
    simp only [← h.length]
    split
    · split
      · exact (hx.drop 1).all.bind fun _ _ _ => plain
      · exact plain
    · refine (hx.take u).all.bind fun a b hab => ?_
      split
      · exact (hx.drop u).all.bind fun _ _ h' => .ok (.fastSelect (hab.snoc (.select h')))
      · exact .ok (.fastSelect hab)

mutual
theorem optimizeRule_relabel {P : Option Str → Option Str → Prop} {refs refs' : List Rule}
    (hrefs : RelabelledL P refs refs') (n : Nat) {r r'} (h : Relabelled P r r') :
    CompLike (Relabelled P) (optimizeRule refs n r) (optimizeRule refs' n r') := by
  match h with
  | .whitespace => exact .ok .whitespace
  | .tag h => exact .ok (.tag h)
  | .untilAny h => exact .ok (.untilAny h)
  | .untilAnyOrWs h => exact .ok (.untilAnyOrWs h)
  | .text h => exact .ok (.text h)
  | .number h => exact .ok (.number h)
  | .node h => exact .ok (.node h)
  | .fastSelect hs => exact .ok (.fastSelect hs)
  | .select hs =>
    simp only [optimizeRule]
    exact optimizeSelect_relabel hrefs n hs (optimizeRules_relabel hrefs n hs)
  | .sequence hs =>
    simp only [optimizeRule]
    exact (optimizeRules_relabel hrefs n hs).all.bind fun _ _ h' => .ok (.sequence h')
  | .separateBy hr hb =>
    simp only [optimizeRule]
    exact (optimizeRule_relabel hrefs n hr).bind fun _ _ h1 =>
      (optimizeRule_relabel hrefs n hb).bind fun _ _ h2 => .ok (.separateBy h1 h2)
  | .repeat_ hr =>
    simp only [optimizeRule]
    exact (optimizeRule_relabel hrefs n hr).bind fun _ _ h1 => .ok (.repeat_ h1)
  | .lines hr =>
    simp only [optimizeRule]
    exact (optimizeRule_relabel hrefs n hr).bind fun _ _ h1 => .ok (.lines h1)
  | .optional hr =>
    simp only [optimizeRule]
    exact (optimizeRule_relabel hrefs n hr).bind fun _ _ h1 => .ok (.optional h1)
  | .not hr =>
    simp only [optimizeRule]
    exact (optimizeRule_relabel hrefs n hr).bind fun _ _ h1 => .ok (.not h1)
theorem optimizeRules_relabel {P : Option Str → Option Str → Prop} {refs refs' : List Rule}
    (hrefs : RelabelledL P refs refs') (n : Nat) {rs rs'} (h : RelabelledL P rs rs') :
    CompsSame P (optimizeRules refs n rs) (optimizeRules refs' n rs') := by
  match h with
  | .nil => exact .nil
  | .cons h h' => exact .cons (optimizeRule_relabel hrefs n h) (optimizeRules_relabel hrefs n h')
end

end Verif
